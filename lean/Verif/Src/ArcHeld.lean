import Verif.Src.ArcNestSpec
/-
`ArcIntern` as it is written, called by user code that runs inside calls, also while a lock is held.

`Verif/Src/ArcNest.lean` has the calls that destructors make, and `Hash` where DashMap chooses a shard, before it takes the lock. Here user
code also makes calls
* in a lookup (arc.rs:227, 248, 322, arc_dst.rs:79, 97): DashMap takes the lock of the shard, hashes the key again and compares it with the
  entries; `Hash` and `Eq` may do anything before they return;
* in the insertion of a new entry (arc.rs:254): when the table of the shard grows, its entries are hashed again, under the lock.

A lookup has two steps: the lock is taken, and, after user code has returned, the lookup is done. Everything else is as in
`Verif/Src/ArcNest.lean`. A thread that waits for a lock that it holds itself waits for ever, as with the locks of DashMap.
-/
namespace Src.ArcHeld
open Arc (Addr Tid Cell Cfg Res)
open Src.ArcCode (Var Val Op Glue Mem Stack lang)
open Src.ArcNest (Running Call Event)

section
variable {V : Type}

/-- The whole program: as in `Verif/Src/ArcNest.lean`, with the locks that lookups in progress hold, each with the number of the call. -/
structure State (V : Type) where
  base : ArcNest.State V
  held : List (Nat × Nat)

def init : State V := { base := ArcNest.init, held := [] }

/-- Actions. -/
inductive Act (V : Type) where
  /-- the lookup that the innermost call of thread `t` does takes the lock of the shard. -/
  | lock (t : Tid)
  /-- all others. `run t` is also the end of a lookup, and `panic t` a panic in it. -/
  | act (a : ArcNest.Act V)

/-- The operation that a function is going to do. -/
def nextOp [BEq V] [Hashable V] (cfg : Cfg V) (f : Frame Var (Val V) Op (Glue V)) : Option Op :=
  if f.exiting then none else match f.items with
    | .stmt s :: _ => (lang cfg).opOf s
    | _ => none

/-- The shard of the value in a box. -/
def shardAt [Hashable V] (cfg : Cfg V) (m : Mem V) (b : Addr) : Option Nat := (Arc.get m.heap b).map fun c => cfg.shardOf c.data

/-- The shard in which an operation looks a value up. -/
def opShard [Hashable V] (cfg : Cfg V) (m : Mem V) (sc : Scopes Var (Val V)) : Op → Option Nat
  | .getMut x => match sc.get x with
    | some (.owned v) | some (.borrowed v) => some (cfg.shardOf v)
    | _ => none
  | .entry x => match sc.get x with
    | some (.box b) => shardAt cfg m b
    | _ => none
  | .remove x => match sc.get x with
    | some (.ref b) => shardAt cfg m b
    | _ => none
  | _ => none

/-- The shard in which a call is looking a value up, or going to. -/
def lookup [BEq V] [Hashable V] (cfg : Cfg V) (m : Mem V) (c : Running V) : Option Nat :=
  c.stack.head?.bind fun f => (nextOp cfg f).bind (opShard cfg m f.scopes)

/-- The function inserts an entry, for which the table may have to grow. -/
def inInsert (f : Frame Var (Val V) Op (Glue V)) : Bool := match f.items with
  | .stmt (.exec (.insert _)) :: _ => !f.exiting
  | _ => false

/-- Can a thread start a call now? Between two calls, and inside user code. -/
def mayCall : List (Running V) → Bool
  | [] => true
  | c :: _ => c.inUser || c.stack.head?.any inInsert

/-- The lock that the next step of thread `t` needs, with the number of the call. -/
def needs [BEq V] [Hashable V] (cfg : Cfg V) (N : ArcNest.State V) (t : Tid) : Option (Nat × Nat) := match N.threads[t]? with
  | some (c :: _) => (lookup cfg N.mem c).map fun sh => (sh, c.id)
  | _ => none

/-- The lock of a shard is taken. -/
def State.taken (X : State V) (sh : Nat) : Bool := (X.base.mem.locks sh).isSome || X.held.any fun h => h.1 == sh

/-- A step of `Verif/Src/ArcNest.lean`, after which `held` are the locks of lookups in progress. -/
def lift [BEq V] [Hashable V] (cfg : Cfg V) (X : State V) (a : ArcNest.Act V) (held : List (Nat × Nat)) : Res (State V) :=
  match ArcNest.step cfg X.base a mayCall with
  | .ok N => .ok { base := N, held }
  | .blocked => .blocked
  | .ub => .ub

/-- The transition function. -/
def step [BEq V] [Hashable V] (cfg : Cfg V) (X : State V) : Act V → Res (State V)
  | .lock t => match needs cfg X.base t with
    | some h => if X.taken h.1 then .blocked else .ok { X with held := h :: X.held }
    | none => .blocked
  | .act (.run t a) => match needs cfg X.base t with
    | some h => if h ∈ X.held then lift cfg X (.run t a) (X.held.erase h) else .blocked
    | none => lift cfg X (.run t a) X.held
  | .act (.panic t) => match needs cfg X.base t with
    | some h => lift cfg X (.panic t) (X.held.erase h)
    | none => lift cfg X (.panic t) X.held
  | .act a => lift cfg X a X.held

end
end Src.ArcHeld
