import Verif.Arc.Model
/-
Vocabulary in which the properties of `ArcIntern` are stated: which handles exist, which states are
reachable, what the observers return, and the atomic specification used for C08.
-/
namespace Arc
variable {V : Type}

/-- Handles owned by the locals of a thread's current function. A handle that `new` is going to return
exists from its successful increment (arc.rs:231) or from the insertion (arc.rs:254); a handle being
dropped exists until its decrement (arc.rs:299). Handles inside `val` belong to the call until the value
is moved into a box. -/
def Pc.owned (cfg : Cfg V) : Pc V → List Addr
  | .newLoop c | .newFound c _ _ | .newUndo c _ _ | .newRelease c _ | .newAlloc c => cfg.kids c.val
  | .newHit c _ b => b :: cfg.kids c.val
  | .newInserted _ _ b => [b]
  | .dropSub b => [b]
  | _ => []

/-- All handles owned by a thread (as opposed to client data): locals, pending drops, return value. -/
def Thread.owned (cfg : Cfg V) (th : Thread V) : List Addr :=
  th.pc.owned cfg ++ th.todo ++ th.ret.toList

/-- Handles stored inside interned (or about to be interned) values. -/
def storedHandles (cfg : Cfg V) (h : List (Addr × Cell V)) : List Addr :=
  h.flatMap fun e => cfg.kids e.2.data

/-- Every `ArcIntern` handle that exists in state `s`, one list element per handle: held by clients, held
by running calls, or stored inside values. -/
def allHandles (cfg : Cfg V) (s : State V) : List Addr :=
  s.handles ++ s.threads.flatMap (Thread.owned cfg) ++ storedHandles cfg s.heap

/-- `*p` / `p.as_ref()` (arc.rs:327-362): `none` would be a read of freed memory. -/
def deref (s : State V) (p : Addr) : Option V := (get s.heap p).map (·.data)

/-- `p.refcount()` (arc.rs:207-209). -/
def refcount (s : State V) (p : Addr) : Option Nat := (get s.heap p).map (·.count)

/-- `p == q` (arc.rs:390-395): pointer comparison. -/
def handleEq (p q : Addr) : Bool := p == q

/-- `num_objects_interned()` when nothing else runs (arc.rs:203-205). -/
def numObjects (s : State V) : Nat := s.table.length

/-- No object has `W` (2^64) or more handles. -/
def Small (cfg : Cfg V) (s : State V) : Prop := ∀ p, (allHandles cfg s).count p < cfg.W

/-- Every action except a panic in the middle of a table insertion (see C19). -/
def Act.Sane : Act V → Prop
  | .panicInsert _ => False
  | _ => True

/-- An action that is not a user panic. -/
def Act.NoPanic : Act V → Prop
  | .panicInsert _ | .panic _ => False
  | _ => True

/-- The thread an action belongs to. -/
def Act.tid : Act V → Option Tid
  | .spawn => none
  | .new t _ _ | .clone t _ | .read t _ | .drop t _ | .len t _ _ | .shrink t _ _ | .run t _ | .panic t
  | .panicInsert t => some t

/-- States reachable by any interleaving of any client program on any number of threads. -/
inductive Reach [BEq V] [Hashable V] (cfg : Cfg V) : State V → Prop
  | init : Reach cfg init
  | step {s s' : State V} {a : Act V} : Reach cfg s → a.Sane → step cfg s a = .ok s' → Small cfg s' →
      Reach cfg s'

/-- An execution fragment: `Exec cfg s s'` says `s'` is reached from `s` by sane actions through states
satisfying `P` (including both ends). -/
inductive ExecIn [BEq V] [Hashable V] (cfg : Cfg V) (P : State V → Prop) : State V → State V → Prop
  | refl {s : State V} : P s → ExecIn cfg P s s
  | step {s s' s'' : State V} {a : Act V} : ExecIn cfg P s s' → a.Sane → step cfg s' a = .ok s'' →
      Small cfg s'' → P s'' → ExecIn cfg P s s''

/-- Boxes owned by the local variables of a call: a speculative box not yet inserted (arc.rs:244-248), the
`converted` cache (arc_dst.rs:75), or a removed box about to be destroyed (arc.rs:320-324). -/
def Pc.priv : Pc V → List Addr
  | .newLoop c | .newFound c _ _ | .newUndo c _ _ | .newRelease c _ | .newHit c _ _ => c.conv.toList
  | .newEntry _ b | .newVacant _ _ b | .newOccupied _ _ b | .newUnbox _ b | .dropFree b => [b]
  | _ => []

/-- Nothing in progress. -/
def Quiescent (s : State V) : Prop := ∀ th ∈ s.threads, th.isIdle = true

/-- A user `Hash`/`Eq` panic inside the `m.remove` of a `drop` (arc.rs:322). -/
def dropPanic (s : State V) : Act V → Prop
  | .panic t => ∃ th b, s.threads[t]? = some th ∧ th.pc = .dropRemove b
  | _ => False

/-- States reachable without any user panic inside a `drop`. -/
inductive ReachND [BEq V] [Hashable V] (cfg : Cfg V) : State V → Prop
  | init : ReachND cfg init
  | step {s s' : State V} {a : Act V} : ReachND cfg s → a.Sane → ¬ dropPanic s a → step cfg s a = .ok s' →
      Small cfg s' → ReachND cfg s'

/-- Run a list of actions one after another. -/
def exec [BEq V] [Hashable V] (cfg : Cfg V) (s : State V) : List (Act V) → Res (State V)
  | [] => .ok s
  | a :: as => match step cfg s a with
    | .ok s' => exec cfg s' as
    | .blocked => .blocked
    | .ub => .ub

/-- Existing objects reachable from `p` by following handles stored in values. -/
inductive Points (cfg : Cfg V) (s : State V) : Addr → Addr → Prop
  | refl (p : Addr) : Points cfg s p p
  | step {p q r : Addr} {v : V} : Points cfg s p q → deref s q = some v → r ∈ cfg.kids v → Points cfg s p r

/-! ### Atomic specification (C08)

The specification state only has the multiset of existing handles and the values of the objects they
point to. Its operations are atomic. -/

/-- Operations of the atomic specification, with the thread performing them and their result. -/
inductive Op (V : Type) where
  | intern (t : Tid) (v : V) (h : Addr)
  | clone (t : Tid) (p : Addr)
  | drop (t : Tid) (p : Addr)
  deriving Repr

/-- Specification state. `val p` is meaningful when `p ∈ handles`. -/
structure Abs (V : Type) where
  handles : List Addr
  val : Addr → Option V

/-- Values of existing objects stay. -/
def Abs.sameVals (a a' : Abs V) : Prop := ∀ p, p ∈ a.handles → p ∈ a'.handles → a'.val p = a.val p

/-- One atomic operation of the specification. -/
def Abs.does [BEq V] (a : Abs V) (o : Op V) (a' : Abs V) : Prop :=
  a.sameVals a' ∧
  match o with
  | .intern _ v h =>
    a'.handles.Perm (h :: a.handles) ∧
    ((∃ w, h ∈ a.handles ∧ a.val h = some w ∧ (w == v) = true) ∨
     ((∀ p w, p ∈ a.handles → a.val p = some w → (w == v) = false) ∧ h ∉ a.handles ∧ a'.val h = some v))
  | .clone _ p => p ∈ a.handles ∧ a'.handles.Perm (p :: a.handles)
  | .drop _ p => a.handles.Perm (p :: a'.handles)

/-- No operation takes effect. -/
def Abs.stutters (a a' : Abs V) : Prop := a.sameVals a' ∧ a'.handles.Perm a.handles

/-- A sequential run of the specification performing exactly the operations `os`. -/
inductive SpecRun [BEq V] : Abs V → List (Op V) → Abs V → Prop
  | done {a : Abs V} : SpecRun a [] a
  | stutter {a a' a'' : Abs V} {os : List (Op V)} : a.stutters a' → SpecRun a' os a'' → SpecRun a os a''
  | op {a a' a'' : Abs V} {o : Op V} {os : List (Op V)} : a.does o a' → SpecRun a' os a'' → SpecRun a (o :: os) a''

/-- The specification state a state of the model stands for. -/
def abs (cfg : Cfg V) (s : State V) : Abs V := { handles := allHandles cfg s, val := deref s }

/-- The operation, if any, that takes effect in one step: a successful increment (arc.rs:231) or insertion
(arc.rs:254) of `new`, the increment of `clone` (arc.rs:279), the decrement of `drop` (arc.rs:299). -/
def effect (cfg : Cfg V) (s : State V) : Act V → Option (Op V)
  | .clone t path => match borrow cfg s path with
    | .ok p => some (.clone t p)
    | _ => none
  | .run t _ => match s.threads[t]? with
    | none => none
    | some th => match th.pc with
      | .newFound c _ b => match get s.heap b with
        | some x => if x.count ≠ 0 then some (.intern t c.val b) else none
        | none => none
      | .newVacant c _ b => some (.intern t c.val b)
      | .dropSub b => some (.drop t b)
      | _ => none
  | _ => none

/-- Thread `t` is inside a call. -/
def InCall (t : Tid) (s : State V) : Prop := ∃ th, s.threads[t]? = some th ∧ th.isIdle = false

/-- An execution fragment together with the operations that take effect in it, in order: `s'` is reached from
`s` by sane actions through states satisfying `P` (including both ends). -/
inductive RunOps [BEq V] [Hashable V] (cfg : Cfg V) (P : State V → Prop) : State V → List (Op V) → State V → Prop
  | refl {s : State V} : P s → RunOps cfg P s [] s
  | step {s s' s'' : State V} {os : List (Op V)} {a : Act V} : RunOps cfg P s os s' → a.Sane →
      step cfg s' a = .ok s'' → Small cfg s'' → P s'' → RunOps cfg P s (os ++ (effect cfg s' a).toList) s''

/-- Part of an execution during which thread `t` is inside one call and no user code of that call panics. -/
inductive CallRun [BEq V] [Hashable V] (cfg : Cfg V) (t : Tid) : State V → State V → Prop
  | refl {s : State V} : InCall t s → CallRun cfg t s s
  | step {s s' s'' : State V} {a : Act V} : CallRun cfg t s s' → a.Sane → a ≠ .panic t →
      step cfg s' a = .ok s'' → Small cfg s'' → InCall t s'' → CallRun cfg t s s''

/-- The thread performing an operation. -/
def Op.tid : Op V → Tid
  | .intern t _ _ | .clone t _ | .drop t _ => t

/-- The operations of thread `t`. -/
def opsOf (t : Tid) (os : List (Op V)) : List (Op V) := os.filter (·.tid == t)

/-! ### Ledger of values (C09) -/

/-- Values of type `T` held in local variables of a call (the unsized constructors only borrow theirs). -/
def Pc.vals : Pc V → List V
  | .newLoop c | .newFound c _ _ | .newUndo c _ _ | .newRelease c _ | .newHit c _ _ | .newAlloc c =>
    if c.dst then [] else [c.val]
  | _ => []

/-- Every value of type `T` inside the interner: locals of calls and boxes. -/
def valuesIn (s : State V) : List V :=
  s.threads.flatMap (fun th => th.pc.vals) ++ s.heap.map (·.2.data)

/-- Values that enter the interner in a step: the argument of a sized `new`; for the unsized constructors, the
copy made when the box is allocated (arc_dst.rs:24-64). -/
def supplies (s : State V) : Act V → List V
  | .new _ v dst => if dst then [] else [v]
  | .run t _ => match s.threads[t]? with
    | some th => match th.pc with
      | .newAlloc c => if c.dst then [c.val] else []
      | _ => []
    | none => []
  | _ => []

/-- Values whose destructor runs (or starts to run) in a step: an unused argument, when `new` returns an
existing object or unwinds, and the contents of a box that is destroyed. -/
def destroys (s : State V) : Act V → List V
  | .run t _ => match s.threads[t]? with
    | some th => match th.pc with
      | .newHit c _ _ => if c.dst then [] else [c.val]
      | .dropFree b => (deref s b).toList
      | _ => []
    | none => []
  | .panic t => match s.threads[t]? with
    | some th => match th.pc with
      | .newLoop c => if c.dst then [] else [c.val]
      | _ => []
    | none => []
  | _ => []

/-- An execution from the start with the list of values supplied and the list of values destroyed. -/
inductive Ledger [BEq V] [Hashable V] (cfg : Cfg V) : State V → List V → List V → Prop
  | init : Ledger cfg init [] []
  | step {s s' : State V} {sup des : List V} {a : Act V} : Ledger cfg s sup des → a.Sane → step cfg s a = .ok s' →
      Small cfg s' → Ledger cfg s' (supplies s a ++ sup) (destroys s a ++ des)

/-! ### Progress (C10–C12) -/

/-- The shard lock that the next step of a thread needs, if any. -/
def Pc.wants [Hashable V] (cfg : Cfg V) (s : State V) : Pc V → Option Nat
  | .newLoop c => some (cfg.shardOf c.val)
  | .newEntry _ b | .dropRemove b => (deref s b).map cfg.shardOf
  | .lenScan i m _ | .shrinkScan i m => if i < m then some i else none
  | _ => none

/-- A continuation in which no client call starts and no user code panics: only steps of running calls. -/
inductive Runs [BEq V] [Hashable V] (cfg : Cfg V) : State V → State V → Prop
  | refl (s : State V) : Runs cfg s s
  | step {s s' s'' : State V} {t : Tid} {a : Addr} : step cfg s (.run t a) = .ok s' → Small cfg s' →
      Runs cfg s' s'' → Runs cfg s s''

/-- Running the right thread, again and again, leads to a state that satisfies `G`, whatever addresses the allocator returns. -/
inductive Must [BEq V] [Hashable V] (cfg : Cfg V) (G : State V → Prop) : State V → Prop
  | done {s : State V} : G s → Must cfg G s
  | step {s : State V} (t : Tid) : (∀ a, a ≠ 0 → a ∉ keys s.heap → ∃ s', step cfg s (.run t a) = .ok s' ∧ Small cfg s') →
      (∀ a s', a ≠ 0 → a ∉ keys s.heap → step cfg s (.run t a) = .ok s' → Must cfg G s') → Must cfg G s

/-- A call of `new` that has not yet taken effect. -/
def Pc.pending : Pc V → Bool
  | .newLoop _ | .newFound _ _ _ | .newUndo _ _ _ | .newRelease _ _ | .newAlloc _ | .newEntry _ _
  | .newVacant _ _ _ | .newOccupied _ _ _ | .newUnbox _ _ => true
  | _ => false

/-- Number of calls of `new` that have not yet taken effect. -/
def pendingNews (s : State V) : Nat := s.threads.countP fun th => th.pc.pending

end Arc
