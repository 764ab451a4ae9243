import Verif.Src.ArcSpec
/-
`ArcIntern` as it is written (`Verif/Src/ArcCode.lean`), called by user code that runs inside calls: by destructors of values, and by `Hash`.

A destructor runs when a value is destroyed: the last handle to it was dropped (arc.rs:317-322), or `new` does not need its argument
(arc.rs:224). It may call the interner, move handles out of the fields of its value and put others there; the fields are dropped after it.
`Hash` runs at the start of every lookup (arc.rs:227, 248, 322), where DashMap chooses a shard, before it takes a lock; it can call the
interner with handles of clients. What `Eq` and `Hash` may do while a lock is held is C57 and C88.

Each thread is a stack of calls; each call is a stack of functions, as in `Verif/Src/ArcCode.lean`. Calls are numbered in the order in
which they start; a lock remembers the number of the call that has taken it.
-/
namespace Src.ArcNest
open Arc (Addr Tid Cell Cfg Res)
open Src.ArcCode (Var Val Op Glue Mem Stack lang newCode dropCode result It)

/-- What a client can call: `new` and the unsized constructors, and dropping a handle. `clone` is a single step. -/
inductive Call (V : Type) where
  | new (v : V) (dst : Bool)
  | drop (p : Addr)

/-- A call that is being executed. -/
structure Running (V : Type) where
  id : Nat
  call : Call V
  stack : Stack V

/-- What clients see: the start and the end of a call, and a `clone`. -/
inductive Event (V : Type) where
  | call (id : Nat) (c : Call V)
  | ret (id : Nat) (r : Option Addr)
  | clone (id : Nat) (p : Addr)

/-- The whole program: shared memory, the handles that clients own, for each thread the calls that it is executing, innermost first, the
number of calls so far, and what clients have seen, newest first. -/
structure State (V : Type) where
  mem : Mem V
  handles : List Addr
  threads : List (List (Running V))
  next : Nat
  hist : List (Event V)

section
variable {V : Type}

def init : State V :=
  { mem := { heap := [], table := [], locks := fun _ => none }, handles := [], threads := [], next := 0, hist := [] }

/-- Actions. -/
inductive Act (V : Type) where
  | spawn
  | new (t : Tid) (v : V) (dst : Bool)
  | clone (t : Tid) (path : List Addr)
  | read (t : Tid) (path : List Addr)
  | drop (t : Tid) (p : Addr)
  /-- the destructor that runs on thread `t` moves a handle out of a field of its value (`mem::take`, `mem::replace`, …). -/
  | take (t : Tid) (p : Addr)
  /-- it moves a handle into a field. -/
  | put (t : Tid) (p : Addr)
  /-- one step of the innermost function of thread `t`; `a` is the allocator's answer, if the step allocates. -/
  | run (t : Tid) (a : Addr)
  /-- user code that is running on thread `t` panics. (A panic that leaves a call is caught by the user code that made the call; that code may
  then panic itself.) -/
  | panic (t : Tid)

/-- A destructor of the user is running, or going to run, in the next step of a function. -/
def inDestructor (f : Frame Var (Val V) Op (Glue V)) : Bool := match f.items with
  | .glue (.value _) :: _ => true
  | _ => false

/-- The function is going to do a lookup, which calls `Hash` first. -/
def inHash (f : Frame Var (Val V) Op (Glue V)) : Bool := match f.items with
  | .stmt (.choose _ (.getMut _) _ _) :: _ | .stmt (.choose _ (.entry _) _ _) :: _ | .stmt (.assign _ (.remove _)) :: _ => !f.exiting
  | _ => false

/-- Is a call inside user code? -/
def Running.inUser (c : Running V) : Bool := c.stack.head?.any fun f => inDestructor f || inHash f

/-- Can a thread start a call now? Between two calls, and inside user code. -/
def canCall : List (Running V) → Bool
  | [] => true
  | c :: _ => c.inUser

/-- The handles in the fields of the value whose destructor runs: they are dropped when it has ended. -/
def fields : List (It V) → List Addr
  | .glue (.handle b) :: l => b :: fields l
  | _ => []

/-- Move a handle out of the fields. -/
def takeField (p : Addr) : List (It V) → List (It V)
  | .glue (.handle b) :: l => if b = p then l else .glue (.handle b) :: takeField p l
  | l => l

/-- The call ends: what clients see. If it has panicked, nothing is returned. -/
def ends (c : Running V) (r : Option (Val V)) : List (Event V) :=
  if c.stack.any (·.panicking) then [] else match c.call, r with
    | .new _ _, some (.handle b) => [.ret c.id (some b)]
    | .new _ _, _ => []
    | .drop _, _ => [.ret c.id none]

/-- Memory and handles as a state of `Verif/Arc/Model.lean`, for following paths of handles. -/
def State.view (N : State V) : Arc.State V := { N.mem.view with handles := N.handles }

/-- The transition function. `can` says when a thread can start a call (another choice of it is `Verif/Src/ArcHeld.lean`). -/
def step [BEq V] [Hashable V] (cfg : Cfg V) (N : State V) (act : Act V) (can : List (Running V) → Bool := canCall) : Res (State V) :=
  match act with
  | .spawn => .ok { N with threads := N.threads ++ [[]] }
  | .new t v dst => match N.threads[t]? with
    | some cs =>
      if can cs && (Arc.ownsAll N.handles (cfg.kids v) && (!dst || (cfg.kids v).isEmpty)) then
        .ok { N with
          threads := N.threads.set t ({ id := N.next, call := .new v dst, stack :=
            [(lang cfg).enter [(.val, some (if dst then .borrowed v else .owned v))] (newCode dst)] } :: cs)
          handles := Arc.eraseAll N.handles (cfg.kids v)
          next := N.next + 1
          hist := .call N.next (.new v dst) :: N.hist }
      else .blocked
    | none => .blocked
  | .clone t path => match N.threads[t]? with
    | some cs =>
      if can cs then match Arc.borrow cfg N.view path with
        | .ok p => match Arc.get N.mem.heap p with
          | some x => .ok { N with
              mem := { N.mem with heap := Arc.setCount N.mem.heap p (cfg.inc x.count) }
              handles := p :: N.handles
              next := N.next + 1
              hist := .clone N.next p :: N.hist }
          | none => .ub
        | .blocked => .blocked
        | .ub => .ub
      else .blocked
    | none => .blocked
  | .read t path => match N.threads[t]? with
    | some cs =>
      if can cs then match Arc.borrow cfg N.view path with
        | .ok _ => .ok N
        | .blocked => .blocked
        | .ub => .ub
      else .blocked
    | none => .blocked
  | .drop t p => match N.threads[t]? with
    | some cs =>
      if can cs && decide (p ∈ N.handles) then
        .ok { N with
          threads := N.threads.set t ({ id := N.next, call := .drop p, stack := [(lang cfg).enter [(.self, some (.ref p))] dropCode] } :: cs)
          handles := N.handles.erase p
          next := N.next + 1
          hist := .call N.next (.drop p) :: N.hist }
      else .blocked
    | none => .blocked
  | .take t p => match N.threads[t]? with
    | some ({ id, call, stack := f :: fs } :: cs) => match f.items with
      | .glue (.value v) :: l =>
        if p ∈ fields l then
          .ok { N with
            threads := N.threads.set t ({ id, call, stack := { f with items := .glue (.value v) :: takeField p l } :: fs } :: cs)
            handles := p :: N.handles }
        else .blocked
      | _ => .blocked
    | _ => .blocked
  | .put t p => match N.threads[t]? with
    | some ({ id, call, stack := f :: fs } :: cs) => match f.items with
      | .glue (.value v) :: l =>
        if p ∈ N.handles then
          .ok { N with
            threads := N.threads.set t ({ id, call, stack := { f with items := .glue (.value v) :: .glue (.handle p) :: l } :: fs } :: cs)
            handles := N.handles.erase p }
        else .blocked
      | _ => .blocked
    | _ => .blocked
  | .run t a => match N.threads[t]? with
    | some (c :: cs) => match (lang cfg).run N.mem c.id a c.stack with
      | .ok (m, [], r) => .ok { N with
          mem := m, handles := result r ++ N.handles, threads := N.threads.set t cs, hist := ends c r ++ N.hist }
      | .ok (m, f :: fs, _) => .ok { N with mem := m, threads := N.threads.set t ({ c with stack := f :: fs } :: cs) }
      | .blocked => .blocked
      | .ub => .ub
    | _ => .blocked
  | .panic t => match N.threads[t]? with
    | some (c :: cs) => match (lang cfg).panic N.mem c.stack with
      | .ok fs => .ok { N with threads := N.threads.set t ({ c with stack := fs } :: cs) }
      | .blocked => .blocked
      | .ub => .ub
    | _ => .blocked

end
end Src.ArcNest
