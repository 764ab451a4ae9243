import Verif.Arc.Spec
/-!
`ArcIntern` with destructors that use the interner.

A value is destroyed when the last handle to it is dropped (`_remove`, arc.rs:317-322: "removed is declared before m, so the mutex guard
will be dropped before the removed content is dropped, since it might need to lock the mutex"), and when `new` finds an equal value (its
argument, arc.rs:224, and `converted`, arc_dst.rs:75). Its destructor is user code: it may intern, clone and drop handles, also those
inside the value, keep some of them, and drop last handles, whose destructors do the same, and so on.

In `Verif/Arc/Model.lean` a destroyed value drops the handles inside it (`Thread.todo`), one after another, and does nothing else. Here
destructors run calls. These calls get a thread number of their own; the thread whose destructor makes them is suspended meanwhile.
-/
namespace Arc.Re
variable {V : Type}

/-- `nested`: the destructors that are running calls, innermost first in every thread: the number under which the calls run, and the
thread (or the run of another destructor) that is suspended by it. -/
structure State (V : Type) where
  base : Arc.State V
  nested : List (Tid × Tid)

def init : State V := ⟨Arc.init, []⟩

/-- Is `t` suspended by a destructor that it runs? -/
def suspended (r : State V) (t : Tid) : Bool := r.nested.any fun x => x.2 == t

inductive Act (V : Type) where
  /-- a client call, a step of a call, a panic: as in `Arc.step`. -/
  | act (a : Arc.Act V)
  /-- a destructor in thread `t` starts to make calls. -/
  | enter (t : Tid)
  /-- the destructor that makes the calls `u` returns. -/
  | leave (u : Tid)
  /-- the destructor running in thread `t` moves the handle `p` out of the value (`mem::take`, `mem::replace`, …). -/
  | take (t : Tid) (p : Addr)
  /-- the destructor running in thread `t` moves the handle `p` into the value, to be dropped with its other fields. -/
  | put (t : Tid) (p : Addr)

/-- The thread is between two steps at which values are destroyed (arc.rs:224, 317-322): it holds no lock (`C10_no_lock_in_destructors`). Simplification:
this includes threads that are between two calls. -/
def destroying (th : Thread V) : Bool := match th.pc with
  | .idle => true
  | _ => false

/-- The transition function. Simplification: the memory of a destroyed value is released before its destructor runs, as in `Arc.run`,
`dropFree`; `take` and `put` may also touch handles in the fields of values whose destruction was suspended further out. -/
def step [BEq V] [Hashable V] (cfg : Cfg V) (r : State V) : Act V → Res (State V)
  | .act a =>
    if a.tid.any (suspended r) then .blocked
    else match Arc.step cfg r.base a with
      | .ok s => .ok { r with base := s }
      | .blocked => .blocked
      | .ub => .ub
  | .enter t =>
    match r.base.threads[t]? with
    | none => .blocked
    | some th =>
      if destroying th && !suspended r t then
        .ok ⟨{ r.base with threads := r.base.threads ++ [{}] }, (r.base.threads.length, t) :: r.nested⟩
      else .blocked
  | .leave u =>
    match r.base.threads[u]? with
    | none => .blocked
    | some th =>
      if th.isIdle && !suspended r u && r.nested.any (fun x => x.1 == u) then
        .ok { r with nested := r.nested.filter fun x => x.1 != u }
      else .blocked
  | .take t p =>
    match r.base.threads[t]? with
    | none => .blocked
    | some th =>
      if suspended r t && decide (p ∈ th.todo) then
        .ok { r with base := { r.base.setThread t { th with todo := th.todo.erase p } with handles := p :: r.base.handles } }
      else .blocked
  | .put t p =>
    match r.base.threads[t]? with
    | none => .blocked
    | some th =>
      if suspended r t && decide (p ∈ r.base.handles) then
        .ok { r with base := { r.base.setThread t { th with todo := p :: th.todo } with handles := r.base.handles.erase p } }
      else .blocked

/-- As for `Arc.Act`. -/
def Act.Sane : Act V → Prop
  | .act a => a.Sane
  | _ => True

/-- A panic of user code inside the removal of a `drop`. -/
def dropPanic (r : State V) : Act V → Prop
  | .act a => Arc.dropPanic r.base a
  | _ => False

/-- Reachable states. -/
inductive Reach [BEq V] [Hashable V] (cfg : Cfg V) : State V → Prop
  | init : Reach cfg init
  | step {r r' : State V} {a : Act V} : Reach cfg r → a.Sane → step cfg r a = .ok r' → Small cfg r'.base → Reach cfg r'

/-- States reachable without a panic of user code inside the removal of a `drop`. -/
inductive ReachND [BEq V] [Hashable V] (cfg : Cfg V) : State V → Prop
  | init : ReachND cfg init
  | step {r r' : State V} {a : Act V} : ReachND cfg r → a.Sane → ¬ dropPanic r a → step cfg r a = .ok r' → Small cfg r'.base →
      ReachND cfg r'

/-- Nothing in progress. -/
def Quiescent (r : State V) : Prop := Arc.Quiescent r.base ∧ r.nested = []

/-- An execution fragment through states that satisfy `P` (both ends included). -/
inductive ExecIn [BEq V] [Hashable V] (cfg : Cfg V) (P : State V → Prop) : State V → State V → Prop
  | refl {r : State V} : P r → ExecIn cfg P r r
  | step {r r' r'' : State V} {a : Act V} : ExecIn cfg P r r' → a.Sane → step cfg r' a = .ok r'' → Small cfg r''.base → P r'' →
      ExecIn cfg P r r''

/-- A continuation in which no call starts and nothing panics: running calls and pending drops take steps, and destructors whose calls
are finished return. -/
inductive Runs [BEq V] [Hashable V] (cfg : Cfg V) : State V → State V → Prop
  | refl (r : State V) : Runs cfg r r
  | run {r r' r'' : State V} {t : Tid} {a : Addr} : step cfg r (.act (.run t a)) = .ok r' → Small cfg r'.base → Runs cfg r' r'' →
      Runs cfg r r''
  | leave {r r' r'' : State V} {u : Tid} : step cfg r (.leave u) = .ok r' → Runs cfg r' r'' → Runs cfg r r''

end Arc.Re
