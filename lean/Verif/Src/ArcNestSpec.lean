import Verif.Src.ArcNest
/-
The vocabulary of C82, about executions of `Verif/Src/ArcNest.lean`.
-/
namespace Src.ArcNest
open Arc (Addr Tid Cell Cfg Res)
open Src.ArcCode (Var Val Op Glue Mem Stack frameMentions Removing It)

variable {V : Type}

/-- All handles and references to them: those of clients, in local variables of running functions, and inside values. -/
def mentions (cfg : Cfg V) (N : State V) : List Addr :=
  N.handles ++ (N.threads.flatMap fun cs => cs.flatMap fun c => c.stack.flatMap (frameMentions cfg)) ++ Arc.storedHandles cfg N.mem.heap

/-- No object has 2^64 or more. -/
def Few (cfg : Cfg V) (N : State V) : Prop := ∀ p, (mentions cfg N).count p < cfg.W

/-- User code panics in the removal of a `drop` (C20). -/
def dropPanic (N : State V) : Act V → Prop
  | .panic t => ∃ c cs, N.threads[t]? = some (c :: cs) ∧ Removing c.stack
  | _ => False

section
variable [BEq V] [Hashable V]

/-- The states of the program, as long as no object has 2^64 handles. -/
inductive Reach (cfg : Cfg V) : State V → Prop
  | init : Reach cfg init
  | step {N N' : State V} {act : Act V} : Reach cfg N → step cfg N act = .ok N' → Few cfg N' → Reach cfg N'

/-- And those reached without a panic in the removal of a `drop`. -/
inductive ReachND (cfg : Cfg V) : State V → Prop
  | init : ReachND cfg init
  | step {N N' : State V} {act : Act V} : ReachND cfg N → ¬ dropPanic N act → step cfg N act = .ok N' → Few cfg N' → ReachND cfg N'

/-- An execution fragment through states that satisfy `P`, both ends included. -/
inductive ExecIn (cfg : Cfg V) (P : State V → Prop) : State V → State V → Prop
  | refl {N : State V} : P N → ExecIn cfg P N N
  | step {N N' N'' : State V} {act : Act V} : ExecIn cfg P N N' → step cfg N' act = .ok N'' → Few cfg N'' → P N'' → ExecIn cfg P N N''

/-- Running the right thread, again and again, leads to a state that satisfies `G`, whatever addresses the allocator returns. -/
inductive Must (cfg : Cfg V) (G : State V → Prop) : State V → Prop
  | done {N : State V} : G N → Must cfg G N
  | step {N : State V} (t : Tid) : (∀ a, a ≠ 0 → a ∉ Arc.keys N.mem.heap → ∃ N', step cfg N (.run t a) = .ok N') →
      (∀ a N', a ≠ 0 → a ∉ Arc.keys N.mem.heap → step cfg N (.run t a) = .ok N' → Must cfg G N') → Must cfg G N

end

/-- No call is running. -/
def Quiet (N : State V) : Prop := ∀ cs ∈ N.threads, cs = []

/-- The number of running calls. -/
def running (N : State V) : Nat := (N.threads.map List.length).sum

/-- Calls inside calls are made by destructors only. -/
def ByDestructors (N : State V) : Prop := ∀ cs ∈ N.threads, ∀ c ∈ cs.tail, c.stack.head?.any inDestructor = true

/-- The value that a handle leads to. -/
def deref (N : State V) (p : Addr) : Option V := (Arc.get N.mem.heap p).map (·.data)

/-- The counter of an object (`refcount()`, arc.rs:206-208). -/
def refcount (N : State V) (p : Addr) : Option Nat := (Arc.get N.mem.heap p).map (·.count)

/-- All handles, when no call is running: those of clients and those inside values. -/
def allHandles (cfg : Cfg V) (N : State V) : List Addr := N.handles ++ Arc.storedHandles cfg N.mem.heap

/-! ### Atomicity

The atomic operations are those of `Arc.Op` and `Arc.SpecRun` (`Verif/Arc/Spec.lean`): `intern j v p`, "a handle `p` to a value equal to `v`
comes into being", `clone j p` and `drop j p`; here `j` is the number of the call that performs it. -/

/-- An explanation of a history contains, beside the events that clients see, the instants at which operations take effect. -/
abbrev Mark (V : Type) := Event V ⊕ Arc.Op V

def Event.id : Event V → Nat
  | .call j _ | .ret j _ | .clone j _ => j

/-- The call that an element of an explanation belongs to. -/
def who : Mark V → Nat
  | .inl e => e.id
  | .inr o => o.tid

/-- What belongs to call number `j`. -/
def part (j : Nat) (l : List (Mark V)) : List (Mark V) := l.filter fun x => who x == j

def events (l : List (Mark V)) : List (Event V) := l.filterMap fun | .inl e => some e | .inr _ => none
def ops (l : List (Mark V)) : List (Arc.Op V) := l.filterMap fun | .inl _ => none | .inr o => some o

/-- Drops of handles, performed by call `j`: of those inside the values that the call destroys. -/
def Drops (j : Nat) (l : List (Mark V)) : Prop := ∀ x ∈ l, ∃ q, x = .inr (.drop j q)

/-- What call number `j` may look like in an explanation. A call that has returned took effect exactly once between its start and its end. -/
inductive Proper (j : Nat) : List (Mark V) → Prop
  /-- there has been no such call. -/
  | none : Proper j []
  | clone (p : Addr) : Proper j [.inl (.clone j p), .inr (.clone j p)]
  /-- `new` has not taken effect, and never will if it has panicked; then it drops the handles in its argument. -/
  | newStarted (v : V) (dst : Bool) {ds : List (Mark V)} : Drops j ds → Proper j (.inl (.call j (.new v dst)) :: ds)
  /-- `new` has taken effect; after that it drops the handles in an argument that was not needed. -/
  | newDone (v : V) (dst : Bool) (p : Addr) {ds : List (Mark V)} : Drops j ds →
      Proper j (.inl (.call j (.new v dst)) :: .inr (.intern j v p) :: ds)
  /-- `new` has returned the handle. -/
  | newReturned (v : V) (dst : Bool) (p : Addr) {ds : List (Mark V)} : Drops j ds →
      Proper j (.inl (.call j (.new v dst)) :: .inr (.intern j v p) :: ds ++ [.inl (.ret j (some p))])
  | dropStarted (p : Addr) : Proper j [.inl (.call j (.drop p))]
  | dropDone (p : Addr) {ds : List (Mark V)} : Drops j ds → Proper j (.inl (.call j (.drop p)) :: .inr (.drop j p) :: ds)
  | dropReturned (p : Addr) {ds : List (Mark V)} : Drops j ds →
      Proper j (.inl (.call j (.drop p)) :: .inr (.drop j p) :: ds ++ [.inl (.ret j none)])

end Src.ArcNest
