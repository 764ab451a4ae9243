import Verif.Arc.Trace
/-
`refcount()` as an atomic load (C58). In `Verif.Arc.Spec` the observer `refcount` reads the current value of the
counter. The source does `load(Ordering::Acquire)` (arc.rs:207-209), and such a load may return an older value of the
counter. This file says which values it may return in an execution of `Verif.Arc.Trace`.
-/
namespace Arc
variable {V : Type}

/-- One instant of an execution: the state, the serial numbers of the objects, the client's handles and the events so
far (see `Traced`). -/
structure Instant (V : Type) where
  s : State V
  obj : Addr → Nat
  own : List (Nat × Addr)
  tr : List Ev

/-- All instants of an execution, the latest first. The steps are those of `Traced`. -/
inductive Instants [BEq V] [Hashable V] (cfg : Cfg V) (od : Orders) : List (Instant V) → Prop
  | init : Instants cfg od [⟨init, fun _ => 0, [], []⟩]
  | step {c : Instant V} {l : List (Instant V)} {s' : State V} {a : Act V} {ch : Choice} : Instants cfg od (c :: l) →
      a.Sane → step cfg c.s a = .ok s' → Small cfg s' → ch.Ok cfg c.s c.own a →
      Instants cfg od (⟨s', newObj c.s c.obj c.tr.length a, newOwn cfg c.s c.own ch c.tr.length a,
        c.tr ++ events cfg od c.s c.obj ch c.tr.length a⟩ :: c :: l)

/-- The object whose counter an event writes: `AtomicUsize::new(1)` when the box is made (arc.rs:244-247,
arc_dst.rs:46), or an atomic read-modify-write. -/
def What.counter : What → Option Nat
  | .make o | .rmw o _ => some o
  | _ => none

/-- The event at position `k` wrote `v` into the counter of object `o`: it is one of the events between two consecutive
instants, and `v` is the counter of that object at the second one. (No step has two such events.) -/
def Writes : List (Instant V) → Nat → Nat → Nat → Prop
  | c' :: c :: l, k, o, v =>
    (c.tr.length ≤ k ∧ (∃ a, c'.tr[k]? = some a ∧ a.what.counter = some o) ∧
      ∃ b x, get c'.s.heap b = some x ∧ c'.obj b = o ∧ x.count = v) ∨ Writes (c :: l) k o v
  | _, _, _, _ => False

/-- `refcount()` (arc.rs:207-209): thread `t` loads the counter of object `o` while using the client's handle `h`. It may
return `v` if `v` was written by an event `k` and no later write of the same counter happens before the load. (Coherence
of atomics: the order of writes is the order of positions. Everything else the memory model guarantees, for instance
about two loads in a row, is left out, so more results are allowed here than in Rust.) -/
def MayReturn (l : List (Instant V)) (tr : List Ev) (t : Tid) (h o v : Nat) : Prop :=
  ∃ k, Writes l k o v ∧ ∀ k' v', Writes l k' o v' → HB (tr ++ [⟨t, .use h⟩]) k' tr.length → k' ≤ k

end Arc
