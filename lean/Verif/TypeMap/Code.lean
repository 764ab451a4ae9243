/-
Closures executed under a lock, one step at a time, and their sequential meaning.
-/
namespace TypeMap

/-- Code of a closure `FnOnce(&mut C) -> R`: it returns, or changes the contents and goes on, depending on what it saw.
Every step may be the last one before user code called by the closure panics. -/
inductive Code (C R : Type) where
  | ret (r : R)
  | next (f : C → C) (k : C → Code C R)

/-- `n` steps of a closure. -/
def Code.steps {C R : Type} : Nat → Code C R → C → C × Code C R
  | 0, k, c => (c, k)
  | _ + 1, .ret r, c => (c, .ret r)
  | n + 1, .next f k, c => (k c).steps n (f c)

/-- One more step at the end. -/
theorem Code.steps_succ {C R : Type} (n : Nat) (k : Code C R) (c c' : C) (f : C → C) (g : C → Code C R)
    (h : k.steps n c = (c', .next f g)) : k.steps (n + 1) c = (f c', g c') := by
  induction n generalizing k c with
  | zero => cases h; rfl
  | succ n ih =>
    cases k with
    | ret r => cases h
    | next f' k' => exact ih (k' c) (f' c) h

/-- A call that is over: its closure, the number of steps it made, and its result, if it did not panic. -/
structure Entry (C R : Type) where
  code : Code C R
  steps : Nat
  res : Option R

/-- Sequential meaning of a history of calls (newest first) on one table: starting with the default table `d`, running
the calls one after the other gives contents `c`, and every call that returned, returned what its closure computed. -/
inductive Replay {C R : Type} (d : C) : List (Entry C R) → C → Prop where
  | nil : Replay d [] d
  | ret {l c c' code n r} : Replay d l c → code.steps n c = (c', .ret r) → Replay d (⟨code, n, some r⟩ :: l) c'
  | panic {l c c' code n k} : Replay d l c → code.steps n c = (c', k) → Replay d (⟨code, n, none⟩ :: l) c'

/-- The contents and all results are functions of the calls made. -/
theorem Replay.det {C R : Type} {d : C} {l l' : List (Entry C R)} {c c' : C} (h : Replay d l c) (h' : Replay d l' c')
    (e : l.map (fun x => (x.code, x.steps, x.res.isSome)) = l'.map (fun x => (x.code, x.steps, x.res.isSome))) :
    l = l' ∧ c = c' := by
  induction h generalizing l' c' with
  | nil =>
    cases h' with
    | nil => exact ⟨rfl, rfl⟩
    | ret _ _ => cases e
    | panic _ _ => cases e
  | ret h hs ih =>
    cases h' with
    | nil => cases e
    | ret h' hs' =>
      simp only [List.map_cons, List.cons.injEq, Prod.mk.injEq, Option.isSome_some] at e
      obtain ⟨⟨rfl, rfl, _⟩, e⟩ := e
      obtain ⟨rfl, rfl⟩ := ih h' e
      rw [hs] at hs'
      cases hs'
      exact ⟨rfl, rfl⟩
    | panic h' hs' => simp at e
  | panic h hs ih =>
    cases h' with
    | nil => cases e
    | ret h' hs' => simp at e
    | panic h' hs' =>
      simp only [List.map_cons, List.cons.injEq, Prod.mk.injEq] at e
      obtain ⟨⟨rfl, rfl, _⟩, e⟩ := e
      obtain ⟨rfl, rfl⟩ := ih h' e
      rw [hs] at hs'
      cases hs'
      exact ⟨rfl, rfl⟩

end TypeMap
