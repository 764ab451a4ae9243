/-
The stack of calls of a thread: a step does not change the outermost call, until it ends. Used in the proofs of C90.
-/
namespace Client

variable {ρ κ : Type} {call : ρ → κ}

/-- What a step can do with the calls of a thread: nothing, start a call, change the innermost one, or end it. -/
inductive Shape (call : ρ → κ) (cs : List ρ) : List ρ → Prop
  | same : Shape call cs cs
  | push (c : ρ) : Shape call cs (c :: cs)
  | change {c c' : ρ} {l : List ρ} : cs = c :: l → call c' = call c → Shape call cs (c' :: l)
  | pop {c : ρ} {l : List ρ} : cs = c :: l → Shape call cs l

theorem shape_set {l : List (List ρ)} {t : Nat} {old new : List ρ} (ht : l[t]? = some old) (h : Shape call old new) {u : Nat}
    {cs : List ρ} (hu : l[u]? = some cs) : ∃ cs', (l.set t new)[u]? = some cs' ∧ Shape call cs cs' := by
  by_cases hut : u = t
  · subst hut
    rw [hu] at ht; cases ht
    exact ⟨new, by simp [(List.getElem?_eq_some_iff.mp hu).1], h⟩
  · exact ⟨cs, by rw [List.getElem?_set_ne (Ne.symm hut)]; exact hu, .same⟩

theorem Shape.outer {cs cs' : List ρ} (h : Shape call cs cs') (hne : cs' ≠ []) {c : ρ} (hc : cs.getLast? = some c) :
    ∃ c', cs'.getLast? = some c' ∧ call c' = call c := by
  cases h with
  | same => exact ⟨c, hc, rfl⟩
  | push c0 =>
    cases cs with
    | nil => simp at hc
    | cons d l => exact ⟨c, by rw [List.getLast?_cons_cons]; exact hc, rfl⟩
  | @change d d' l hcs hd =>
    subst hcs
    cases l with
    | nil =>
      simp only [List.getLast?_singleton, Option.some.injEq] at hc
      subst hc
      exact ⟨d', rfl, hd⟩
    | cons d2 l =>
      rw [List.getLast?_cons_cons] at hc
      exact ⟨c, by rw [List.getLast?_cons_cons]; exact hc, rfl⟩
  | @pop d l hcs =>
    subst hcs
    cases cs' with
    | nil => exact absurd rfl hne
    | cons d2 l => rw [List.getLast?_cons_cons] at hc; exact ⟨c, hc, rfl⟩

/-- A step that is not of thread `u`. -/
theorem set_other {l : List (List ρ)} {t u : Nat} (h : u ≠ t) (new : List ρ) : (l.set t new)[u]? = l[u]? :=
  List.getElem?_set_ne (Ne.symm h)

end Client
