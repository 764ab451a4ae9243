import Verif.Arc.Schedule
import Verif.Arc.Demo
/-! Infinite executions given by a finite list of actions followed by a list of actions repeated for ever. -/
namespace Arc
variable {V : Type} [BEq V] [Hashable V]

/-- The states an infinite list of actions goes through. -/
def play (cfg : Cfg V) (α : Nat → Option (Act V)) : Nat → State V
  | 0 => init
  | i + 1 => match α i with
    | none => play cfg α i
    | some a => match step cfg (play cfg α i) a with
      | .ok s => s
      | _ => play cfg α i

/-- First `p`, then `c` again and again (nothing, if `c` is empty). -/
def lasso (p c : List (Act V)) (i : Nat) : Option (Act V) :=
  if i < p.length then p[i]? else c[(i - p.length) % c.length]?

theorem checked_snoc {ok : Act V → Bool} {cfg : Cfg V} {a : Act V} : ∀ (as : List (Act V)) (s s1 s2 : State V),
    checked ok cfg s as = some s1 → step cfg s1 a = .ok s2 → ok a = true → (allHandles cfg s2).length < cfg.W →
    checked ok cfg s (as ++ [a]) = some s2
  | [], s, s1, s2, h, h1, h2, h3 => by
    simp only [checked, Option.some.injEq] at h; subst h
    simp [checked, h1, h2, h3]
  | b :: as, s, s1, s2, h, h1, h2, h3 => by
    simp only [checked, List.cons_append] at h ⊢
    cases hb : step cfg s b with
    | ok s' =>
      simp only [hb] at h ⊢
      split at h
      · rename_i hc
        rw [if_pos hc]
        exact checked_snoc as s' s1 s2 h h1 h2 h3
      · cases h
    | blocked => simp [hb] at h
    | ub => simp [hb] at h

theorem checked_take {ok : Act V → Bool} {cfg : Cfg V} : ∀ (as : List (Act V)) (s s' : State V) (r : Nat) (hr : r < as.length),
    checked ok cfg s as = some s' → ∃ s1 s2, checked ok cfg s (as.take r) = some s1 ∧ step cfg s1 as[r] = .ok s2 ∧
      ok as[r] = true ∧ (allHandles cfg s2).length < cfg.W ∧ checked ok cfg s (as.take (r + 1)) = some s2
  | [], s, s', r, hr, h => by simp at hr
  | b :: as, s, s', r, hr, h => by
    simp only [checked] at h
    cases hb : step cfg s b with
    | ok s1 =>
      simp only [hb] at h
      split at h
      · rename_i hc
        have hc' := hc
        simp only [Bool.and_eq_true, decide_eq_true_eq] at hc
        cases r with
        | zero => exact ⟨s, s1, rfl, hb, hc.1, hc.2, by simp [checked, hb, hc.1, hc.2]⟩
        | succ r =>
          obtain ⟨u1, u2, g1, g2, g3, g4, g5⟩ := checked_take as s1 s' r (by simpa using hr) h
          refine ⟨u1, u2, ?_, g2, g3, g4, ?_⟩
          · rw [List.take_succ_cons]; simp only [checked, hb, if_pos hc']; exact g1
          · rw [List.take_succ_cons]; simp only [checked, hb, if_pos hc']; exact g5
      · cases h
    | blocked => simp [hb] at h
    | ub => simp [hb] at h

/-- What has to be checked of a lasso: it never blocks, and returns to the state where the loop starts. -/
structure Loops (cfg : Cfg V) (p c : List (Act V)) (s : State V) : Prop where
  pre : checked Act.plain cfg init p = some s
  cyc : checked Act.plain cfg s c = some s

namespace Loops
variable {cfg : Cfg V} {p c : List (Act V)} {s : State V}

theorem play_pre (L : Loops cfg p c s) : ∀ i, i ≤ p.length →
    some (play cfg (lasso p c) i) = checked Act.plain cfg init (p.take i) := by
  intro i
  induction i with
  | zero => intro _; simp [checked, play]
  | succ i ih =>
    intro hi
    have hi' : i < p.length := hi
    obtain ⟨s1, s2, h1, h2, h3, h4, h5⟩ := checked_take p init s i hi' L.pre
    have := ih (by omega)
    rw [h1, Option.some.injEq] at this
    have hl : lasso p c i = some p[i] := by simp [lasso, hi']
    simp only [play, hl, this, h2, h5]

theorem play_mid (L : Loops cfg p c s) : play cfg (lasso p c) p.length = s := by
  have := L.play_pre p.length (Nat.le_refl _)
  rw [List.take_length, L.pre] at this
  exact Option.some.inj this

omit [BEq V] [Hashable V] in
theorem lasso_cyc (k : Nat) {r : Nat} (hr : r < c.length) : lasso p c (p.length + k * c.length + r) = some c[r] := by
  have : (p.length + k * c.length + r - p.length) % c.length = r := by
    rw [show p.length + k * c.length + r - p.length = r + k * c.length by omega, Nat.add_mul_mod_self_right]
    exact Nat.mod_eq_of_lt hr
  simp only [lasso]
  rw [if_neg (by omega), this]
  exact List.getElem?_eq_getElem hr

theorem play_cyc (L : Loops cfg p c s) : ∀ k r, r ≤ c.length →
    some (play cfg (lasso p c) (p.length + k * c.length + r)) = checked Act.plain cfg s (c.take r) := by
  have inner : ∀ k, play cfg (lasso p c) (p.length + k * c.length) = s → ∀ r, r ≤ c.length →
      some (play cfg (lasso p c) (p.length + k * c.length + r)) = checked Act.plain cfg s (c.take r) := by
    intro k hk r
    induction r with
    | zero => intro _; simp [hk, checked]
    | succ r ih =>
      intro hr
      have hr' : r < c.length := hr
      obtain ⟨s1, s2, h1, h2, h3, h4, h5⟩ := checked_take c s s r hr' L.cyc
      have := ih (by omega)
      rw [h1, Option.some.injEq] at this
      rw [← Nat.add_assoc, h5]
      simp only [play, lasso_cyc k hr', this, h2]
  intro k
  induction k with
  | zero => exact inner 0 (by simpa using L.play_mid)
  | succ k ih =>
    apply inner
    have := ih c.length (Nat.le_refl _)
    rw [List.take_length, L.cyc, Option.some.injEq] at this
    rw [Nat.succ_mul, ← Nat.add_assoc]; exact this

omit [BEq V] [Hashable V] in
/-- Every instant after the start of the loop. -/
theorem split {i : Nat} (hc : 0 < c.length) (hi : p.length ≤ i) : ∃ k r, r < c.length ∧ i = p.length + k * c.length + r := by
  refine ⟨(i - p.length) / c.length, (i - p.length) % c.length, Nat.mod_lt _ hc, ?_⟩
  have := Nat.div_add_mod (i - p.length) c.length
  rw [Nat.mul_comm] at this
  omega

theorem play_end (L : Loops cfg p c s) (hc : c = []) : ∀ i, p.length ≤ i → play cfg (lasso p c) i = s := by
  intro i hi
  induction hi with
  | refl => exact L.play_mid
  | @step i hi ih =>
    replace hi : p.length ≤ i := hi
    have : lasso p c i = none := by simp [lasso, hc, Nat.not_lt.mpr hi]
    simp only [play, this, ih]

theorem execution (L : Loops cfg p c s) : Execution cfg (play cfg (lasso p c)) (lasso p c) := by
  refine ⟨rfl, fun i => ?_⟩
  have fin : ∀ a s1 s2, lasso p c i = some a → play cfg (lasso p c) i = s1 → step cfg s1 a = .ok s2 → Act.plain a = true →
      (allHandles cfg s2).length < cfg.W → a.Sane ∧ ¬ dropPanic (play cfg (lasso p c) i) a ∧
        step cfg (play cfg (lasso p c) i) a = .ok (play cfg (lasso p c) (i + 1)) ∧ Small cfg (play cfg (lasso p c) (i + 1)) := by
    intro a s1 s2 h1 h2 h3 h4 h5
    have h6 : play cfg (lasso p c) (i + 1) = s2 := by simp only [play, h1, h2, h3]
    rw [h6, h2]
    refine ⟨?_, ?_, h3, small_of_length h5⟩
    · cases a <;> simp_all [Act.Sane, Act.plain]
    · cases a <;> simp_all [dropPanic, Act.plain]
  by_cases hi : i < p.length
  · obtain ⟨s1, s2, h1, h2, h3, h4, h5⟩ := checked_take p init s i hi L.pre
    have hl : lasso p c i = some p[i] := by simp [lasso, hi]
    have := L.play_pre i (by omega)
    rw [h1, Option.some.injEq] at this
    have := fin _ _ _ hl this h2 h3 h4
    rw [hl]; exact this
  · by_cases hc : c = []
    · have hl : lasso p c i = none := by simp [lasso, hi, hc]
      rw [hl]
      simp only [play, hl]
    · obtain ⟨k, r, hr, hi'⟩ := split (c := c) (List.length_pos_iff.mpr hc) (Nat.not_lt.mp hi)
      obtain ⟨s1, s2, h1, h2, h3, h4, h5⟩ := checked_take c s s r hr L.cyc
      have hl : lasso p c i = some c[r] := by rw [hi']; exact lasso_cyc k hr
      have := L.play_cyc k r (by omega)
      rw [h1, Option.some.injEq, ← hi'] at this
      have := fin _ _ _ hl this h2 h3 h4
      rw [hl]; exact this

/-- What holds all around the loop holds from the start of the loop on. -/
theorem forever (L : Loops cfg p c s) (hc : 0 < c.length) {P : State V → Prop}
    (h : ∀ r, r < c.length → ∀ s', checked Act.plain cfg s (c.take r) = some s' → P s') :
    ∀ i, p.length ≤ i → P (play cfg (lasso p c) i) := by
  intro i hi
  obtain ⟨k, r, hr, rfl⟩ := split hc hi
  exact h r hr _ (L.play_cyc k r (by omega)).symm

omit [BEq V] [Hashable V] in
theorem beyond (hc : 0 < c.length) (i r : Nat) : ∃ k, i ≤ p.length + k * c.length + r :=
  ⟨i, by have := Nat.le_mul_of_pos_right i hc; omega⟩

/-- A state on the loop recurs. -/
theorem recurs (L : Loops cfg p c s) (hc : 0 < c.length) {P : State V → Prop} {r : Nat} (hr : r < c.length) {s' : State V}
    (h : checked Act.plain cfg s (c.take r) = some s') (hP : P s') (i : Nat) : ∃ j, i ≤ j ∧ P (play cfg (lasso p c) j) := by
  obtain ⟨k, hk⟩ := beyond (p := p) hc i r
  refine ⟨_, hk, ?_⟩
  have := L.play_cyc k r (by omega)
  rw [h, Option.some.injEq] at this
  rw [this]; exact hP

omit [BEq V] [Hashable V] in
/-- A thread that steps on the loop steps again and again. -/
theorem runs_again (hc : 0 < c.length) {t : Tid} {r : Nat} (hr : r < c.length) {a : Addr} (h : c[r] = .run t a) (i : Nat) :
    ∃ j, i ≤ j ∧ RunsAt (lasso p c) t j := by
  obtain ⟨k, hk⟩ := beyond (p := p) hc i r
  exact ⟨_, hk, a, by rw [lasso_cyc k hr, h]⟩

end Loops

theorem enabled_lt {cfg : Cfg V} {s : State V} {t : Tid} (h : Enabled cfg t s) : t < s.threads.length := by
  obtain ⟨a, s', h⟩ := h
  simp only [step] at h
  cases ht : s.threads[t]? with
  | none => simp [ht] at h
  | some th => exact (List.getElem?_eq_some_iff.mp ht).1

end Arc
