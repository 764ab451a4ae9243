import Verif.Src.ArcNestFair
import Verif.Src.ArcNestDemo
/-! Infinite executions given by a finite list of actions followed by a list of actions repeated for ever. -/
namespace Src.ArcNest
open Arc (Addr Tid Cfg Res)
variable {V : Type} [BEq V] [Hashable V]

/-- The states an infinite list of actions goes through. -/
def play (cfg : Cfg V) (α : Nat → Option (Act V)) : Nat → State V
  | 0 => init
  | i + 1 => match α i with
    | none => play cfg α i
    | some a => match step cfg (play cfg α i) a with
      | .ok N => N
      | _ => play cfg α i

/-- First `p`, then `c` again and again (nothing, if `c` is empty). -/
def lasso (p c : List (Act V)) (i : Nat) : Option (Act V) :=
  if i < p.length then p[i]? else c[(i - p.length) % c.length]?

theorem checked_take {cfg : Cfg V} : ∀ (as : List (Act V)) (N N' : State V) (r : Nat) (hr : r < as.length),
    checked cfg N as = some N' → ∃ N1 N2, checked cfg N (as.take r) = some N1 ∧ step cfg N1 as[r] = .ok N2 ∧
      as[r].plain N1 = true ∧ (mentions cfg N2).length < cfg.W ∧ checked cfg N (as.take (r + 1)) = some N2
  | [], N, N', r, hr, h => by simp at hr
  | b :: as, N, N', r, hr, h => by
    simp only [checked] at h
    cases hb : step cfg N b with
    | ok N1 =>
      simp only [hb] at h
      split at h
      · rename_i hc
        have hc' := hc
        simp only [Bool.and_eq_true, decide_eq_true_eq] at hc
        cases r with
        | zero => exact ⟨N, N1, rfl, hb, hc.1, hc.2, by simp [checked, hb, hc.1, hc.2]⟩
        | succ r =>
          obtain ⟨u1, u2, g1, g2, g3, g4, g5⟩ := checked_take as N1 N' r (by simpa using hr) h
          refine ⟨u1, u2, ?_, g2, g3, g4, ?_⟩
          · rw [List.take_succ_cons]; simp only [checked, hb, if_pos hc']; exact g1
          · rw [List.take_succ_cons]; simp only [checked, hb, if_pos hc']; exact g5
      · cases h
    | blocked => simp [hb] at h
    | ub => simp [hb] at h

/-- What has to be checked of a lasso: it never blocks, and returns to the state where the loop starts. -/
structure Loops (cfg : Cfg V) (p c : List (Act V)) (N : State V) : Prop where
  pre : checked cfg init p = some N
  cyc : checked cfg N c = some N

namespace Loops
variable {cfg : Cfg V} {p c : List (Act V)} {N : State V}

theorem play_pre (L : Loops cfg p c N) : ∀ i, i ≤ p.length → some (play cfg (lasso p c) i) = checked cfg init (p.take i) := by
  intro i
  induction i with
  | zero => intro _; simp [checked, play]
  | succ i ih =>
    intro hi
    have hi' : i < p.length := hi
    obtain ⟨s1, s2, h1, h2, h3, h4, h5⟩ := checked_take p init N i hi' L.pre
    have := ih (by omega)
    rw [h1, Option.some.injEq] at this
    have hl : lasso p c i = some p[i] := by simp [lasso, hi']
    simp only [play, hl, this, h2, h5]

theorem play_mid (L : Loops cfg p c N) : play cfg (lasso p c) p.length = N := by
  have := L.play_pre p.length (Nat.le_refl _)
  rw [List.take_length, L.pre] at this
  exact Option.some.inj this

omit [BEq V] [Hashable V] in
theorem lasso_cyc (k : Nat) {r : Nat} (hr : r < c.length) : lasso p c (p.length + k * c.length + r) = some c[r] := by
  have : (p.length + k * c.length + r - p.length) % c.length = r := by
    rw [show p.length + k * c.length + r - p.length = r + k * c.length by omega, Nat.add_mul_mod_self_right]
    exact Nat.mod_eq_of_lt hr
  simp only [lasso]
  rw [if_neg (by omega), this]
  exact List.getElem?_eq_getElem hr

theorem play_cyc (L : Loops cfg p c N) : ∀ k r, r ≤ c.length →
    some (play cfg (lasso p c) (p.length + k * c.length + r)) = checked cfg N (c.take r) := by
  have inner : ∀ k, play cfg (lasso p c) (p.length + k * c.length) = N → ∀ r, r ≤ c.length →
      some (play cfg (lasso p c) (p.length + k * c.length + r)) = checked cfg N (c.take r) := by
    intro k hk r
    induction r with
    | zero => intro _; simp [hk, checked]
    | succ r ih =>
      intro hr
      have hr' : r < c.length := hr
      obtain ⟨s1, s2, h1, h2, h3, h4, h5⟩ := checked_take c N N r hr' L.cyc
      have := ih (by omega)
      rw [h1, Option.some.injEq] at this
      rw [← Nat.add_assoc, h5]
      simp only [play, lasso_cyc k hr', this, h2]
  intro k
  induction k with
  | zero => exact inner 0 (by simpa using L.play_mid)
  | succ k ih =>
    apply inner
    have := ih c.length (Nat.le_refl _)
    rw [List.take_length, L.cyc, Option.some.injEq] at this
    rw [Nat.succ_mul, ← Nat.add_assoc]; exact this

omit [BEq V] [Hashable V] in
/-- Every instant after the start of the loop. -/
theorem split {i : Nat} (hc : 0 < c.length) (hi : p.length ≤ i) : ∃ k r, r < c.length ∧ i = p.length + k * c.length + r := by
  refine ⟨(i - p.length) / c.length, (i - p.length) % c.length, Nat.mod_lt _ hc, ?_⟩
  have := Nat.div_add_mod (i - p.length) c.length
  rw [Nat.mul_comm] at this
  omega

theorem play_end (L : Loops cfg p c N) (hc : c = []) : ∀ i, p.length ≤ i → play cfg (lasso p c) i = N := by
  intro i hi
  induction hi with
  | refl => exact L.play_mid
  | @step i hi ih =>
    replace hi : p.length ≤ i := hi
    have : lasso p c i = none := by simp [lasso, hc, Nat.not_lt.mpr hi]
    simp only [play, this, ih]

theorem execution (L : Loops cfg p c N) : Execution cfg (play cfg (lasso p c)) (lasso p c) := by
  refine ⟨rfl, fun i => ?_⟩
  have fin : ∀ a s1 s2, lasso p c i = some a → play cfg (lasso p c) i = s1 → step cfg s1 a = .ok s2 → a.plain s1 = true →
      (mentions cfg s2).length < cfg.W → ¬ dropPanic (play cfg (lasso p c) i) a ∧
        step cfg (play cfg (lasso p c) i) a = .ok (play cfg (lasso p c) (i + 1)) ∧ Few cfg (play cfg (lasso p c) (i + 1)) := by
    intro a s1 s2 h1 h2 h3 h4 h5
    have h6 : play cfg (lasso p c) (i + 1) = s2 := by simp only [play, h1, h2, h3]
    rw [h6, h2]
    exact ⟨Act.plain_sound h4, h3, fun _ => Nat.lt_of_le_of_lt List.count_le_length h5⟩
  by_cases hi : i < p.length
  · obtain ⟨s1, s2, h1, h2, h3, h4, h5⟩ := checked_take p init N i hi L.pre
    have hl : lasso p c i = some p[i] := by simp [lasso, hi]
    have := L.play_pre i (by omega)
    rw [h1, Option.some.injEq] at this
    have := fin _ _ _ hl this h2 h3 h4
    rw [hl]; exact this
  · by_cases hc : c = []
    · have hl : lasso p c i = none := by simp [lasso, hi, hc]
      rw [hl]
      simp only [play, hl]
    · obtain ⟨k, r, hr, hi'⟩ := split (c := c) (List.length_pos_iff.mpr hc) (Nat.not_lt.mp hi)
      obtain ⟨s1, s2, h1, h2, h3, h4, h5⟩ := checked_take c N N r hr L.cyc
      have hl : lasso p c i = some c[r] := by rw [hi']; exact lasso_cyc k hr
      have := L.play_cyc k r (by omega)
      rw [h1, Option.some.injEq, ← hi'] at this
      have := fin _ _ _ hl this h2 h3 h4
      rw [hl]; exact this

/-- What holds all around the loop holds from the start of the loop on. -/
theorem forever (L : Loops cfg p c N) (hc : 0 < c.length) {P : State V → Prop}
    (h : ∀ r, r < c.length → ∀ N', checked cfg N (c.take r) = some N' → P N') : ∀ i, p.length ≤ i → P (play cfg (lasso p c) i) := by
  intro i hi
  obtain ⟨k, r, hr, rfl⟩ := split hc hi
  exact h r hr _ (L.play_cyc k r (by omega)).symm

/-- What a computation shows about all instants before the loop. -/
theorem before (L : Loops cfg p c N) {f : State V → Bool} (h : (List.range p.length).all (fun r => (checked cfg init (p.take r)).all f) = true) :
    ∀ i, i < p.length → f (play cfg (lasso p c) i) = true := by
  intro i hi
  have := List.all_eq_true.mp h i (List.mem_range.mpr hi)
  rw [← L.play_pre i (by omega)] at this
  exact this

/-- And about all instants on the loop. -/
theorem around (L : Loops cfg p c N) (hc : 0 < c.length) {f : State V → Bool}
    (h : (List.range c.length).all (fun r => (checked cfg N (c.take r)).all f) = true) : ∀ i, p.length ≤ i → f (play cfg (lasso p c) i) = true := by
  refine L.forever hc (P := fun s => f s = true) fun r hr s' hs' => ?_
  have := List.all_eq_true.mp h r (List.mem_range.mpr hr)
  rw [hs'] at this
  exact this

omit [BEq V] [Hashable V] in
theorem beyond (hc : 0 < c.length) (i r : Nat) : ∃ k, i ≤ p.length + k * c.length + r :=
  ⟨i, by have := Nat.le_mul_of_pos_right i hc; omega⟩

/-- A state on the loop recurs. -/
theorem recurs (L : Loops cfg p c N) (hc : 0 < c.length) {P : State V → Prop} {r : Nat} (hr : r < c.length) {N' : State V}
    (h : checked cfg N (c.take r) = some N') (hP : P N') (i : Nat) : ∃ j, i ≤ j ∧ P (play cfg (lasso p c) j) := by
  obtain ⟨k, hk⟩ := beyond (p := p) hc i r
  refine ⟨_, hk, ?_⟩
  have := L.play_cyc k r (by omega)
  rw [h, Option.some.injEq] at this
  rw [this]; exact hP

omit [BEq V] [Hashable V] in
/-- A thread that steps on the loop steps again and again. -/
theorem runs_again (hc : 0 < c.length) {t : Tid} {r : Nat} (hr : r < c.length) {a : Addr} (h : c[r] = .run t a) (i : Nat) :
    ∃ j, i ≤ j ∧ RunsAt (lasso p c) t j := by
  obtain ⟨k, hk⟩ := beyond (p := p) hc i r
  exact ⟨_, hk, a, by rw [lasso_cyc k hr, h]⟩

end Loops

theorem enabled_top {cfg : Cfg V} {N : State V} {t : Tid} (h : Enabled cfg t N) : ∃ c cs, N.threads[t]? = some (c :: cs) := by
  obtain ⟨a, N', h⟩ := h
  simp only [step] at h
  split at h
  · rename_i c cs ht; exact ⟨c, cs, ht⟩
  · cases h

end Src.ArcNest
