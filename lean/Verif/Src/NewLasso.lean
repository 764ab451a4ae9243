import Verif.Src.NewFair
import Verif.Src.NewDemo
/-! Infinite executions of the code of `NewIntern` given by a finite list of commands followed by a list of commands repeated for ever. -/
namespace Src.NewCode
open Arc (Res)
open Pool (Tid Ptr Query Ret Obj Entry)

/-- The states an infinite list of commands goes through. -/
def play (β : Nat → Option Cmd) : Nat → State Nat Pool.Demo.Val
  | 0 => init
  | i + 1 => match β i with
    | none => play β i
    | some a => match step dcfg (play β i) a.act with
      | .ok S => S
      | _ => play β i

/-- First `p`, then `c` again and again (nothing, if `c` is empty). -/
def lasso (p c : List Cmd) (i : Nat) : Option Cmd := if i < p.length then p[i]? else c[(i - p.length) % c.length]?

/-- The same as actions. -/
def acts (β : Nat → Option Cmd) (i : Nat) : Option (Act Nat Pool.Demo.Val) := (β i).map Cmd.act

theorem script_take : ∀ (as : List Cmd) (S S' : State Nat Pool.Demo.Val) (r : Nat) (hr : r < as.length), script S as = some S' →
    ∃ S1 S2, script S (as.take r) = some S1 ∧ step dcfg S1 as[r].act = .ok S2 ∧ script S (as.take (r + 1)) = some S2
  | [], S, S', r, hr, h => by simp at hr
  | b :: as, S, S', r, hr, h => by
    simp only [script] at h
    cases hb : step dcfg S b.act with
    | ok S1 =>
      simp only [hb] at h
      cases r with
      | zero => exact ⟨S, S1, rfl, hb, by simp [script, hb]⟩
      | succ r =>
        obtain ⟨u1, u2, g1, g2, g3⟩ := script_take as S1 S' r (by simpa using hr) h
        refine ⟨u1, u2, ?_, g2, ?_⟩
        · rw [List.take_succ_cons]; simp only [script, hb]; exact g1
        · rw [List.take_succ_cons]; simp only [script, hb]; exact g3
    | blocked => simp [hb] at h
    | ub => simp [hb] at h

/-- The states at the start of the rounds. -/
structure Loops (p c : List Cmd) (N : Nat → State Nat Pool.Demo.Val) : Prop where
  pre : script init p = some (N 0)
  cyc : ∀ k, script (N k) c = some (N (k + 1))

namespace Loops
variable {p c : List Cmd} {N : Nat → State Nat Pool.Demo.Val}

theorem play_pre (L : Loops p c N) : ∀ i, i ≤ p.length → some (play (lasso p c) i) = script init (p.take i) := by
  intro i
  induction i with
  | zero => intro _; simp [script, play]
  | succ i ih =>
    intro hi
    have hi' : i < p.length := hi
    obtain ⟨s1, s2, h1, h2, h3⟩ := script_take p init (N 0) i hi' L.pre
    have := ih (by omega)
    rw [h1, Option.some.injEq] at this
    have hl : lasso p c i = some p[i] := by simp [lasso, hi']
    simp only [play, hl, this, h2, h3]

theorem play_mid (L : Loops p c N) : play (lasso p c) p.length = N 0 := by
  have := L.play_pre p.length (Nat.le_refl _)
  rw [List.take_length, L.pre] at this
  exact Option.some.inj this

theorem lasso_cyc (k : Nat) {r : Nat} (hr : r < c.length) : lasso p c (p.length + k * c.length + r) = some c[r] := by
  have : (p.length + k * c.length + r - p.length) % c.length = r := by
    rw [show p.length + k * c.length + r - p.length = r + k * c.length by omega, Nat.add_mul_mod_self_right]
    exact Nat.mod_eq_of_lt hr
  simp only [lasso]
  rw [if_neg (by omega), this]
  exact List.getElem?_eq_getElem hr

theorem play_cyc (L : Loops p c N) : ∀ k r, r ≤ c.length →
    some (play (lasso p c) (p.length + k * c.length + r)) = script (N k) (c.take r) := by
  have inner : ∀ k, play (lasso p c) (p.length + k * c.length) = N k → ∀ r, r ≤ c.length →
      some (play (lasso p c) (p.length + k * c.length + r)) = script (N k) (c.take r) := by
    intro k hk r
    induction r with
    | zero => intro _; simp [hk, script]
    | succ r ih =>
      intro hr
      have hr' : r < c.length := hr
      obtain ⟨s1, s2, h1, h2, h3⟩ := script_take c (N k) (N (k + 1)) r hr' (L.cyc k)
      have := ih (by omega)
      rw [h1, Option.some.injEq] at this
      rw [← Nat.add_assoc, h3]
      simp only [play, lasso_cyc k hr', this, h2]
  intro k
  induction k with
  | zero => exact inner 0 (by simpa using L.play_mid)
  | succ k ih =>
    apply inner
    have := ih c.length (Nat.le_refl _)
    rw [List.take_length, L.cyc, Option.some.injEq] at this
    rw [Nat.succ_mul, ← Nat.add_assoc]; exact this

/-- Every instant after the start of the loop. -/
theorem split {i : Nat} (hc : 0 < c.length) (hi : p.length ≤ i) : ∃ k r, r < c.length ∧ i = p.length + k * c.length + r := by
  refine ⟨(i - p.length) / c.length, (i - p.length) % c.length, Nat.mod_lt _ hc, ?_⟩
  have := Nat.div_add_mod (i - p.length) c.length
  rw [Nat.mul_comm] at this
  omega

theorem play_end (L : Loops p [] N) : ∀ i, p.length ≤ i → play (lasso p []) i = N 0 := by
  intro i hi
  induction hi with
  | refl => exact L.play_mid
  | @step i hi ih =>
    replace hi : p.length ≤ i := hi
    have : lasso p [] i = none := by simp [lasso, Nat.not_lt.mpr hi]
    simp only [play, this, ih]

theorem execution (L : Loops p c N) : Execution dcfg (play (lasso p c)) (acts (lasso p c)) := by
  refine ⟨rfl, fun i => ?_⟩
  have fin : ∀ a s1 s2, lasso p c i = some a → play (lasso p c) i = s1 → step dcfg s1 a.act = .ok s2 →
      step dcfg (play (lasso p c) i) a.act = .ok (play (lasso p c) (i + 1)) := by
    intro a s1 s2 h1 h2 h3
    have h6 : play (lasso p c) (i + 1) = s2 := by simp only [play, h1, h2, h3]
    rw [h6, h2]
    exact h3
  by_cases hi : i < p.length
  · obtain ⟨s1, s2, h1, h2, h3⟩ := script_take p init (N 0) i hi L.pre
    have hl : lasso p c i = some p[i] := by simp [lasso, hi]
    have := L.play_pre i (by omega)
    rw [h1, Option.some.injEq] at this
    have := fin _ _ _ hl this h2
    simp only [acts, hl, Option.map_some]
    exact ⟨Cmd.lawful _, this⟩
  · by_cases hc : c = []
    · have hl : lasso p c i = none := by simp [lasso, hi, hc]
      simp only [acts, hl, Option.map_none, play]
    · obtain ⟨k, r, hr, hi'⟩ := split (c := c) (List.length_pos_iff.mpr hc) (Nat.not_lt.mp hi)
      obtain ⟨s1, s2, h1, h2, h3⟩ := script_take c (N k) (N (k + 1)) r hr (L.cyc k)
      have hl : lasso p c i = some c[r] := by rw [hi']; exact lasso_cyc k hr
      have := L.play_cyc k r (by omega)
      rw [h1, Option.some.injEq, ← hi'] at this
      have := fin _ _ _ hl this h2
      simp only [acts, hl, Option.map_some]
      exact ⟨Cmd.lawful _, this⟩

end Loops

/-- All states on the way, but the last one, satisfy `f`. -/
def along (f : State Nat Pool.Demo.Val → Bool) (S : State Nat Pool.Demo.Val) : List Cmd → Bool
  | [] => true
  | a :: l => f S && match step dcfg S a.act with
    | .ok S' => along f S' l
    | _ => false

theorem along_take {f : State Nat Pool.Demo.Val → Bool} : ∀ (l : List Cmd) (S : State Nat Pool.Demo.Val), along f S l = true →
    ∀ r, r < l.length → ∀ S', script S (l.take r) = some S' → f S' = true
  | [], _, _, r, hr, _, _ => by simp at hr
  | a :: l, S, h, r, hr, S', hS' => by
    simp only [along, Bool.and_eq_true] at h
    cases r with
    | zero => simp only [List.take_zero, script, Option.some.injEq] at hS'; rw [← hS']; exact h.1
    | succ r =>
      rw [List.take_succ_cons] at hS'
      simp only [script] at hS'
      cases hb : step dcfg S a.act with
      | ok S1 =>
        rw [hb] at hS' h
        exact along_take l S1 h.2 r (by simpa using hr) S' hS'
      | blocked => rw [hb] at hS'; cases hS'
      | ub => rw [hb] at hS'; cases hS'

namespace Loops
variable {p c : List Cmd} {N : Nat → State Nat Pool.Demo.Val}

/-- What a computation shows about all instants before the loop. -/
theorem before (L : Loops p c N) {f : State Nat Pool.Demo.Val → Bool} (h : along f init p = true) :
    ∀ i, i < p.length → f (play (lasso p c) i) = true :=
  fun i hi => along_take p init h i hi _ (L.play_pre i (by omega)).symm

/-- And about all instants on the loop. -/
theorem around (L : Loops p c N) (hc : 0 < c.length) {f : State Nat Pool.Demo.Val → Bool} (h : ∀ k, along f (N k) c = true) :
    ∀ i, p.length ≤ i → f (play (lasso p c) i) = true := by
  intro i hi
  obtain ⟨k, r, hr, rfl⟩ := split hc hi
  exact along_take c (N k) (h k) r hr _ (L.play_cyc k r (by omega)).symm

theorem beyond (hc : 0 < c.length) (i r : Nat) : ∃ k, i ≤ p.length + k * c.length + r :=
  ⟨i, by have := Nat.le_mul_of_pos_right i hc; omega⟩

/-- A property of a place on the loop holds again and again. -/
theorem recurs (L : Loops p c N) (hc : 0 < c.length) {P : State Nat Pool.Demo.Val → Prop} {r : Nat} (hr : r < c.length)
    (h : ∀ k S, script (N k) (c.take r) = some S → P S) (i : Nat) : ∃ j, i ≤ j ∧ P (play (lasso p c) j) := by
  obtain ⟨k, hk⟩ := beyond (p := p) hc i r
  exact ⟨_, hk, h k _ (L.play_cyc k r (by omega)).symm⟩

/-- A thread that steps on the loop steps again and again. -/
theorem runs_again (hc : 0 < c.length) {t : Tid} {r : Nat} (hr : r < c.length) {a : Nat} (h : c[r] = .run t a) (i : Nat) :
    ∃ j, i ≤ j ∧ RunsAt (acts (lasso p c)) t j := by
  obtain ⟨k, hk⟩ := beyond (p := p) hc i r
  exact ⟨_, hk, a, by simp only [acts, lasso_cyc k hr, h]; rfl⟩

end Loops

theorem enabled_top {S : State Nat Pool.Demo.Val} {t : Tid} (h : Enabled dcfg t S) : ∃ c cs, S.threads[t]? = some (c :: cs) := by
  obtain ⟨a, N', h⟩ := h
  simp only [step] at h
  cases ht : S.threads[t]? with
  | none => rw [ht] at h; cases h
  | some cs =>
    cases cs with
    | nil => rw [ht] at h; cases h
    | cons c cs => exact ⟨c, cs, rfl⟩

end Src.NewCode
