import Verif.Src.ArcSpec
import Verif.Arc.Demo
/-! Checked executions of the code, used to show that the hypotheses of theorems are met. -/
namespace Src.ArcCode
open Arc (Addr Tid Cfg Res demoCfg)

section
variable {V : Type} [BEq V] [Hashable V]

/-- Is this an action without a panic, or with one in a destructor? -/
def Act.plain (S : State V) : Act V → Bool
  | .panic t => match S.threads[t]? with
    | some (f :: _) => match f.items with
      | .glue _ :: _ => true
      | _ => false
    | _ => false
  | .panicInsert _ => false
  | _ => true
/-- Is this an action without a panic in the table insertion? -/
def Act.sane (_ : State V) : Act V → Bool
  | .panicInsert _ => false
  | _ => true

omit [BEq V] [Hashable V] in
theorem Act.plain_sound {S : State V} {a : Act V} (h : a.plain S = true) : a.Sane ∧ ¬ dropPanic S a := by
  cases a with
  | panic t =>
    refine ⟨trivial, fun ⟨fs, h1, h2⟩ => ?_⟩
    cases fs with
    | nil => exact h2
    | cons f fs =>
      obtain ⟨x, y, r, e⟩ := h2
      simp [Act.plain, h1, e] at h
  | panicInsert t => cases h
  | _ => exact ⟨trivial, fun h => h⟩

/-- Run actions, checking that each is allowed and that no object has too many handles. -/
def checked (ok : State V → Act V → Bool) (cfg : Cfg V) (S : State V) : List (Act V) → Option (State V)
  | [] => some S
  | a :: as => match step cfg S a with
    | .ok S' => if ok S a && decide ((mentions cfg S').length < cfg.W) then checked ok cfg S' as else none
    | _ => none

omit [BEq V] [Hashable V] in
theorem few_of_length {cfg : Cfg V} {S : State V} (h : (mentions cfg S).length < cfg.W) : Few cfg S :=
  fun _ => Nat.lt_of_le_of_lt List.count_le_length h

theorem checked_reach {cfg : Cfg V} (as : List (Act V)) :
    ∀ {S S' : State V}, Reach cfg S → checked Act.sane cfg S as = some S' → Reach cfg S' := by
  induction as with
  | nil => intro s s' h e; simp only [checked, Option.some.injEq] at e; exact e ▸ h
  | cons a as ih =>
    intro s s' h e
    simp only [checked] at e
    cases hs : step cfg s a with
    | ok s1 =>
      simp only [hs] at e
      split at e
      · rename_i hc
        simp only [Bool.and_eq_true, decide_eq_true_eq] at hc
        refine ih (.step h ?_ hs (few_of_length hc.2)) e
        cases a <;> simp_all [Act.Sane, Act.sane]
      · cases e
    | blocked => simp [hs] at e
    | ub => simp [hs] at e

theorem checked_reachND {cfg : Cfg V} (as : List (Act V)) :
    ∀ {S S' : State V}, ReachND cfg S → checked Act.plain cfg S as = some S' → ReachND cfg S' := by
  induction as with
  | nil => intro s s' h e; simp only [checked, Option.some.injEq] at e; exact e ▸ h
  | cons a as ih =>
    intro s s' h e
    simp only [checked] at e
    cases hs : step cfg s a with
    | ok s1 =>
      simp only [hs] at e
      split at e
      · rename_i hc
        simp only [Bool.and_eq_true, decide_eq_true_eq] at hc
        exact ih (.step h (Act.plain_sound hc.1).1 (Act.plain_sound hc.1).2 hs (few_of_length hc.2)) e
      · cases e
    | blocked => simp [hs] at e
    | ub => simp [hs] at e

/-- Let a thread run for `n` steps. -/
def runs (t : Tid) (a : Addr) (n : Nat) : List (Act V) := List.replicate n (.run t a)
end

/-- The state after a checked run from the start. -/
def demo (as : List (Act Arc.Val)) : State Arc.Val := (checked Act.sane demoCfg init as).getD init
def demoND (as : List (Act Arc.Val)) : State Arc.Val := (checked Act.plain demoCfg init as).getD init

theorem demo_reach {as : List (Act Arc.Val)} (h : (checked Act.sane demoCfg init as).isSome = true) :
    Reach demoCfg (demo as) := by
  obtain ⟨s, hs⟩ := Option.isSome_iff_exists.mp h
  have : demo as = s := by simp [demo, hs]
  rw [this]; exact checked_reach as .init hs
theorem demoND_reach {as : List (Act Arc.Val)} (h : (checked Act.plain demoCfg init as).isSome = true) :
    ReachND demoCfg (demoND as) := by
  obtain ⟨s, hs⟩ := Option.isSome_iff_exists.mp h
  have : demoND as = s := by simp [demoND, hs]
  rw [this]; exact checked_reachND as .init hs

/-- Thread 0 interns a value, thread 1 interns an equal one, thread 0 interns a value that contains one of the two handles. -/
def nestedTrace : List (Act Arc.Val) :=
  [.spawn, .spawn, .new 0 ⟨5, 1, []⟩ false] ++ runs 0 10 17 ++ [.new 1 ⟨5, 2, []⟩ false] ++ runs 1 20 17 ++
  [.new 0 ⟨7, 0, [10]⟩ false] ++ runs 0 20 17

/-- Two threads race to intern equal values; both find nothing and both allocate, and thread 1 loses the race. -/
def raceTrace (dst : Bool) : List (Act Arc.Val) :=
  [.spawn, .spawn, .new 0 ⟨5, 1, []⟩ false, .new 1 ⟨5, 2, []⟩ dst] ++ runs 0 10 5 ++ runs 1 20 (if dst then 6 else 5) ++ runs 0 10 12

/-- Everything is dropped again, the value that contains a handle last. -/
def dropTrace : List (Act Arc.Val) := nestedTrace ++ [.drop 0 10] ++ runs 0 0 5 ++ [.drop 1 20] ++ runs 1 0 27

end Src.ArcCode
