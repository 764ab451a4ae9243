import Verif.Src.ArcNestSpec
import Verif.Arc.Demo
/-! Checked executions with calls inside calls, used to show that the hypotheses of theorems are met. -/
namespace Src.ArcNest
open Arc (Addr Tid Cfg Res demoCfg)

section
variable {V : Type} [BEq V] [Hashable V]

/-- Is this an action without a panic, or with one in a destructor? -/
def Act.plain (N : State V) : Act V → Bool
  | .panic t => match N.threads[t]? with
    | some (c :: _) => c.stack.head?.any inDestructor
    | _ => false
  | _ => true

omit [BEq V] [Hashable V] in
theorem Act.plain_sound {N : State V} {a : Act V} (h : a.plain N = true) : ¬ dropPanic N a := by
  cases a with
  | panic t =>
    rintro ⟨c, cs, h1, h2⟩
    simp only [Act.plain, h1] at h
    cases hs : c.stack with
    | nil => rw [hs] at h; cases h
    | cons f fs =>
      rw [hs] at h h2
      obtain ⟨x, y, r, e⟩ := h2
      simp [inDestructor, e] at h
  | _ => exact fun h => h

/-- Run actions, checking that each is allowed and that no object has too many handles. -/
def checked (cfg : Cfg V) (N : State V) : List (Act V) → Option (State V)
  | [] => some N
  | a :: as => match step cfg N a with
    | .ok N' => if a.plain N && decide ((mentions cfg N').length < cfg.W) then checked cfg N' as else none
    | _ => none

theorem checked_reachND {cfg : Cfg V} (as : List (Act V)) :
    ∀ {N N' : State V}, ReachND cfg N → checked cfg N as = some N' → ReachND cfg N' := by
  induction as with
  | nil => intro s s' h e; simp only [checked, Option.some.injEq] at e; exact e ▸ h
  | cons a as ih =>
    intro s s' h e
    simp only [checked] at e
    cases hs : step cfg s a with
    | ok s1 =>
      simp only [hs] at e
      split at e
      · rename_i hc
        simp only [Bool.and_eq_true, decide_eq_true_eq] at hc
        exact ih (.step h (Act.plain_sound hc.1) hs (fun _ => Nat.lt_of_le_of_lt List.count_le_length hc.2)) e
      · cases e
    | blocked => simp [hs] at e
    | ub => simp [hs] at e

theorem ReachND.reach {cfg : Cfg V} {N : State V} (h : ReachND cfg N) : Reach cfg N := by
  induction h with
  | init => exact .init
  | step _ _ e hf ih => exact .step ih e hf

/-- Let a thread run for `n` steps. -/
def runs (t : Tid) (a : Addr) (n : Nat) : List (Act V) := List.replicate n (.run t a)
end

/-- The state after a checked run from the start. -/
def demo (as : List (Act Arc.Val)) : State Arc.Val := (checked demoCfg init as).getD init

theorem demo_reach {as : List (Act Arc.Val)} (h : (checked demoCfg init as).isSome = true) : ReachND demoCfg (demo as) := by
  obtain ⟨s, hs⟩ := Option.isSome_iff_exists.mp h
  have : demo as = s := by simp [demo, hs]
  rw [this]; exact checked_reachND as .init hs

/-- The number of calls that each thread is executing. -/
def depths (N : State Arc.Val) : List Nat := N.threads.map List.length

theorem quiet_of {N : State Arc.Val} (h : N.threads.all (·.isEmpty) = true) : Quiet N := by
  intro cs hcs
  have := List.all_eq_true.mp h cs hcs
  exact List.isEmpty_iff.mp this

/-- A value with a handle to another one in it; then its last handle is dropped, up to its destructor. -/
def destroyTrace : List (Act Arc.Val) :=
  [.spawn, .spawn, .new 0 ⟨5, 1, []⟩ false] ++ runs 0 10 17 ++ [.new 0 ⟨7, 0, [10]⟩ false] ++ runs 0 20 17 ++ [.drop 1 20] ++ runs 1 0 9
/-- The destructor moves the handle out of its value and interns an equal value with it. -/
def reviveTrace : List (Act Arc.Val) := destroyTrace ++ [.take 1 10, .new 1 ⟨7, 1, [10]⟩ false]

/-- `Hash`, called by the removal, interns another value. -/
def hashTrace : List (Act Arc.Val) := destroyTrace.take 45 ++ [.new 1 ⟨5, 1, []⟩ false]

/-- `Hash`, called by the removal, interns the value that is being removed; three steps later, the loop in `new` begins. -/
def spinTrace : List (Act Arc.Val) :=
  [.spawn, .new 0 ⟨5, 1, []⟩ false] ++ runs 0 10 17 ++ [.drop 0 10] ++ runs 0 0 6 ++ [.new 0 ⟨5, 1, []⟩ false] ++ runs 0 0 3

end Src.ArcNest
