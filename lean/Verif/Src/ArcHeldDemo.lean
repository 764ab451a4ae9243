import Verif.Src.ArcHeldSpec
import Verif.Src.ArcNestDemo
/-! Checked executions with calls under locks, used to show that the hypotheses of theorems are met. -/
namespace Src.ArcHeld
open Arc (Addr Tid Cfg Res demoCfg)
open Src.ArcNest (mentions)
open Src.ArcCode (Move)

section
variable {V : Type}

/-- Everything but a panic in a removal. -/
def Act.plain (X : State V) : Act V → Bool
  | .act (.panic t) => match X.base.threads[t]? with
    | some (c :: _) => match c.stack with
      | f :: _ => match f.items with
        | .stmt (.assign _ (.remove _)) :: _ => false
        | _ => true
      | [] => true
    | _ => true
  | _ => true

theorem Act.plain_sound {X : State V} {a : Act V} (h : a.plain X = true) : ¬ dropPanic X a := by
  cases a with
  | lock t => exact fun h => h
  | act a =>
    cases a with
    | panic t =>
      rintro ⟨c, cs, h1, h2⟩
      simp only [Act.plain, h1] at h
      cases hs : c.stack with
      | nil => rw [hs] at h2; cases h2
      | cons f fs =>
        rw [hs] at h h2
        obtain ⟨x, y, r, e⟩ := h2
        simp [e] at h
    | _ => exact fun h => h

variable [BEq V] [Hashable V]

/-- Run an action, checking that it is allowed and that no object has too many handles; with what happens to values. -/
def checked1 (cfg : Cfg V) (D : State V × List (Nat × Move V)) (a : Act V) : Option (State V × List (Nat × Move V)) :=
  match step cfg D.1 a with
  | .ok X' => if a.plain D.1 && decide ((mentions cfg X'.base).length < cfg.W) then
      some (X', match a with | .lock _ => D.2 | .act a => ArcNest.logged cfg D.1.base a ++ D.2)
    else none
  | _ => none

/-- Take the lock first, if the action needs it. -/
def auto (cfg : Cfg V) (X : State V) : Act V → List (Act V)
  | .act (.run t a) => match needs cfg X.base t with
    | some h => if h ∈ X.held then [.act (.run t a)] else [.lock t, .act (.run t a)]
    | none => [.act (.run t a)]
  | a => [a]

def checked (cfg : Cfg V) (D : State V × List (Nat × Move V)) : List (Act V) → Option (State V × List (Nat × Move V))
  | [] => some D
  | a :: as => match (auto cfg D.1 a).foldlM (checked1 cfg) D with
    | some D' => checked cfg D' as
    | none => none

/-- Reachable, with these happenings. -/
def Fine (cfg : Cfg V) (D : State V × List (Nat × Move V)) : Prop := ReachND cfg D.1 ∧ Ledger cfg D.1 D.2

theorem checked1_fine {cfg : Cfg V} {D D' : State V × List (Nat × Move V)} (h : Fine cfg D) {a : Act V} (e : checked1 cfg D a = some D') : Fine cfg D' := by
  unfold checked1 at e
  split at e
  · rename_i X' hs
    split at e
    · rename_i hc
      simp only [Bool.and_eq_true, decide_eq_true_eq] at hc
      cases e
      have hf : ArcNest.Few cfg X'.base := fun _ => Nat.lt_of_le_of_lt List.count_le_length hc.2
      refine ⟨.step h.1 (Act.plain_sound hc.1) hs hf, ?_⟩
      cases a with
      | lock t => exact .lock h.2 hs hf
      | act a => exact .act h.2 hs hf
    · cases e
  · cases e

theorem foldlM_fine {cfg : Cfg V} : ∀ (as : List (Act V)) {D D' : State V × List (Nat × Move V)}, Fine cfg D →
    as.foldlM (checked1 cfg) D = some D' → Fine cfg D' := by
  intro as
  induction as with
  | nil => intro D D' h e; cases e; exact h
  | cons a as ih =>
    intro D D' h e
    simp only [List.foldlM_cons, Option.bind_eq_bind, Option.bind_eq_some_iff] at e
    obtain ⟨D1, e1, e2⟩ := e
    exact ih (checked1_fine h e1) e2

theorem checked_fine {cfg : Cfg V} (as : List (Act V)) : ∀ {D D' : State V × List (Nat × Move V)}, Fine cfg D → checked cfg D as = some D' → Fine cfg D' := by
  induction as with
  | nil => intro D D' h e; cases e; exact h
  | cons a as ih =>
    intro D D' h e
    simp only [checked] at e
    split at e
    · rename_i h1
      exact ih (foldlM_fine _ h h1) e
    · cases e

/-- Let a thread run for `n` steps. -/
def runs (t : Tid) (a : Addr) (n : Nat) : List (Act V) := List.replicate n (.act (.run t a))
end

/-- The state after a checked run from the start. -/
def demoL (as : List (Act Arc.Val)) : State Arc.Val × List (Nat × Move Arc.Val) := (checked demoCfg (init, []) as).getD (init, [])

def demo (as : List (Act Arc.Val)) : State Arc.Val := (demoL as).1

/-- So all the examples are about states that can be reached. -/
theorem demo_fine (as : List (Act Arc.Val)) : Fine demoCfg (demoL as) := by
  unfold demoL
  cases h : checked demoCfg (init, []) as with
  | none => exact ⟨.init, .init⟩
  | some D => exact checked_fine as ⟨.init, .init⟩ h

theorem demo_reach (as : List (Act Arc.Val)) : ReachND demoCfg (demo as) := (demo_fine as).1

/-- The number of calls that each thread is executing. -/
def depths (X : State Arc.Val) : List Nat := ArcNest.depths X.base

/-- Two threads; a value is interned; then, on thread 1, an equal value is looked up, up to the comparison, in which the lock of shard 1 is held. -/
def eqTrace : List (Act Arc.Val) :=
  [.act .spawn, .act .spawn, .act (.new 0 ⟨5, 1, []⟩ false)] ++ runs 0 10 17 ++ [.act (.new 1 ⟨5, 2, []⟩ false)] ++ runs 1 20 3 ++ [.lock 1]

/-- `Eq` interns a value of the other shard. -/
def calmTrace : List (Act Arc.Val) := eqTrace ++ [.act (.new 1 ⟨8, 1, []⟩ false)]

/-- `Eq` interns a value of the same shard. -/
def selfTrace : List (Act Arc.Val) := eqTrace ++ [.act (.new 1 ⟨7, 1, []⟩ false)] ++ runs 1 20 3

/-- The insertion of an entry makes the table of shard 1 grow, which calls `Hash`, which interns a value of shard 0. -/
def growTrace : List (Act Arc.Val) :=
  [.act .spawn, .act .spawn, .act (.new 0 ⟨5, 1, []⟩ false)] ++ runs 0 10 7 ++ [.act (.new 0 ⟨8, 1, []⟩ false)]

/-- `Eq` on thread 0, in shard 1, interns a value of shard 0; `Eq` on thread 1, in shard 0, interns a value of shard 1. -/
def crossTrace : List (Act Arc.Val) :=
  [.act .spawn, .act .spawn, .act (.new 0 ⟨5, 1, []⟩ false)] ++ runs 0 10 17 ++ [.act (.new 0 ⟨8, 1, []⟩ false)] ++ runs 0 20 17 ++
  [.act (.new 0 ⟨5, 2, []⟩ false)] ++ runs 0 30 3 ++ [.lock 0, .act (.new 1 ⟨8, 2, []⟩ false)] ++ runs 1 40 3 ++ [.lock 1] ++
  [.act (.new 0 ⟨8, 3, []⟩ false)] ++ runs 0 30 3 ++ [.act (.new 1 ⟨5, 3, []⟩ false)] ++ runs 1 40 3

end Src.ArcHeld
