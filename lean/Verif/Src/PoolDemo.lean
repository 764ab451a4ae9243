import Verif.Src.PoolSpec
import Verif.Pool.Demo
/-! Checked executions of the code, used to show that the hypotheses of theorems are met. Pools as in `Verif/Pool/Demo.lean`: 0 and 1 are
`Intern` pools behind the same lock, 2 and 3 are arenas. -/
namespace Src.PoolCode
open Arc (Res)
open Pool (Tid Ptr Query Ret Obj Cfg Entry)
open Pool.Demo (cfg)

/-- Lawful actions. -/
inductive Cmd where
  | spawn
  | new (t : Tid) (k : Nat) (v : Pool.Demo.Val) (byRef : Bool)
  | query (t : Tid) (k : Nat) (v : Pool.Demo.Val)
  | len (t : Tid) (k : Nat)
  | run (t : Tid) (a : Nat)
  | panic (t : Tid)
  | dropArena (t : Tid) (k : Nat)

def Cmd.act : Cmd → Act Nat Pool.Demo.Val
  | .spawn => .spawn
  | .new t k v byRef => .call t (.intern k (.ofVal v) v) byRef
  | .query t k v => .call t (.query k (.ofVal v)) false
  | .len t k => .call t (.len k) false
  | .run t a => .run t a
  | .panic t => .panic t
  | .dropArena t k => .dropArena t k

theorem Cmd.lawful (c : Cmd) : c.act.Lawful := by
  cases c with
  | new t k v byRef => exact Pool.lawful_new k v
  | query t k v => exact ⟨fun x h => LawfulHashable.hash_eq _ _ h, fun _ _ h => BEq.congr_left h⟩
  | _ => exact True.intro

/-- Run commands. -/
def script (S : State Nat Pool.Demo.Val) : List Cmd → Option (State Nat Pool.Demo.Val)
  | [] => some S
  | c :: l => match step cfg S c.act with
    | .ok S' => script S' l
    | _ => none

def demo (l : List Cmd) : State Nat Pool.Demo.Val := (script init l).getD init

theorem script_reach (l : List Cmd) : ∀ {S S' : State Nat Pool.Demo.Val}, Reach cfg S → script S l = some S' → Reach cfg S' := by
  induction l with
  | nil => intro S S' h e; cases e; exact h
  | cons c l ih =>
    intro S S' h e
    simp only [script] at e
    cases hs : step cfg S c.act with
    | ok S1 => rw [hs] at e; exact ih (.step h c.lawful hs) e
    | blocked => rw [hs] at e; cases e
    | ub => rw [hs] at e; cases e

theorem demo_reach {l : List Cmd} (h : (script init l).isSome = true) : Reach cfg (demo l) := by
  obtain ⟨S, hS⟩ := Option.isSome_iff_exists.mp h
  rw [demo, hS]
  exact script_reach l .init hS

theorem script_later (l : List Cmd) : ∀ {S0 S S' : State Nat Pool.Demo.Val}, Later cfg S0 S → script S l = some S' → Later cfg S0 S' := by
  induction l with
  | nil => intro S0 S S' h e; cases e; exact h
  | cons c l ih =>
    intro S0 S S' h e
    simp only [script] at e
    cases hs : step cfg S c.act with
    | ok S1 => rw [hs] at e; exact ih (.step h c.lawful hs) e
    | blocked => rw [hs] at e; cases e
    | ub => rw [hs] at e; cases e

def runs (t : Tid) (a n : Nat) : List Cmd := List.replicate n (.run t a)

theorem quiet_of {S : State Nat Pool.Demo.Val} (h : S.threads.all (·.isEmpty) = true) : Quiet S := by
  intro cs hcs
  have := List.all_eq_true.mp h cs hcs
  simpa using this

/-- Thread 0 interns a value in pool 0. -/
def first : List Cmd := [.spawn, .spawn, .new 0 0 ⟨5, 1⟩ false] ++ runs 0 10 13

/-- Two threads intern equal values; thread 1, by reference, waits for thread 0. -/
def race : List Cmd := [.spawn, .spawn, .new 0 0 ⟨5, 1⟩ false, .new 1 0 ⟨5, 2⟩ true] ++ runs 0 10 13 ++ runs 1 20 15

/-- An equal value is interned again; the destructor of the argument runs, and the lock is held. -/
def inDtor : List Cmd := first ++ [.new 0 0 ⟨5, 2⟩ false] ++ runs 0 0 12

/-- It interns a value in another pool behind the same lock. -/
def stuck : List Cmd := inDtor ++ [.new 0 1 ⟨6, 0⟩ false]

/-- The same with an arena; the call of the destructor goes through. -/
def arenaDtor : List Cmd := first ++ [.new 0 2 ⟨5, 1⟩ false] ++ runs 0 20 10 ++ [.new 0 2 ⟨5, 2⟩ false] ++ runs 0 0 12

/-- In it, a value is interned in the same arena, and in pool 1. -/
def nested : List Cmd := arenaDtor ++ [.new 0 2 ⟨6, 3⟩ true] ++ runs 0 30 11 ++ [.new 0 1 ⟨6, 0⟩ false] ++ runs 0 40 13 ++ runs 0 0 2

/-- The arena is dropped. -/
def dropping : List Cmd := nested ++ [.dropArena 1 2]

end Src.PoolCode
