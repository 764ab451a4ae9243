import Verif.Src.NewSpec
import Verif.Pool.Demo
/-! Checked executions of the code of `NewIntern`, used to show that the hypotheses of theorems are met. Types 0 and 1 have the same vector,
with number 7, type 2 has vector 3. Values as in `Verif/Pool/Demo.lean`. -/
namespace Src.NewCode
open Arc (Res)
open Pool (Tid Ptr Query Ret Obj Entry)

def dcfg : Cfg Nat Pool.Demo.Val where
  typeId k := 50 + k
  shard k := if k < 2 then 7 else 3
  zst _ v := decide (v = ⟨0, 0⟩)
  info _ v := if v = ⟨0, 0⟩ then 1 else 0
  dangle _ _ := 8

theorem dlayout : dcfg.Layout where
  types k k' h := by simp only [dcfg] at h; omega
  memory := ⟨Pool.Demo.layout.size, Pool.Demo.layout.unique⟩

/-- Lawful actions. -/
inductive Cmd where
  | spawn
  | new (t : Tid) (k : Nat) (v : Pool.Demo.Val) (byRef unw : Bool)
  | len (t : Tid) (k : Nat)
  | run (t : Tid) (a : Nat)
  | panic (t : Tid)

def Cmd.act : Cmd → Act Nat Pool.Demo.Val
  | .spawn => .spawn
  | .new t k v byRef unw => .call t (.intern k (.ofVal v) v) byRef unw
  | .len t k => .call t (.len k) false false
  | .run t a => .run t a
  | .panic t => .panic t

theorem Cmd.lawful (c : Cmd) : c.act.Lawful := by
  cases c with
  | new t k v byRef unw => exact Pool.lawful_new k v
  | _ => exact True.intro

/-- Run commands. -/
def script (S : State Nat Pool.Demo.Val) : List Cmd → Option (State Nat Pool.Demo.Val)
  | [] => some S
  | c :: l => match step dcfg S c.act with
    | .ok S' => script S' l
    | _ => none

def demo (l : List Cmd) : State Nat Pool.Demo.Val := (script init l).getD init

theorem script_reach (l : List Cmd) : ∀ {S S' : State Nat Pool.Demo.Val}, Reach dcfg S → script S l = some S' → Reach dcfg S' := by
  induction l with
  | nil => intro S S' h e; cases e; exact h
  | cons c l ih =>
    intro S S' h e
    simp only [script] at e
    cases hs : step dcfg S c.act with
    | ok S1 => rw [hs] at e; exact ih (.step h c.lawful hs) e
    | blocked => rw [hs] at e; cases e
    | ub => rw [hs] at e; cases e

theorem demo_reach {l : List Cmd} (h : (script init l).isSome = true) : Reach dcfg (demo l) := by
  obtain ⟨S, hS⟩ := Option.isSome_iff_exists.mp h
  rw [demo, hS]
  exact script_reach l .init hS

theorem script_later (l : List Cmd) : ∀ {S0 S S' : State Nat Pool.Demo.Val}, Later dcfg S0 S → script S l = some S' → Later dcfg S0 S' := by
  induction l with
  | nil => intro S0 S S' h e; cases e; exact h
  | cons c l ih =>
    intro S0 S S' h e
    simp only [script] at e
    cases hs : step dcfg S c.act with
    | ok S1 => rw [hs] at e; exact ih (.step h c.lawful hs) e
    | blocked => rw [hs] at e; cases e
    | ub => rw [hs] at e; cases e

def runs (t : Tid) (a n : Nat) : List Cmd := List.replicate n (.run t a)

theorem quiet_of {S : State Nat Pool.Demo.Val} (h : S.threads.all (·.isEmpty) = true) : Quiet S := by
  intro cs hcs
  have := List.all_eq_true.mp h cs hcs
  simpa using this

/-- Two threads intern equal values of type 0, one by value and one by reference. Both see no table for the type and push one; both use the
first one. -/
def race : List Cmd := [.spawn, .spawn, .new 0 0 ⟨5, 1⟩ false false, .new 1 0 ⟨5, 2⟩ true false] ++ runs 0 0 2 ++ runs 1 0 2 ++
  [.run 0 0, .run 1 0, .run 0 1, .run 1 2] ++ runs 0 10 15 ++ runs 1 20 17

/-- Thread 0 interns another value; it has the lock, and is about to look the value up. -/
def again : List Cmd := race ++ [.new 0 0 ⟨6, 3⟩ false false, .run 0 2] ++ runs 0 0 3

/-- The lookup panics; the mutex has been released. -/
def poison : List Cmd := again ++ [.panic 0] ++ runs 0 0 9

/-- Thread 1 interns a value after that. -/
def late : List Cmd := poison ++ [.new 1 0 ⟨5, 4⟩ false false, .run 1 2] ++ runs 1 0 10

/-- As `poison`, but the call is made by a destructor of the client that is run by an unwinding. -/
def mild : List Cmd := race ++ [.new 0 0 ⟨6, 3⟩ false true, .run 0 2] ++ runs 0 0 3 ++ [.panic 0] ++ runs 0 0 9

/-- An equal value is interned again; the destructor of the argument is running, and the mutex is held. -/
def inDtor : List Cmd := race ++ [.new 0 0 ⟨5, 3⟩ false false, .run 0 2] ++ runs 0 0 12

/-- It interns a value of another type. -/
def nested : List Cmd := inDtor ++ [.new 0 1 ⟨6, 0⟩ false false, .run 0 2, .run 0 0, .run 0 0, .run 0 3] ++ runs 0 20 6

/-- It interns a value of the same type. -/
def stuck : List Cmd := inDtor ++ [.new 0 0 ⟨7, 0⟩ false false, .run 0 2]

end Src.NewCode
