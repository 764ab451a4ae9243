import Verif.Arc.Facts
/-! A concrete value type and checked executions, used to show that hypotheses of theorems are met. -/
namespace Arc

/-- `==` compares `key` and the (pointer-compared) handles inside; `tag` is ignored, so `==` is coarser
than identity. -/
structure Val where
  key : Nat
  tag : Nat := 0
  kids : List Addr := []
  deriving DecidableEq, Repr

instance : BEq Val := ⟨fun a b => a.key == b.key && a.kids == b.kids⟩
instance : Hashable Val := ⟨fun a => UInt64.ofNat a.key⟩

theorem Val.beq_iff (a b : Val) : (a == b) = true ↔ a.key = b.key ∧ a.kids = b.kids := by
  show (a.key == b.key && a.kids == b.kids) = true ↔ _
  simp

instance : EquivBEq Val where
  rfl := by intro a; rw [Val.beq_iff]; exact ⟨rfl, rfl⟩
  symm := by intro a b h; rw [Val.beq_iff] at *; exact ⟨h.1.symm, h.2.symm⟩
  trans := by intro a b c h1 h2; rw [Val.beq_iff] at *; exact ⟨h1.1.trans h2.1, h1.2.trans h2.2⟩
instance : LawfulHashable Val where
  hash_eq := by
    intro a b h; rw [Val.beq_iff] at h
    show UInt64.ofNat a.key = UInt64.ofNat b.key
    rw [h.1]

/-- Two shards, 64-bit counters. -/
def demoCfg : Cfg Val := { kids := Val.kids, shards := 2, pick := fun h => h.toNat % 2, W := 2 ^ 64 }

theorem demoCfg_valid : demoCfg.Valid where
  pick_lt := fun h => Nat.mod_lt _ (by decide)
  W_ge := by decide

/-- Is this action one of the sane, non-panicking ones? -/
def Act.plain {V : Type} : Act V → Bool
  | .panicInsert _ | .panic _ => false
  | _ => true
def Act.sane {V : Type} : Act V → Bool
  | .panicInsert _ => false
  | _ => true

section
variable {V : Type} [BEq V] [Hashable V]

/-- Run actions, checking that each is allowed and that no object has too many handles. -/
def checked (ok : Act V → Bool) (cfg : Cfg V) (s : State V) : List (Act V) → Option (State V)
  | [] => some s
  | a :: as => match step cfg s a with
    | .ok s' => if ok a && decide ((allHandles cfg s').length < cfg.W) then checked ok cfg s' as else none
    | _ => none

omit [BEq V] [Hashable V] in
theorem small_of_length {cfg : Cfg V} {s : State V} (h : (allHandles cfg s).length < cfg.W) : Small cfg s :=
  fun _ => Nat.lt_of_le_of_lt List.count_le_length h

theorem checked_reach {cfg : Cfg V} (as : List (Act V)) :
    ∀ {s s' : State V}, Reach cfg s → checked Act.sane cfg s as = some s' → Reach cfg s' := by
  induction as with
  | nil => intro s s' h e; simp only [checked, Option.some.injEq] at e; exact e ▸ h
  | cons a as ih =>
    intro s s' h e
    simp only [checked] at e
    cases hs : step cfg s a with
    | ok s1 =>
      simp only [hs] at e
      split at e
      · rename_i hc
        simp only [Bool.and_eq_true, decide_eq_true_eq] at hc
        refine ih (.step h ?_ hs (small_of_length hc.2)) e
        cases a <;> simp_all [Act.Sane, Act.sane]
      · cases e
    | blocked => simp [hs] at e
    | ub => simp [hs] at e

theorem checked_reachND {cfg : Cfg V} (as : List (Act V)) :
    ∀ {s s' : State V}, ReachND cfg s → checked Act.plain cfg s as = some s' → ReachND cfg s' := by
  induction as with
  | nil => intro s s' h e; simp only [checked, Option.some.injEq] at e; exact e ▸ h
  | cons a as ih =>
    intro s s' h e
    simp only [checked] at e
    cases hs : step cfg s a with
    | ok s1 =>
      simp only [hs] at e
      split at e
      · rename_i hc
        simp only [Bool.and_eq_true, decide_eq_true_eq] at hc
        refine ih (.step h ?_ ?_ hs (small_of_length hc.2)) e
        · cases a <;> simp_all [Act.Sane, Act.plain]
        · cases a <;> simp_all [dropPanic, Act.plain]
      · cases e
    | blocked => simp [hs] at e
    | ub => simp [hs] at e
end

/-- The state after a checked run from the start. -/
def demo (as : List (Act Val)) : State Val := (checked Act.sane demoCfg init as).getD init
def demoND (as : List (Act Val)) : State Val := (checked Act.plain demoCfg init as).getD init

theorem demo_reach {as : List (Act Val)} (h : (checked Act.sane demoCfg init as).isSome = true) :
    Reach demoCfg (demo as) := by
  obtain ⟨s, hs⟩ := Option.isSome_iff_exists.mp h
  have : demo as = s := by simp [demo, hs]
  rw [this]; exact checked_reach as .init hs
theorem demoND_reach {as : List (Act Val)} (h : (checked Act.plain demoCfg init as).isSome = true) :
    ReachND demoCfg (demoND as) := by
  obtain ⟨s, hs⟩ := Option.isSome_iff_exists.mp h
  have : demoND as = s := by simp [demoND, hs]
  rw [this]; exact checked_reachND as .init hs

abbrev r (t : Tid) (a : Addr := 0) : Act Val := .run t a

/-- Two threads race to intern equal values (different tags); both miss, both allocate, thread 1 loses the
race at `entry`, frees its box and finds thread 0's. -/
def raceTrace : List (Act Val) :=
  [.spawn, .spawn, .new 0 ⟨5, 1, []⟩ false, .new 1 ⟨5, 2, []⟩ false, r 0, r 1, r 0 10, r 1 11, r 0, r 0, r 0, r 0,
   r 1, r 1, r 1, r 1, r 1, r 1, r 1]

/-- Thread 0 drops the last handle but has not removed the entry; thread 1 meanwhile looks the value up,
sees count zero, undoes its increment and retries; then the removal happens and thread 1 re-creates it at the
same address. -/
def reviveTrace : List (Act Val) :=
  [.spawn, .spawn, .new 0 ⟨5, 1, []⟩ false, r 0, r 0 10, r 0, r 0, r 0, r 0, .drop 0 10, r 0,
   .new 1 ⟨5, 2, []⟩ false, r 1, r 1, r 1, r 1, r 0, r 0, r 1, r 1 10, r 1, r 1, r 1, r 1]

/-- A nested value: object 20 holds a handle to object 10. The client clones it through the outer
handle, and keeps both. -/
def nestedTrace : List (Act Val) :=
  [.spawn, .new 0 ⟨5, 0, []⟩ false, r 0, r 0 10, r 0, r 0, r 0, r 0,
   .new 0 ⟨6, 0, [10]⟩ false, r 0, r 0 20, r 0, r 0, r 0, r 0, .clone 0 [20, 10]]

theorem race_reach : Reach demoCfg (demo raceTrace) := demo_reach (by decide)
theorem revive_reach : Reach demoCfg (demo reviveTrace) := demo_reach (by decide)
theorem nested_reach : ReachND demoCfg (demoND nestedTrace) := demoND_reach (by decide)

example : (demo raceTrace).handles = [10, 10] := by decide
example : (demo reviveTrace).handles = [10] ∧ deref (demo reviveTrace) 10 = some ⟨5, 2, []⟩ := by decide
example : (demoND nestedTrace).handles = [10, 20] ∧ allHandles demoCfg (demoND nestedTrace) = [10, 20, 10] := by decide

end Arc
