import Verif.Traits
import Verif.Props.ArcSafety
import Verif.Props.Intern
import Verif.Props.Arena
/-
Property C40: equality, ordering and hashing of handles are consistent. `Traits.Consistent` (Verif/Traits.lean) spells it out.
-/
namespace Traits
variable {P V : Type}

theorem both_some {α : Type} {d : P → Option V} {m : V → V → α} {p q : P} {x y : V} (hx : d p = some x) (hy : d q = some y) :
    both d m p q = some (m x y) := by
  unfold both; rw [hx, hy]

/-- Canonical handles are consistent. -/
theorem consistent [DecidableEq P] [BEq V] {S : P → Prop} {d : P → Option V} (ph : P → UInt64) (M : Methods V)
    (h : ∀ p q, S p → S q → ∃ x y, d p = some x ∧ d q = some y ∧ (p = q ↔ (x == y) = true)) : Consistent S d ph M where
  eq_refl p _ := by simp [eq]
  eq_symm p q _ _ e := by simp only [eq, decide_eq_true_eq] at *; exact e.symm
  eq_trans p q r _ _ _ e e' := by simp only [eq, decide_eq_true_eq] at *; exact e.trans e'
  eq_value p q hp hq := by
    obtain ⟨x, y, hx, hy, e⟩ := h p q hp hq
    refine ⟨x, y, hx, hy, ?_⟩
    rw [Bool.eq_iff_iff, ← e]; simp [eq]
  hash_eq p q _ _ e := by simp only [eq, decide_eq_true_eq] at e; rw [e]
  methods p q hp hq := by
    obtain ⟨x, y, hx, hy, e⟩ := h p q hp hq
    exact ⟨x, y, hx, hy, both_some hx hy, both_some hx hy, both_some hx hy, both_some hx hy, both_some hx hy, both_some hx hy⟩
  cmp_eq L p q hp hq := by
    obtain ⟨x, y, hx, hy, e⟩ := h p q hp hq
    rw [cmp, both_some hx hy]
    simp only [Option.some.injEq, eq, decide_eq_true_eq]
    rw [L.eq, e]
  cmp_swap L p q hp hq := by
    obtain ⟨x, y, hx, hy, _⟩ := h p q hp hq
    exact ⟨M.cmp x y, both_some hx hy, by rw [cmp, both_some hy hx, L.swap x y]⟩
  cmp_trans L p q r hp hq hr := by
    obtain ⟨x, y, hx, hy, _⟩ := h p q hp hq
    obtain ⟨_, z, _, hz, _⟩ := h p r hp hr
    rw [cmp, cmp, cmp, both_some hx hy, both_some hy hz, both_some hx hz]
    simp only [Option.some.injEq]
    exact L.trans x y z
  agree L p q hp hq := by
    obtain ⟨x, y, hx, hy, _⟩ := h p q hp hq
    refine ⟨M.cmp x y, both_some hx hy, ?_, ?_, ?_, ?_, ?_⟩
    · rw [partialCmp, both_some hx hy, L.partial_]
    · rw [lt, both_some hx hy]; congr 1; rw [Bool.eq_iff_iff, L.lt]; simp
    · rw [le, both_some hx hy]; congr 1; rw [Bool.eq_iff_iff, L.le]; simp
    · rw [gt, both_some hx hy]; congr 1; rw [Bool.eq_iff_iff, L.gt]; simp
    · rw [ge, both_some hx hy]; congr 1; rw [Bool.eq_iff_iff, L.ge]; simp

/-- **C40 for `ArcIntern`**: in every reachable state, for all existing handles. -/
theorem C40_arc [BEq V] [Hashable V] [EquivBEq V] [LawfulHashable V] {cfg : Arc.Cfg V} (hv : cfg.Valid) {s : Arc.State V}
    (r : Arc.Reach cfg s) (ph : Arc.Addr → UInt64) (M : Methods V) :
    Consistent (fun p => p ∈ Arc.allHandles cfg s) (Arc.deref s) ph M :=
  consistent ph M fun p q hp hq => by
    obtain ⟨x, y, hx, hy, e⟩ := Arc.C01_canonical hv r hp hq
    exact ⟨x, y, hx, hy, by rw [← e]; simp [Arc.handleEq]⟩

/-- **C40 for `Intern`**: for all handles ever returned for one type. -/
theorem C40_intern {K : Type} [DecidableEq K] [BEq V] [Hashable V] [EquivBEq V] [LawfulHashable V] {cfg : Pool.Cfg K V}
    (lay : cfg.Layout) {s : Pool.State K V} (r : Pool.Reach cfg s) {k : K} (ho : cfg.owns k = false) (ph : Pool.Ptr → UInt64)
    (M : Methods V) : Consistent (fun p => ∃ v, Pool.Returned s k v p) (Pool.deref s k) ph M :=
  consistent ph M fun p q ⟨_, hp⟩ ⟨_, hq⟩ => by
    obtain ⟨x, y, hx, hy, e, _⟩ := Pool.C24_pointer_eq_iff_value_eq lay r ho hp hq
    exact ⟨x, y, hx, hy, e⟩

/-- **C40 for `ArenaIntern`**: for all handles of one arena that still exists (`ArenaIntern` itself only has `==` and `hash`; the
orderings are those a client gets by comparing dereferenced handles). -/
theorem C40_arena {K : Type} [DecidableEq K] [BEq V] [Hashable V] [EquivBEq V] [LawfulHashable V] {cfg : Pool.Cfg K V}
    (lay : cfg.Layout) {s : Pool.State K V} (r : Pool.Reach cfg s) {k : K} (hk : k ∉ s.gone) (ph : Pool.Ptr → UInt64)
    (M : Methods V) : Consistent (fun p => ∃ v, Pool.Returned s k v p) (Pool.deref s k) ph M :=
  consistent ph M fun p q ⟨_, hp⟩ ⟨_, hq⟩ => by
    obtain ⟨x, y, hx, hy, e, _⟩ := Pool.C35_pointer_eq_iff_value_eq lay r hk hp hq
    exact ⟨x, y, hx, hy, e⟩

/-- A lawful ordering on the demo values of the `ArcIntern` model (by key, ignoring the tag, then by the handles inside). -/
def demoMethods : Methods Arc.Val :=
  let c : Arc.Val → Arc.Val → Ordering := fun a b => (compare a.key b.key).then (compare a.kids b.kids)
  { partialCmp := fun a b => some (c a b), lt := fun a b => c a b == .lt, le := fun a b => c a b != .gt,
    gt := fun a b => c a b == .gt, ge := fun a b => c a b != .lt, cmp := c }

theorem demoMethods_cmp (a b : Arc.Val) : demoMethods.cmp a b = (compare a.key b.key).then (compare a.kids b.kids) := rfl

theorem demoMethods_lawful : demoMethods.Lawful where
  eq x y := by
    rw [demoMethods_cmp, Arc.Val.beq_iff, Ordering.then_eq_eq, Std.compare_eq_iff_eq, Std.compare_eq_iff_eq]
  swap x y := by
    rw [demoMethods_cmp, demoMethods_cmp, Ordering.swap_then, ← Std.OrientedOrd.eq_swap, ← Std.OrientedOrd.eq_swap]
  trans x y z h1 h2 := by
    rw [demoMethods_cmp] at *
    rw [Ordering.then_eq_lt] at *
    rcases h1 with h1 | ⟨h1, h1'⟩ <;> rcases h2 with h2 | ⟨h2, h2'⟩
    · exact .inl (Std.TransCmp.lt_trans h1 h2)
    · exact .inl (Std.TransCmp.lt_of_lt_of_eq h1 h2)
    · exact .inl (Std.TransCmp.lt_of_eq_of_lt h1 h2)
    · exact .inr ⟨Std.TransCmp.eq_trans h1 h2, Std.TransCmp.lt_trans h1' h2'⟩
  partial_ x y := rfl
  lt x y := by simp [demoMethods]
  le x y := by simp [demoMethods]
  gt x y := by simp [demoMethods]
  ge x y := by simp [demoMethods]

/-- The hypotheses are met, and two different handles compare as their values do. -/
example : demoMethods.Lawful ∧ cmp (Arc.deref (Arc.demoND Arc.nestedTrace)) demoMethods 10 20 = some .lt ∧
    10 ∈ Arc.allHandles Arc.demoCfg (Arc.demoND Arc.nestedTrace) ∧ 20 ∈ Arc.allHandles Arc.demoCfg (Arc.demoND Arc.nestedTrace) :=
  ⟨demoMethods_lawful, by decide, by decide, by decide⟩

end Traits
