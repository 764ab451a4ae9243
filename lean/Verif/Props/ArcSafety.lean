import Verif.Arc.Demo
/-!
C01–C05, C07, C16: safety of `ArcIntern`. Vocabulary (`allHandles`, `deref`, `refcount`, `numObjects`,
`Reach`, `Quiescent`) is in `Verif/Arc/Spec.lean`; the transition system is in `Verif/Arc/Model.lean`.
-/
namespace Arc
variable {V : Type} [BEq V] [Hashable V] [EquivBEq V] [LawfulHashable V]

theorem inv_canonical {cfg : Cfg V} {s : State V} (hI : Inv cfg s)
    {a b : Addr} (ha : a ∈ allHandles cfg s) (hb : b ∈ allHandles cfg s) :
    ∃ x y, deref s a = some x ∧ deref s b = some y ∧ (handleEq a b = true ↔ (x == y) = true) := by
  obtain ⟨x, hx⟩ := hI.deref_some ha
  obtain ⟨y, hy⟩ := hI.deref_some hb
  refine ⟨x, y, hx, hy, ?_⟩
  simp only [handleEq, beq_iff_eq]
  constructor
  · rintro rfl; rw [hx] at hy; cases hy; exact BEq.rfl
  · intro hxy
    obtain ⟨cx, h1, rfl⟩ := deref_get hx
    obtain ⟨cy, h2, rfl⟩ := deref_get hy
    exact hI.uniq a b cx cy (hI.in_table ha) (hI.in_table hb) h1 h2 hxy

/-- C01. In every reachable state, for any two existing handles, pointer equality is value equality. -/
theorem C01_canonical {cfg : Cfg V} (hv : cfg.Valid) {s : State V} (h : Reach cfg s)
    {a b : Addr} (ha : a ∈ allHandles cfg s) (hb : b ∈ allHandles cfg s) :
    ∃ x y, deref s a = some x ∧ deref s b = some y ∧ (handleEq a b = true ↔ (x == y) = true) :=
  inv_canonical (reach_inv hv h) ha hb

example : Reach demoCfg (demo raceTrace) ∧ 10 ∈ allHandles demoCfg (demo raceTrace) :=
  ⟨race_reach, by decide⟩
example : 10 ∈ allHandles demoCfg (demoND nestedTrace) ∧ 20 ∈ allHandles demoCfg (demoND nestedTrace) := by decide

/-- C02 (a). No step from a reachable state touches freed memory. -/
theorem C02_no_use_after_free {cfg : Cfg V} (hv : cfg.Valid) {s : State V} (h : Reach cfg s)
    (act : Act V) (hs : act.Sane) : step cfg s act ≠ .ub :=
  (step_kept hv (reach_inv hv h) hs).1

/-- C02 (b). Every existing handle points to memory that is allocated and registered. -/
theorem C02_handles_valid {cfg : Cfg V} (hv : cfg.Valid) {s : State V} (h : Reach cfg s)
    {p : Addr} (hp : p ∈ allHandles cfg s) : (deref s p).isSome = true ∧ p ∈ s.table := by
  have hI := reach_inv hv h
  obtain ⟨x, hx⟩ := hI.deref_some hp
  exact ⟨by rw [hx]; rfl, hI.in_table hp⟩

theorem inv_refcount_exact {cfg : Cfg V} {s : State V} (hI : Inv cfg s)
    {p : Addr} (hp : p ∈ allHandles cfg s) : refcount s p = some ((allHandles cfg s).count p) := by
  have hA : 0 < A cfg s p := List.count_pos_iff.mpr hp
  obtain ⟨x, hx⟩ := hI.deref hA
  have h1 := hI.cnt p x (hI.live p hA) hx
  have h2 := hI.undo p
  have h3 : U s p = 0 := by omega
  simp only [refcount, hx, Option.map_some, Option.some.injEq]
  rw [h1, h3]; rfl

/-- C03. `refcount()` of an existing handle is the number of existing handles to that object. -/
theorem C03_refcount_exact {cfg : Cfg V} (hv : cfg.Valid) {s : State V} (h : Reach cfg s)
    {p : Addr} (hp : p ∈ allHandles cfg s) : refcount s p = some ((allHandles cfg s).count p) :=
  inv_refcount_exact (reach_inv hv h) hp

example : refcount (demo raceTrace) 10 = some 2 := by decide
example : refcount (demoND nestedTrace) 10 = some 2 := by decide

/-- The newest box is not referenced by any stored value. -/
theorem newest_unreferenced {cfg : Cfg V} {s : State V} (hI : Inv cfg s) {e : Addr × Cell V}
    {l : List (Addr × Cell V)} (hh : s.heap = e :: l) : e.1 ∉ storedHandles cfg s.heap := by
  intro hmem
  rw [storedHandles, List.mem_flatMap] at hmem
  obtain ⟨y, hy, hk⟩ := hmem
  rw [hh] at hy
  rcases List.mem_cons.mp hy with rfl | hy
  · exact hI.self y (by rw [hh]; simp) hk
  · have := hI.ord
    rw [hh, List.pairwise_cons] at this
    exact this.1 y hy hk

theorem inv_no_leak {cfg : Cfg V} {s : State V} (hI : Inv cfg s) (hz : s.zombies = [])
    (hq : Quiescent s) (hh : s.handles = []) : numObjects s = 0 ∧ s.heap = [] := by
  have hheap : s.heap = [] := by
    cases he : s.heap with
    | nil => rfl
    | cons e l =>
      exfalso
      obtain ⟨q1, q2, q3, q4⟩ := quiescent_counts (cfg := cfg) hq e.1
      have hA : A cfg s e.1 = 0 := by
        rw [A_eq, q1, hh, List.count_eq_zero.mpr (newest_unreferenced hI he)]; rfl
      have hK : 0 < K s e.1 := List.count_pos_iff.mpr (by simp [keys, he])
      have h1 := hI.split e.1
      have h2 := hI.pend e.1
      rw [if_pos ⟨by omega, hA⟩] at h2
      have : Z s e.1 = 0 := by simp [Z, hz]
      omega
  refine ⟨?_, hheap⟩
  cases ht : s.table with
  | nil => simp [numObjects, ht]
  | cons b l =>
    exfalso
    have := hI.mem_keys (b := b) (by simp [ht])
    simp [keys, hheap] at this

/-- C04. When nothing is in progress and no client holds a handle, the interner is empty and everything it
allocated has been freed. -/
theorem C04_no_leak {cfg : Cfg V} (hv : cfg.Valid) {s : State V} (h : ReachND cfg s)
    (hq : Quiescent s) (hh : s.handles = []) : numObjects s = 0 ∧ s.heap = [] :=
  inv_no_leak (reach_inv hv h.reach) h.zombies hq hh

/-- The nested example, with everything dropped (the outer object last). -/
def nestedDropTrace : List (Act Val) :=
  nestedTrace ++ [.drop 0 10, r 0, .drop 0 20, r 0, r 0, r 0, r 0, r 0, r 0, r 0]
example : ReachND demoCfg (demoND nestedDropTrace) ∧ (∀ th ∈ (demoND nestedDropTrace).threads, th.isIdle = true) ∧
    (demoND nestedDropTrace).handles = [] := ⟨demoND_reach (by decide), by decide, by decide⟩
/-- The proviso is needed: after a panic in a drop the entry stays. -/
example : let s := demo [.spawn, .new 0 ⟨5, 1, []⟩ false, r 0, r 0 10, r 0, r 0, r 0, r 0, .drop 0 10, r 0, .panic 0]
    s.handles = [] ∧ (∀ th ∈ s.threads, th.isIdle = true) ∧ numObjects s = 1 := by decide

theorem inv_table_exact {cfg : Cfg V} {s : State V} (hI : Inv cfg s) (hz : s.zombies = [])
    (hq : Quiescent s) (p : Addr) : p ∈ s.table ↔ p ∈ allHandles cfg s := by
  refine ⟨fun hp => ?_, hI.in_table⟩
  obtain ⟨q1, q2, q3, q4⟩ := quiescent_counts (cfg := cfg) hq p
  have h2 := hI.pend p
  have hZ : Z s p = 0 := by simp [Z, hz]
  have hT : 0 < T s p := List.count_pos_iff.mpr hp
  by_cases hA : A cfg s p = 0
  · rw [if_pos ⟨hT, hA⟩] at h2; omega
  · exact List.count_pos_iff.mp (by simp only [A] at hA; omega)

/-- C05 (a). When nothing is in progress the registered objects are exactly those that have a handle. -/
theorem C05_table_exact {cfg : Cfg V} (hv : cfg.Valid) {s : State V} (h : ReachND cfg s)
    (hq : Quiescent s) (p : Addr) : p ∈ s.table ↔ p ∈ allHandles cfg s :=
  inv_table_exact (reach_inv hv h.reach) h.zombies hq p

theorem inv_quiescent_size {cfg : Cfg V} {s : State V} (hI : Inv cfg s) (hz : s.zombies = [])
    (hq : Quiescent s) :
    ∃ vals : List V, vals.length = numObjects s ∧
      vals.Pairwise (fun x y => (x == y) = false) ∧
      (∀ v ∈ vals, ∃ p ∈ allHandles cfg s, deref s p = some v) ∧
      (∀ p ∈ allHandles cfg s, ∃ v ∈ vals, deref s p = some v) := by
  have hnd : s.table.Nodup := by
    rw [List.nodup_iff_count]
    intro a
    have h1 := hI.split a
    have h2 := hI.nd a
    simp only [T] at h1; omega
  refine ⟨s.table.filterMap (deref s), ?_, ?_, ?_, ?_⟩
  · have : ∀ l : List Addr, (∀ p ∈ l, p ∈ s.table) → (l.filterMap (deref s)).length = l.length := by
      intro l
      induction l with
      | nil => intro _; rfl
      | cons p l ih =>
        intro hl
        obtain ⟨x, hx⟩ := exists_get (hI.mem_keys (hl p (by simp)))
        have : deref s p = some x.data := by simp [deref, hx]
        rw [List.filterMap_cons, this]
        simp [ih (fun q hq => hl q (by simp [hq]))]
    exact this s.table (fun _ h => h)
  · rw [List.pairwise_filterMap]
    refine List.Pairwise.imp_of_mem ?_ (List.nodup_iff_pairwise_ne.mp hnd)
    intro p q hp hq hne x hx y hy
    cases hc : (x == y)
    · rfl
    · exfalso
      obtain ⟨cx, h1, rfl⟩ := deref_get hx
      obtain ⟨cy, h2, rfl⟩ := deref_get hy
      exact hne (hI.uniq p q cx cy hp hq h1 h2 hc)
  · intro v hv'
    rw [List.mem_filterMap] at hv'
    obtain ⟨p, hp, hd⟩ := hv'
    exact ⟨p, (inv_table_exact hI hz hq p).mp hp, hd⟩
  · intro p hp
    obtain ⟨v, hd⟩ := hI.deref_some hp
    exact ⟨v, List.mem_filterMap.mpr ⟨p, hI.in_table hp, hd⟩, hd⟩

/-- C05 (b). `num_objects_interned()` is the number of pairwise-unequal values that have a handle. -/
theorem C05_quiescent_size {cfg : Cfg V} (hv : cfg.Valid) {s : State V} (h : ReachND cfg s)
    (hq : Quiescent s) :
    ∃ vals : List V, vals.length = numObjects s ∧
      vals.Pairwise (fun x y => (x == y) = false) ∧
      (∀ v ∈ vals, ∃ p ∈ allHandles cfg s, deref s p = some v) ∧
      (∀ p ∈ allHandles cfg s, ∃ v ∈ vals, deref s p = some v) :=
  inv_quiescent_size (reach_inv hv h.reach) h.zombies hq

example : ReachND demoCfg (demoND nestedTrace) ∧ (∀ th ∈ (demoND nestedTrace).threads, th.isIdle = true) ∧
    numObjects (demoND nestedTrace) = 2 := ⟨nested_reach, by decide, by decide⟩

/-- Executions from a reachable state reach reachable states. -/
theorem ExecIn.reach {cfg : Cfg V} {P : State V → Prop} {s s' : State V} (h : Reach cfg s)
    (e : ExecIn cfg P s s') : Reach cfg s' := by
  induction e with
  | refl _ => exact h
  | step _ h1 h2 h3 _ ih => exact .step ih h1 h2 h3

/-- C07. While an object continuously has a handle, its value stays the very same. -/
theorem C07_value_stable {cfg : Cfg V} (hv : cfg.Valid) {s s' : State V} (h : Reach cfg s) {p : Addr}
    (e : ExecIn cfg (fun u => p ∈ allHandles cfg u) s s') :
    (deref s p).isSome = true ∧ deref s' p = deref s p := by
  have key : p ∈ allHandles cfg s ∧ p ∈ allHandles cfg s' ∧ deref s' p = deref s p := by
    induction e with
    | refl hP => exact ⟨hP, hP, rfl⟩
    | step e' h1 h2 h3 hP ih =>
      obtain ⟨i1, i2, i3⟩ := ih
      have hI := reach_inv hv (ExecIn.reach h e')
      exact ⟨i1, hP, (step_data hI h1 h2 (hI.in_table i2)).trans i3⟩
  exact ⟨(C02_handles_valid hv h key.1).1, key.2.2⟩

theorem inv_nested_exact {cfg : Cfg V} {s : State V} (hI : Inv cfg s) (hz : s.zombies = [])
    (hq : Quiescent s) (q : Addr) :
    q ∈ s.table ↔ ∃ p ∈ s.handles, Points cfg s p q := by
  have own : ∀ x, x ∈ allHandles cfg s ↔ x ∈ s.handles ∨ x ∈ storedHandles cfg s.heap := by
    intro x
    have q1 := (quiescent_counts (cfg := cfg) hq x).1
    have := List.count_eq_zero.mp q1
    simp only [allHandles, List.mem_append]
    constructor
    · rintro ((h | h) | h)
      · exact Or.inl h
      · exact absurd h this
      · exact Or.inr h
    · rintro (h | h)
      · exact Or.inl (Or.inl h)
      · exact Or.inr h
  constructor
  · intro hqt
    -- induction on the position in the heap: a holder is strictly newer
    have main : ∀ (l1 l2 : List (Addr × Cell V)), s.heap = l1 ++ l2 →
        ∀ e ∈ l1, ∃ p ∈ s.handles, Points cfg s p e.1 := by
      intro l1
      induction l1 using snocInd with
      | nil => intro l2 _ e he; simp at he
      | append_singleton l1 z ih =>
        intro l2 hh e he
        have hh' : s.heap = l1 ++ (z :: l2) := by rw [hh]; simp
        rcases List.mem_append.mp he with he | he
        · exact ih (z :: l2) hh' e he
        · simp only [List.mem_singleton] at he
          subst he
          have hin : e ∈ s.heap := by rw [hh]; simp
          have hkey : e.1 ∈ keys s.heap := List.mem_map_of_mem hin
          have hP := (quiescent_counts (cfg := cfg) hq e.1).2.1
          have hsp := hI.split e.1
          have hK : 0 < K s e.1 := List.count_pos_iff.mpr hkey
          have hT : e.1 ∈ s.table := List.count_pos_iff.mp (by simp only [T] at hsp; omega)
          have hA := (inv_table_exact hI hz hq e.1).mp hT
          rcases (own e.1).mp hA with h1 | h1
          · exact ⟨e.1, h1, .refl _⟩
          · rw [storedHandles, List.mem_flatMap] at h1
            obtain ⟨y, hy, hk⟩ := h1
            have hyl : y ∈ l1 := by
              rw [hh'] at hy
              rcases List.mem_append.mp hy with hy | hy
              · exact hy
              · exfalso
                have hord := hI.ord
                rw [hh', List.pairwise_append] at hord
                rcases List.mem_cons.mp hy with rfl | hy
                · exact hI.self y hin hk
                · exact (List.pairwise_cons.mp hord.2.1).1 y hy hk
            obtain ⟨p, hp, hpt⟩ := ih (e :: l2) hh' y hyl
            refine ⟨p, hp, .step (v := y.2.data) hpt ?_ hk⟩
            -- deref y
            have hym : y ∈ s.heap := by rw [hh']; simp [hyl]
            have : get s.heap y.1 = some y.2 := by
              have hnd := hI.nd
              exact get_of_mem_nodup hym hnd
            simp [deref, this]
    obtain ⟨x, hx⟩ := exists_get (hI.mem_keys hqt)
    exact main s.heap [] (by simp) (q, x) (mem_of_get hx)
  · rintro ⟨p, hp, hpt⟩
    have : q ∈ allHandles cfg s := by
      induction hpt with
      | refl => exact (own _).mpr (Or.inl hp)
      | step _ hd hk ih =>
        obtain ⟨x, hx, rfl⟩ := deref_get hd
        exact List.count_pos_iff.mp (stored_A hx hk)
    exact hI.in_table this

/-- C16 (a). Precise reclamation of nested values: when nothing is in progress, an object is registered
exactly when it can be reached from a handle held by a client, through handles stored in values. -/
theorem C16_nested_exact {cfg : Cfg V} (hv : cfg.Valid) {s : State V} (h : ReachND cfg s)
    (hq : Quiescent s) (q : Addr) :
    q ∈ s.table ↔ ∃ p ∈ s.handles, Points cfg s p q :=
  inv_nested_exact (reach_inv hv h.reach) h.zombies hq q

example : ReachND demoCfg (demoND (nestedTrace ++ [.drop 0 10, r 0])) ∧
    (∀ th ∈ (demoND (nestedTrace ++ [.drop 0 10, r 0])).threads, th.isIdle = true) ∧
    (demoND (nestedTrace ++ [.drop 0 10, r 0])).handles = [20] ∧
    (demoND (nestedTrace ++ [.drop 0 10, r 0])).table = [20, 10] :=
  ⟨demoND_reach (by decide), by decide, by decide, by decide⟩

end Arc
