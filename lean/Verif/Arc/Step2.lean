import Verif.Arc.Step
/-! Preservation of the invariant: allocation, insertion, removal, abandoned removal, thread creation. -/
namespace Arc
variable {V : Type} [BEq V] [Hashable V]

theorem Inv.lock_none {cfg : Cfg V} {s : State V} (hI : Inv cfg s) {t : Tid} {th : Thread V}
    (ht : s.threads[t]? = some th) (h : th.pc.holds = none) (i : Nat) : s.locks i ≠ some t := by
  intro hi
  obtain ⟨th2, h1, h2⟩ := (hI.lk i t).mp hi
  rw [ht] at h1; cases h1
  rw [h] at h2; cases h2

theorem Inv.lock_some {cfg : Cfg V} {s : State V} (hI : Inv cfg s) {t : Tid} {th : Thread V}
    (ht : s.threads[t]? = some th) {i : Nat} (h : th.pc.holds = some i) (j : Nat) :
    s.locks j = some t ↔ j = i := by
  constructor
  · intro hi
    obtain ⟨th2, h1, h2⟩ := (hI.lk j t).mp hi
    rw [ht] at h1; cases h1
    rw [h] at h2; cases h2; rfl
  · rintro rfl
    exact (hI.lk j t).mpr ⟨th, ht, h⟩

/-- Locks unchanged, thread holds the same lock as before. -/
theorem Inv.locks_same {cfg : Cfg V} {s : State V} (hI : Inv cfg s) {t : Tid} {th th' : Thread V}
    (ht : s.threads[t]? = some th) (h : th'.pc.holds = th.pc.holds) (i : Nat) (u : Tid) :
    s.locks i = some u ↔ if u = t then th'.pc.holds = some i else s.locks i = some u := by
  by_cases hut : u = t
  · subst hut
    rw [if_pos rfl, h]
    constructor
    · intro hi
      obtain ⟨th2, h1, h2⟩ := (hI.lk i u).mp hi
      rw [ht] at h1; cases h1; exact h2
    · intro hi; exact (hI.lk i u).mpr ⟨th, ht, hi⟩
  · simp [hut]

/-- Acquiring a free lock. -/
theorem Inv.locks_acquire {cfg : Cfg V} {s : State V} (hI : Inv cfg s) {t : Tid} {th th' : Thread V}
    (ht : s.threads[t]? = some th) (h : th.pc.holds = none) {sh : Nat} (hf : s.locks sh = none)
    (h' : th'.pc.holds = some sh) (i : Nat) (u : Tid) :
    (s.lock sh t).locks i = some u ↔ if u = t then th'.pc.holds = some i else s.locks i = some u := by
  have := hI.lock_none ht h i
  simp only [State.lock, h']
  by_cases hi : i = sh
  · subst hi
    simp only [if_true, hf]
    by_cases hut : u = t
    · subst hut; simp
    · simp [hut, Ne.symm hut]
  · simp only [if_neg hi]
    by_cases hut : u = t
    · subst hut; simp only [if_true]
      constructor
      · intro h1; exact absurd h1 this
      · intro h1; cases h1; exact absurd rfl hi
    · simp [hut]

/-- Releasing the held lock. -/
theorem Inv.locks_release {cfg : Cfg V} {s : State V} (hI : Inv cfg s) {t : Tid} {th th' : Thread V}
    (ht : s.threads[t]? = some th) {sh : Nat} (h : th.pc.holds = some sh)
    (h' : th'.pc.holds = none) (i : Nat) (u : Tid) :
    (s.unlock sh).locks i = some u ↔ if u = t then th'.pc.holds = some i else s.locks i = some u := by
  have h1 := hI.lock_some ht h i
  have h2 := hI.lock_some ht h sh
  simp only [State.unlock, h']
  by_cases hi : i = sh
  · subst hi
    by_cases hut : u = t
    · subst hut; simp
    · have : s.locks i = some t := h2.mpr rfl
      simp [hut, this, Ne.symm hut]
  · simp only [if_neg hi]
    by_cases hut : u = t
    · subst hut; simp [h1, hi]
    · simp [hut]

/-- Allocation (arc.rs:244). -/
theorem inv_alloc [LawfulHashable V] {cfg : Cfg V} {s : State V} {t : Tid} {th : Thread V} (hI : Inv cfg s)
    (ht : s.threads[t]? = some th) {c : Call V} (hpc : th.pc = .newAlloc c) {a : Addr} (ha : a ≠ 0)
    (hk : a ∉ keys s.heap) :
    Inv cfg ({ s with heap := (a, { count := 1, data := c.val }) :: s.heap }.setThread t
      { th with pc := .newEntry c a }) := by
  have hth := hI.th t th ht
  have hpi := hth.pc
  rw [hpc] at hpi
  obtain ⟨hcall, hconv⟩ := hpi
  have hKa : K s a = 0 := List.count_eq_zero.mpr hk
  have hTa : T s a = 0 := by have := hI.split a; omega
  have hAa : A cfg s a = 0 := by have := hI.live a; omega
  have hta : a ∉ s.table := List.count_eq_zero.mp hTa
  generalize hs' : ({ s with heap := (a, { count := 1, data := c.val }) :: s.heap }.setThread t
      { th with pc := .newEntry c a } : State V) = s'
  have hh : s'.heap = (a, { count := 1, data := c.val }) :: s.heap := by rw [← hs']; rfl
  have htb : s'.table = s.table := by rw [← hs']; rfl
  have hz : s'.zombies = s.zombies := by rw [← hs']; rfl
  have hha : s'.handles = s.handles := by rw [← hs']; rfl
  have hlk : s'.locks = s.locks := by rw [← hs']; rfl
  have hs : s'.threads = s.threads.set t { th with pc := .newEntry c a } := by rw [← hs']; rfl
  have eA : ∀ p, A cfg s' p = A cfg s p := by
    intro p
    have h1 := owned_set cfg s.threads { th with pc := .newEntry c a } ht p
    rw [A_eq, A_eq, hh, hs, hha]
    simp only [Thread.owned, Pc.owned, hpc, List.count_append, storedHandles, List.flatMap_cons,
      List.count_nil] at h1 ⊢
    omega
  have eP : ∀ p, P s' p = P s p + [a].count p := by
    intro p
    have h1 := priv_set s.threads { th with pc := .newEntry c a } ht p
    simp only [P, hs]
    simp only [Pc.priv, hpc, List.count_nil] at h1 ⊢; omega
  have eU : ∀ p, U s' p = U s p := by
    intro p
    have h1 := undoing_set s.threads { th with pc := .newEntry c a } ht p
    simp only [U, hs]
    simp only [Pc.undoing, hpc, List.count_nil] at h1 ⊢; omega
  have eR : ∀ p, R s' p = R s p := by
    intro p
    have h1 := removing_set s.threads { th with pc := .newEntry c a } ht p
    simp only [R, hs]
    simp only [Pc.removing, hpc, List.count_nil] at h1 ⊢; omega
  have eT : ∀ p, T s' p = T s p := fun p => by simp only [T, htb]
  have eK : ∀ p, K s' p = K s p + [a].count p := fun p => by
    simp only [K, hh, keys, List.map_cons, List.count_cons, List.count_nil]; omega
  have eZ : ∀ p, Z s' p = Z s p := fun p => by simp only [Z, hz]
  have live' : ∀ p, 0 < A cfg s' p → 0 < T s' p := by
    intro p; rw [eA, eT]; exact hI.live p
  have g : ∀ r, r ≠ a → get s'.heap r = get s.heap r := by
    intro r hr; rw [hh]; simp [get, Ne.symm hr]
  have ga : get s'.heap a = some { count := 1, data := c.val } := by rw [hh]; simp [get]
  have hne : ∀ r, r ∈ s.table → r ≠ a := fun r hr h => hta (h ▸ hr)
  refine ⟨?_, ?_, ?_, live', ?_, ?_, ?_, ?_, ?_, ?_, ?_, ?_, ?_⟩
  · intro r; rw [eK]
    by_cases hr : r = a
    · subst hr; simp [hKa]
    · have := hI.nd r; simp [Ne.symm hr]; omega
  · intro r; rw [eK, eT, eP]; have := hI.split r; omega
  · rw [htb]; intro p q y z hp hq hy hz'
    rw [g p (hne p hp)] at hy
    rw [g q (hne q hq)] at hz'
    exact hI.uniq p q y z hp hq hy hz'
  · intro r y; rw [eT, eA, eU]; intro h1
    rw [g r (hne r (List.count_pos_iff.mp h1))]
    exact hI.cnt r y h1
  · intro r; rw [eR, eZ, eT, eA]; exact hI.pend r
  · intro r; rw [eU, eT, eA]; exact hI.undo r
  · refine lk_set hI.lk ht hs ?_
    rw [hlk]
    exact hI.locks_same ht (by simp [Pc.holds, hpc])
  · refine th_set hI ht hs live' (fun u thu hut hu => ⟨?_, ?_, ?_, ?_⟩) ⟨?_, ?_, ?_⟩
    · intro p hpp
      refine g p ?_
      rintro rfl
      have h1 := mem_priv_P hu hpp
      have h2 := hI.split p
      omega
    · intro p y hpt hy; rw [g p (hne p hpt)]; exact ⟨y, hy, rfl⟩
    · intro p y hpt hy
      rw [htb] at hpt
      rw [g p (hne p hpt)] at hy; exact ⟨y, hy, rfl⟩
    · intros; rw [htb]
    · refine ⟨callOk_frame ?_ hcall, hconv, ga⟩
      intro b hb; rw [hconv] at hb; cases hb
    · intro _; exact hth.empty (by simp [hpc, Pc.dropping])
    · intro b hb
      have := (hth.empty (by simp [hpc, Pc.dropping])).2
      rw [this] at hb; cases hb
  · rw [hh, List.pairwise_cons]
    refine ⟨?_, hI.ord⟩
    intro e he hka
    have : 0 < (storedHandles cfg s.heap).count a :=
      List.count_pos_iff.mpr (List.mem_flatMap.mpr ⟨e, he, hka⟩)
    have := A_eq cfg s a
    omega
  · rw [hh]; intro e he
    rcases List.mem_cons.mp he with rfl | he
    · intro hka
      have : 0 < A cfg s a := mem_owned_A ht (by simp [Thread.owned, hpc, Pc.owned]; exact Or.inl hka)
      omega
    · exact hI.self e he
  · rw [eK]; have := hI.null; simp [ha, this]
  · intro p; have := hI.small p; have := eA p; simp only [A] at *; omega

/-- Insertion into the table (arc.rs:254). -/
theorem inv_insert [LawfulHashable V] [EquivBEq V] {cfg : Cfg V} {s : State V} {t : Tid} {th : Thread V} (hI : Inv cfg s)
    (ht : s.threads[t]? = some th) {c : Call V} {sh : Nat} {b : Addr} (hpc : th.pc = .newVacant c sh b)
    (hS : Small cfg ({ s with table := b :: s.table }.setThread t { th with pc := .newInserted c sh b })) :
    Inv cfg ({ s with table := b :: s.table }.setThread t { th with pc := .newInserted c sh b }) := by
  have hth := hI.th t th ht
  have hpi := hth.pc
  rw [hpc] at hpi
  obtain ⟨hcall, hconv, hgb, hsh, hvac⟩ := hpi
  have hPb : 0 < P s b := mem_priv_P ht (by simp [hpc, Pc.priv])
  have hTb : T s b = 0 := by have := hI.split b; have := hI.nd b; omega
  have hAb : A cfg s b = 0 := by have := hI.live b; omega
  have hUb : U s b = 0 := by have := hI.undo b; omega
  have hRZ : R s b + Z s b = 0 := by have := hI.pend b; simp [hTb] at this; omega
  have htb' : b ∉ s.table := List.count_eq_zero.mp hTb
  generalize hs' : ({ s with table := b :: s.table }.setThread t
      { th with pc := .newInserted c sh b } : State V) = s' at hS ⊢
  have hh : s'.heap = s.heap := by rw [← hs']; rfl
  have htb : s'.table = b :: s.table := by rw [← hs']; rfl
  have hz : s'.zombies = s.zombies := by rw [← hs']; rfl
  have hha : s'.handles = s.handles := by rw [← hs']; rfl
  have hlk : s'.locks = s.locks := by rw [← hs']; rfl
  have hs : s'.threads = s.threads.set t { th with pc := .newInserted c sh b } := by rw [← hs']; rfl
  have eA : ∀ p, A cfg s' p = A cfg s p + [b].count p := by
    intro p
    have h1 := owned_set cfg s.threads { th with pc := .newInserted c sh b } ht p
    rw [A_eq, A_eq, hh, hs, hha]
    simp only [Thread.owned, Pc.owned, hpc, List.count_append, List.count_nil] at h1 ⊢
    omega
  have eP : ∀ p, P s' p + [b].count p = P s p := by
    intro p
    have h1 := priv_set s.threads { th with pc := .newInserted c sh b } ht p
    simp only [P, hs]
    simp only [Pc.priv, hpc, List.count_nil] at h1 ⊢; omega
  have eU : ∀ p, U s' p = U s p := by
    intro p
    have h1 := undoing_set s.threads { th with pc := .newInserted c sh b } ht p
    simp only [U, hs]
    simp only [Pc.undoing, hpc, List.count_nil] at h1 ⊢; omega
  have eR : ∀ p, R s' p = R s p := by
    intro p
    have h1 := removing_set s.threads { th with pc := .newInserted c sh b } ht p
    simp only [R, hs]
    simp only [Pc.removing, hpc, List.count_nil] at h1 ⊢; omega
  have eT : ∀ p, T s' p = T s p + [b].count p := fun p => by
    simp only [T, htb, List.count_cons, List.count_nil]; omega
  have eK : ∀ p, K s' p = K s p := fun p => by simp only [K, hh]
  have eZ : ∀ p, Z s' p = Z s p := fun p => by simp only [Z, hz]
  have live' : ∀ p, 0 < A cfg s' p → 0 < T s' p := by
    intro p; rw [eA, eT]; have := hI.live p; omega
  have one : [b].count b = 1 := by simp
  have zero : ∀ p, p ≠ b → [b].count p = 0 := fun p hp => by simp [Ne.symm hp]
  refine ⟨?_, ?_, ?_, live', ?_, ?_, ?_, ?_, ?_, ?_, ?_, ?_, hS⟩
  · intro r; rw [eK]; exact hI.nd r
  · intro r; rw [eK, eT]; have := hI.split r; have := eP r; omega
  · rw [htb, hh]; intro p q y z hp hq hy hz' hyz
    rcases List.mem_cons.mp hp with hp | hp <;> rcases List.mem_cons.mp hq with hq | hq
    · rw [hp, hq]
    · rw [hp, hgb] at hy; cases hy
      have h1 := hvac q z hq hz'
      rw [BEq.symm hyz] at h1; cases h1
    · rw [hq, hgb] at hz'; cases hz'
      have h1 := hvac p y hp hy
      rw [hyz] at h1; cases h1
    · exact hI.uniq p q y z hp hq hy hz' hyz
  · intro r y; rw [eT, eA, eU, hh]; intro h1 h2
    by_cases hr : r = b
    · subst hr; rw [hgb] at h2; cases h2; simp [hAb, hUb]
    · rw [zero r hr] at h1 ⊢; exact hI.cnt r y h1 h2
  · intro r; rw [eR, eZ, eT, eA]
    by_cases hr : r = b
    · subst hr; rw [hRZ]; simp
    · rw [zero r hr]; exact hI.pend r
  · intro r; rw [eU, eT, eA]
    by_cases hr : r = b
    · subst hr; omega
    · rw [zero r hr]; exact hI.undo r
  · refine lk_set hI.lk ht hs ?_
    rw [hlk]
    exact hI.locks_same ht (by simp [Pc.holds, hpc])
  · refine th_set hI ht hs live' (fun u thu hut hu => ⟨?_, ?_, ?_, ?_⟩) ⟨?_, ?_, ?_⟩
    · intro p hpp; rw [hh]
    · intro p y hpt hy; rw [hh]; exact ⟨y, hy, rfl⟩
    · intro p y hpt hy; rw [hh] at hy; exact ⟨y, hy, rfl⟩
    · intro sh' hsh' p y hy hyy
      rw [htb]
      have : p ≠ b := by
        rintro rfl
        rw [hgb] at hy; cases hy
        have h1 : s.locks sh' = some u := (hI.lk sh' u).mpr ⟨thu, hu, hsh'⟩
        have h2 : s.locks sh = some t := (hI.lk sh t).mpr ⟨th, ht, by simp [hpc, Pc.holds]⟩
        rw [hsh] at h2
        rw [← hyy, h2] at h1
        cases h1; exact hut rfl
      simp [this]
    · refine ⟨callOk_frame ?_ hcall, hconv, hsh, ?_⟩
      · intro b hb; rw [hconv] at hb; cases hb
      · exact ⟨by rw [htb]; simp, _, by rw [hh]; exact hgb, by simp⟩
    · intro _; exact hth.empty (by simp [hpc, Pc.dropping])
    · intro b hb
      have := (hth.empty (by simp [hpc, Pc.dropping])).2
      rw [this] at hb; cases hb
  · rw [hh]; exact hI.ord
  · rw [hh]; exact hI.self
  · rw [eK]; exact hI.null

/-- Removal from the table (arc.rs:322). -/
theorem inv_erase [LawfulHashable V] {cfg : Cfg V} {s : State V} {t : Tid} {th : Thread V} (hI : Inv cfg s)
    (ht : s.threads[t]? = some th) {b : Addr} {x : Cell V} (hpc : th.pc = .dropRemove b)
    (hx : get s.heap b = some x) (hfree : s.locks (cfg.shardOf x.data) = none) :
    Inv cfg ({ s with table := s.table.erase b }.setThread t { th with pc := .dropFree b }) := by
  have hth := hI.th t th ht
  have hRb : 0 < R s b := (count_flatMap_pos _ b s.threads).mpr ⟨t, th, ht, by simp [hpc, Pc.removing]⟩
  have hpend := hI.pend b
  have hTA : 0 < T s b ∧ A cfg s b = 0 := by
    by_cases h : 0 < T s b ∧ A cfg s b = 0
    · exact h
    · rw [if_neg h] at hpend; omega
  have hRZ : R s b + Z s b = 1 := by rw [if_pos hTA] at hpend; exact hpend
  have hmem : b ∈ s.table := List.count_pos_iff.mp hTA.1
  have hT1 : T s b = 1 := by have := hI.split b; have := hI.nd b; omega
  have hUb : U s b = 0 := by
    rcases Nat.eq_zero_or_pos (U s b) with h | h
    · exact h
    · obtain ⟨u, thu, hu, hb⟩ := (count_flatMap_pos _ b s.threads).mp h
      have hi := (hI.th u thu hu).pc
      cases hpu : thu.pc <;> simp [hpu, Pc.undoing] at hb
      rename_i c sh r
      subst hb
      rw [hpu] at hi
      obtain ⟨_, h2, h3, y, h4, h5⟩ := hi
      rw [hx] at h4; cases h4
      have : s.locks sh = some u := (hI.lk sh u).mpr ⟨thu, hu, by simp [hpu, Pc.holds]⟩
      rw [h2, ← shardOf_congr h5, hfree] at this; cases this
  generalize hs' : ({ s with table := s.table.erase b }.setThread t { th with pc := .dropFree b } : State V) = s'
  have hh : s'.heap = s.heap := by rw [← hs']; rfl
  have htb : s'.table = s.table.erase b := by rw [← hs']; rfl
  have hz : s'.zombies = s.zombies := by rw [← hs']; rfl
  have hha : s'.handles = s.handles := by rw [← hs']; rfl
  have hlk : s'.locks = s.locks := by rw [← hs']; rfl
  have hs : s'.threads = s.threads.set t { th with pc := .dropFree b } := by rw [← hs']; rfl
  have eA : ∀ p, A cfg s' p = A cfg s p := by
    intro p
    have h1 := owned_set cfg s.threads { th with pc := .dropFree b } ht p
    rw [A_eq, A_eq, hh, hs, hha]
    simp only [Thread.owned, Pc.owned, hpc, List.count_append, List.count_nil] at h1 ⊢
    omega
  have eP : ∀ p, P s' p = P s p + [b].count p := by
    intro p
    have h1 := priv_set s.threads { th with pc := .dropFree b } ht p
    simp only [P, hs]
    simp only [Pc.priv, hpc, List.count_nil] at h1 ⊢; omega
  have eU : ∀ p, U s' p = U s p := by
    intro p
    have h1 := undoing_set s.threads { th with pc := .dropFree b } ht p
    simp only [U, hs]
    simp only [Pc.undoing, hpc, List.count_nil] at h1 ⊢; omega
  have eR : ∀ p, R s' p + [b].count p = R s p := by
    intro p
    have h1 := removing_set s.threads { th with pc := .dropFree b } ht p
    simp only [R, hs]
    simp only [Pc.removing, hpc, List.count_nil] at h1 ⊢; omega
  have one : [b].count b = 1 := by simp
  have zero : ∀ p, p ≠ b → [b].count p = 0 := fun p hp => by simp [Ne.symm hp]
  have eT : ∀ p, T s' p = T s p - [b].count p := fun p => by
    simp only [T, htb, count_erase']
    by_cases hp : p = b
    · subst hp; simp
    · rw [zero p hp, if_neg (Ne.symm hp)]
  have eK : ∀ p, K s' p = K s p := fun p => by simp only [K, hh]
  have eZ : ∀ p, Z s' p = Z s p := fun p => by simp only [Z, hz]
  have live' : ∀ p, 0 < A cfg s' p → 0 < T s' p := by
    intro p; rw [eA, eT]
    by_cases hp : p = b
    · subst hp; omega
    · rw [zero p hp]; exact hI.live p
  have sub : ∀ r, r ∈ s'.table → r ∈ s.table := by
    intro r hr; rw [htb] at hr; exact List.mem_of_mem_erase hr
  refine ⟨?_, ?_, ?_, live', ?_, ?_, ?_, ?_, ?_, ?_, ?_, ?_, ?_⟩
  · intro r; rw [eK]; exact hI.nd r
  · intro r; rw [eK, eT, eP]; have := hI.split r
    by_cases hp : r = b
    · subst hp; omega
    · rw [zero r hp]; omega
  · rw [hh]; intro p q y z hp hq; exact hI.uniq p q y z (sub p hp) (sub q hq)
  · intro r y; rw [eT, eA, eU, hh]; intro h1; exact hI.cnt r y (by omega)
  · intro r; rw [eZ, eT, eA]
    have h1 := eR r
    have h2 := hI.pend r
    by_cases hp : r = b
    · subst hp
      rw [hT1, one, if_neg (by omega)]
      rw [one] at h1; omega
    · rw [zero r hp] at h1 ⊢; rw [Nat.sub_zero]; omega
  · intro r; rw [eU, eT, eA]
    by_cases hp : r = b
    · subst hp; omega
    · rw [zero r hp]; exact hI.undo r
  · refine lk_set hI.lk ht hs ?_
    rw [hlk]
    exact hI.locks_same ht (by simp [Pc.holds, hpc])
  · refine th_set hI ht hs live' (fun u thu hut hu => ⟨?_, ?_, ?_, ?_⟩) ⟨?_, ?_, ?_⟩
    · intro p hpp; rw [hh]
    · intro p y hpt hy; rw [hh]; exact ⟨y, hy, rfl⟩
    · intro p y hpt hy; rw [hh] at hy; exact ⟨y, hy, rfl⟩
    · intro sh' hsh' p y hy hyy
      rw [htb]
      have : p ≠ b := by
        rintro rfl
        rw [hx] at hy; cases hy
        have h1 : s.locks sh' = some u := (hI.lk sh' u).mpr ⟨thu, hu, hsh'⟩
        rw [← hyy, hfree] at h1; cases h1
      rw [List.mem_erase_of_ne this]
    · exact True.intro
    · intro h; simp [Pc.dropping] at h
    · intro r hr
      obtain ⟨v, hv, hm⟩ := hth.ret r hr
      refine ⟨v, hv, matches_frame (s := s) ?_ ?_ hm⟩
      · intro p y hpt hy; rw [hh]; exact ⟨y, hy, rfl⟩
      · have h1 : 0 < A cfg s r := mem_owned_A ht (by simp [Thread.owned]; exact Or.inr (Or.inr hr))
        have := live' r (by rw [eA]; exact h1)
        exact List.count_pos_iff.mp this
  · rw [hh]; exact hI.ord
  · rw [hh]; exact hI.self
  · rw [eK]; exact hI.null
  · intro p; have := hI.small p; have := eA p; simp only [A] at *; omega

/-- A removal abandoned by a panic (arc.rs:322). -/
theorem inv_zombie [LawfulHashable V] {cfg : Cfg V} {s : State V} {t : Tid} {th : Thread V} (hI : Inv cfg s)
    (ht : s.threads[t]? = some th) {b : Addr} (hpc : th.pc = .dropRemove b) :
    Inv cfg { s.setThread t { th with pc := .idle } with zombies := b :: s.zombies } := by
  have hth := hI.th t th ht
  generalize hs' : ({ s.setThread t { th with pc := .idle } with zombies := b :: s.zombies } : State V) = s'
  have hh : s'.heap = s.heap := by rw [← hs']; rfl
  have htb : s'.table = s.table := by rw [← hs']; rfl
  have hz : s'.zombies = b :: s.zombies := by rw [← hs']
  have hha : s'.handles = s.handles := by rw [← hs']; rfl
  have hlk : s'.locks = s.locks := by rw [← hs']; rfl
  have hs : s'.threads = s.threads.set t { th with pc := .idle } := by rw [← hs']; rfl
  have eA : ∀ p, A cfg s' p = A cfg s p := by
    intro p
    have h1 := owned_set cfg s.threads { th with pc := .idle } ht p
    rw [A_eq, A_eq, hh, hs, hha]
    simp only [Thread.owned, Pc.owned, hpc, List.count_append, List.count_nil] at h1 ⊢
    omega
  have eP : ∀ p, P s' p = P s p := by
    intro p
    have h1 := priv_set s.threads { th with pc := .idle } ht p
    simp only [P, hs]
    simp only [Pc.priv, hpc, List.count_nil] at h1 ⊢; omega
  have eU : ∀ p, U s' p = U s p := by
    intro p
    have h1 := undoing_set s.threads { th with pc := .idle } ht p
    simp only [U, hs]
    simp only [Pc.undoing, hpc, List.count_nil] at h1 ⊢; omega
  have eR : ∀ p, R s' p + [b].count p = R s p := by
    intro p
    have h1 := removing_set s.threads { th with pc := .idle } ht p
    simp only [R, hs]
    simp only [Pc.removing, hpc, List.count_nil] at h1 ⊢; omega
  have eT : ∀ p, T s' p = T s p := fun p => by simp only [T, htb]
  have eK : ∀ p, K s' p = K s p := fun p => by simp only [K, hh]
  have eZ : ∀ p, Z s' p = Z s p + [b].count p := fun p => by
    simp only [Z, hz, List.count_cons, List.count_nil]; omega
  have live' : ∀ p, 0 < A cfg s' p → 0 < T s' p := by
    intro p; rw [eA, eT]; exact hI.live p
  refine ⟨?_, ?_, ?_, live', ?_, ?_, ?_, ?_, ?_, ?_, ?_, ?_, ?_⟩
  · intro r; rw [eK]; exact hI.nd r
  · intro r; rw [eK, eT, eP]; exact hI.split r
  · rw [hh, htb]; exact hI.uniq
  · intro r y; rw [eT, eA, eU, hh]; exact hI.cnt r y
  · intro r; have h1 := eR r; have h2 := hI.pend r; rw [eZ, eT, eA]; omega
  · intro r; rw [eU, eT, eA]; exact hI.undo r
  · refine lk_set hI.lk ht hs ?_
    rw [hlk]
    exact hI.locks_same ht (by simp [Pc.holds, hpc])
  · refine th_set hI ht hs live' (fun u thu hut hu => ⟨?_, ?_, ?_, ?_⟩) ⟨?_, ?_, ?_⟩
    · intro p hpp; rw [hh]
    · intro p y hpt hy; rw [hh]; exact ⟨y, hy, rfl⟩
    · intro p y hpt hy; rw [hh] at hy; exact ⟨y, hy, rfl⟩
    · intros; rw [htb]
    · exact True.intro
    · intro h; simp [Pc.dropping] at h
    · intro r hr
      obtain ⟨v, hv, h1, y, h2, h3⟩ := hth.ret r hr
      exact ⟨v, hv, by rw [htb]; exact h1, y, by rw [hh]; exact h2, h3⟩
  · rw [hh]; exact hI.ord
  · rw [hh]; exact hI.self
  · rw [eK]; exact hI.null
  · intro p; have := hI.small p; have := eA p; simp only [A] at *; omega

/-- A new thread. -/
theorem inv_spawn {cfg : Cfg V} {s : State V} (hI : Inv cfg s) :
    Inv cfg { s with threads := s.threads ++ [{}] } := by
  have eA : ∀ p, A cfg { s with threads := s.threads ++ [{}] } p = A cfg s p := by
    intro p; simp [A, allHandles, Thread.owned, Pc.owned]
  have key : ∀ (t : Tid) (th : Thread V), (s.threads ++ [({} : Thread V)])[t]? = some th →
      s.threads[t]? = some th ∨ th = {} := by
    intro t th h
    rw [List.getElem?_append] at h
    split at h
    · exact Or.inl h
    · right
      cases hn : t - s.threads.length with
      | zero => simp [hn] at h; exact h.symm
      | succ n => simp [hn] at h
  constructor
  · exact hI.nd
  · intro b; have := hI.split b; simpa [P, Pc.priv] using this
  · exact hI.uniq
  · intro p; rw [eA]; exact hI.live p
  · intro b x h1 h2; rw [eA]; have := hI.cnt b x h1 h2; simpa [U, Pc.undoing] using this
  · intro b; rw [eA]; have := hI.pend b; simpa [R, Pc.removing] using this
  · intro b; rw [eA]; have := hI.undo b; simpa [U, Pc.undoing] using this
  · intro i t
    have := hI.lk i t
    rw [show ({ s with threads := s.threads ++ [{}] } : State V).locks = s.locks from rfl, this]
    constructor
    · rintro ⟨th, h1, h2⟩
      refine ⟨th, ?_, h2⟩
      have : t < s.threads.length := by
        rcases Nat.lt_or_ge t s.threads.length with h' | h'
        · exact h'
        · simp [List.getElem?_eq_none h'] at h1
      rw [List.getElem?_append_left this]; exact h1
    · rintro ⟨th, h1, h2⟩
      rcases key t th h1 with h | h
      · exact ⟨th, h, h2⟩
      · subst h; simp [Pc.holds] at h2
  · intro t th h
    rcases key t th h with h | h
    · have h0 := hI.th t th h
      refine ⟨?_, h0.empty, h0.ret⟩
      have := h0.pc
      cases hpc : th.pc <;> rw [hpc] at this <;> exact this
    · subst h
      exact ⟨True.intro, fun _ => ⟨rfl, rfl⟩, fun b hb => by cases hb⟩
  · exact hI.ord
  · exact hI.self
  · exact hI.null
  · intro p; have := hI.small p; have := eA p; simp only [A] at *; omega

end Arc
