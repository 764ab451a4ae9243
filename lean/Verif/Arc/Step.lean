import Verif.Arc.Inv
/-! Preservation of the invariant, grouped by the kind of effect a step has. -/
namespace Arc
variable {V : Type} [BEq V] [Hashable V]

theorem th_set [LawfulHashable V] {cfg : Cfg V} {s s' : State V} {t : Tid} {th th' : Thread V} (hI : Inv cfg s)
    (ht : s.threads[t]? = some th) (hs : s'.threads = s.threads.set t th')
    (live' : ∀ p, 0 < A cfg s' p → 0 < T s' p)
    (F : ∀ (u : Tid) (thu : Thread V), u ≠ t → s.threads[u]? = some thu → Frame cfg s s' thu.pc)
    (h : ThInv cfg s' th') :
    ∀ (u : Tid) (thu : Thread V), s'.threads[u]? = some thu → ThInv cfg s' thu := by
  intro u thu hu
  have hu' := hu
  rw [hs, set_getElem? _ _ _ _ _ ht] at hu
  by_cases hut : u = t
  · rw [if_pos hut] at hu; cases hu; exact h
  · rw [if_neg hut] at hu
    have h0 := hI.th u thu hu
    have hF := F u thu hut hu
    refine ⟨PcInv_frame hF h0.pc, h0.empty, fun b hb => ?_⟩
    obtain ⟨v, hv, hm⟩ := h0.ret b hb
    refine ⟨v, hv, matches_frame hF.data ?_ hm⟩
    have : 0 < A cfg s' b := mem_owned_A hu' (by simp [Thread.owned, hb])
    exact List.count_pos_iff.mp (live' b this)

omit [BEq V] [Hashable V] in
theorem lk_set {s s' : State V} {t : Tid} {th th' : Thread V}
    (lk : ∀ (i : Nat) (t : Tid), s.locks i = some t ↔ ∃ th, s.threads[t]? = some th ∧ th.pc.holds = some i)
    (ht : s.threads[t]? = some th) (hs : s'.threads = s.threads.set t th')
    (hl : ∀ (i : Nat) (u : Tid), s'.locks i = some u ↔ if u = t then th'.pc.holds = some i else s.locks i = some u) :
    ∀ (i : Nat) (u : Tid), s'.locks i = some u ↔ ∃ th, s'.threads[u]? = some th ∧ th.pc.holds = some i := by
  intro i u
  rw [hl, hs, set_getElem? _ _ _ _ _ ht]
  by_cases hut : u = t
  · simp [hut]
  · simp only [if_neg hut]; exact lk i u

/-- A step that changes only thread-local state, locks and client handles. -/
theorem inv_thread [LawfulHashable V] {cfg : Cfg V} {s s' : State V} {t : Tid} {th th' : Thread V} (hI : Inv cfg s)
    (ht : s.threads[t]? = some th) (hh : s'.heap = s.heap) (htb : s'.table = s.table)
    (hz : s'.zombies = s.zombies) (hs : s'.threads = s.threads.set t th')
    (hA : ∀ p, s'.handles.count p + (th'.owned cfg).count p = s.handles.count p + (th.owned cfg).count p)
    (hP : ∀ p, th'.pc.priv.count p = th.pc.priv.count p)
    (hU : th'.pc.undoing = th.pc.undoing) (hR : th'.pc.removing = th.pc.removing)
    (hl : ∀ (i : Nat) (u : Tid), s'.locks i = some u ↔ if u = t then th'.pc.holds = some i else s.locks i = some u)
    (hT : ThInv cfg s' th') : Inv cfg s' := by
  have eA : ∀ p, A cfg s' p = A cfg s p := by
    intro p
    have h1 := owned_set cfg s.threads th' ht p
    have h2 := hA p
    rw [A_eq, A_eq, hh, hs]; omega
  have eP : ∀ p, P s' p = P s p := by
    intro p
    have h1 := priv_set s.threads th' ht p
    have h2 := hP p
    simp only [P, hs]; omega
  have eU : ∀ p, U s' p = U s p := by
    intro p
    have h1 := undoing_set s.threads th' ht p
    rw [hU] at h1
    simp only [U, hs]; omega
  have eR : ∀ p, R s' p = R s p := by
    intro p
    have h1 := removing_set s.threads th' ht p
    rw [hR] at h1
    simp only [R, hs]; omega
  have eT : ∀ p, T s' p = T s p := fun p => by simp only [T, htb]
  have eK : ∀ p, K s' p = K s p := fun p => by simp only [K, hh]
  have eZ : ∀ p, Z s' p = Z s p := fun p => by simp only [Z, hz]
  have live' : ∀ p, 0 < A cfg s' p → 0 < T s' p := by
    intro p; rw [eA, eT]; exact hI.live p
  refine ⟨?_, ?_, ?_, live', ?_, ?_, ?_, lk_set hI.lk ht hs hl, ?_, ?_, ?_, ?_, ?_⟩
  · intro b; rw [eK]; exact hI.nd b
  · intro b; rw [eK, eT, eP]; exact hI.split b
  · rw [hh, htb]; exact hI.uniq
  · intro b x; rw [eT, eA, eU, hh]; exact hI.cnt b x
  · intro b; rw [eR, eZ, eT, eA]; exact hI.pend b
  · intro b; rw [eU, eT, eA]; exact hI.undo b
  · refine th_set hI ht hs live' (fun u thu _ _ => ⟨?_, ?_, ?_, ?_⟩) hT
    · intros; rw [hh]
    · intro b x _ hx; rw [hh]; exact ⟨x, hx, rfl⟩
    · intro b x _ hx; rw [hh] at hx; exact ⟨x, hx, rfl⟩
    · intros; rw [htb]
  · rw [hh]; exact hI.ord
  · rw [hh]; exact hI.self
  · rw [eK]; exact hI.null
  · intro p; have := hI.small p; have := eA p; simp only [A] at *; omega

/-- A step that changes the counter of a registered box. -/
theorem inv_count [LawfulHashable V] {cfg : Cfg V} {s s' : State V} {t : Tid} {th th' : Thread V} (hI : Inv cfg s)
    (ht : s.threads[t]? = some th) {b : Addr} {n : Nat} (hb : b ∈ s.table)
    (hh : s'.heap = setCount s.heap b n) (htb : s'.table = s.table)
    (hz : s'.zombies = s.zombies) (hs : s'.threads = s.threads.set t th')
    (hA : ∀ p, p ≠ b → s'.handles.count p + (th'.owned cfg).count p = s.handles.count p + (th.owned cfg).count p)
    (hP : ∀ p, th'.pc.priv.count p = th.pc.priv.count p)
    (hU : ∀ p, p ≠ b → th'.pc.undoing.count p = th.pc.undoing.count p)
    (hR : ∀ p, p ≠ b → th'.pc.removing.count p = th.pc.removing.count p)
    (a' u' r' : Nat)
    (hAb : s'.handles.count b + (th'.owned cfg).count b + A cfg s b = s.handles.count b + (th.owned cfg).count b + a')
    (hUb : th'.pc.undoing.count b + U s b = th.pc.undoing.count b + u')
    (hRb : th'.pc.removing.count b + R s b = th.pc.removing.count b + r')
    (hcnt' : a' < cfg.W → n = a' + u')
    (hpend' : r' + Z s b = if a' = 0 then 1 else 0)
    (hundo' : 0 < u' → a' = 0)
    (hl : ∀ (i : Nat) (u : Tid), s'.locks i = some u ↔ if u = t then th'.pc.holds = some i else s.locks i = some u)
    (hS : Small cfg s')
    (hT : ThInv cfg s' th') : Inv cfg s' := by
  have hTb : 0 < T s b := List.count_pos_iff.mpr hb
  have eAb : A cfg s' b = a' := by
    have h1 := owned_set cfg s.threads th' ht b
    have h3 : (storedHandles cfg (setCount s.heap b n)).count b = (storedHandles cfg s.heap).count b := by
      rw [storedHandles_setCount]
    rw [A_eq] at hAb ⊢; rw [hh, hs]; omega
  have eUb : U s' b = u' := by
    have h1 := undoing_set s.threads th' ht b
    simp only [U, hs] at hUb ⊢; omega
  have eRb : R s' b = r' := by
    have h1 := removing_set s.threads th' ht b
    simp only [R, hs] at hRb ⊢; omega
  have hcnt : n = A cfg s' b + U s' b := by
    rw [eAb, eUb]; apply hcnt'; have := hS b; simp only [A] at eAb; omega
  have hpend : R s' b + Z s' b = if A cfg s' b = 0 then 1 else 0 := by
    rw [eAb, eRb]; simpa only [Z, hz] using hpend'
  have hundo : 0 < U s' b → A cfg s' b = 0 := by rw [eAb, eUb]; exact hundo'
  have eA : ∀ p, p ≠ b → A cfg s' p = A cfg s p := by
    intro p hp
    have h1 := owned_set cfg s.threads th' ht p
    have h2 := hA p hp
    have h3 : (storedHandles cfg (setCount s.heap b n)).count p = (storedHandles cfg s.heap).count p := by
      rw [storedHandles_setCount]
    rw [A_eq, A_eq, hh, hs]; omega
  have eP : ∀ p, P s' p = P s p := by
    intro p
    have h1 := priv_set s.threads th' ht p
    have h2 := hP p
    simp only [P, hs]; omega
  have eU : ∀ p, p ≠ b → U s' p = U s p := by
    intro p hp
    have h1 := undoing_set s.threads th' ht p
    have h2 := hU p hp
    simp only [U, hs]; omega
  have eR : ∀ p, p ≠ b → R s' p = R s p := by
    intro p hp
    have h1 := removing_set s.threads th' ht p
    have h2 := hR p hp
    simp only [R, hs]; omega
  have eT : ∀ p, T s' p = T s p := fun p => by simp only [T, htb]
  have eK : ∀ p, K s' p = K s p := fun p => by simp only [K, hh, keys_setCount]
  have eZ : ∀ p, Z s' p = Z s p := fun p => by simp only [Z, hz]
  have live' : ∀ p, 0 < A cfg s' p → 0 < T s' p := by
    intro p; rw [eT]
    by_cases hp : p = b
    · subst hp; intro _; exact hTb
    · rw [eA p hp]; exact hI.live p
  have dat : ∀ p x', get s'.heap p = some x' → ∃ x, get s.heap p = some x ∧ x.data = x'.data := by
    intro p x' h
    have := get_data_setCount s.heap b n p
    rw [← hh, h] at this
    cases hg : get s.heap p with
    | none => simp [hg] at this
    | some x => refine ⟨x, rfl, ?_⟩; simpa [hg] using this.symm
  have dat' : ∀ p x, get s.heap p = some x → ∃ x', get s'.heap p = some x' ∧ x'.data = x.data := by
    intro p x h
    have := get_data_setCount s.heap b n p
    rw [← hh, h] at this
    cases hg : get s'.heap p with
    | none => simp [hg] at this
    | some x => refine ⟨x, rfl, ?_⟩; simpa [hg] using this
  refine ⟨?_, ?_, ?_, live', ?_, ?_, ?_, lk_set hI.lk ht hs hl, ?_, ?_, ?_, ?_, hS⟩
  · intro b; rw [eK]; exact hI.nd b
  · intro b; rw [eK, eT, eP]; exact hI.split b
  · rw [htb]
    intro p q x y hp hq hx hy hxy
    obtain ⟨x0, hx0, ex⟩ := dat p x hx
    obtain ⟨y0, hy0, ey⟩ := dat q y hy
    exact hI.uniq p q x0 y0 hp hq hx0 hy0 (by rw [ex, ey]; exact hxy)
  · intro p x; rw [eT]; intro h1 h2
    by_cases hp : p = b
    · subst hp
      rw [hh, get_setCount, if_pos rfl] at h2
      cases hg : get s.heap p with
      | none => simp [hg] at h2
      | some y => simp [hg] at h2; rw [← h2]; exact hcnt
    · rw [eA p hp, eU p hp]
      rw [hh, get_setCount, if_neg hp] at h2
      exact hI.cnt p x h1 h2
  · intro p
    by_cases hp : p = b
    · subst hp; rw [hpend, eT]; simp [hTb]
    · rw [eR p hp, eZ, eT, eA p hp]; exact hI.pend p
  · intro p
    by_cases hp : p = b
    · subst hp; rw [eT]; intro h; exact ⟨hTb, hundo h⟩
    · rw [eU p hp, eT, eA p hp]; exact hI.undo p
  · refine th_set hI ht hs live' (fun u thu _ hu => ⟨?_, ?_, ?_, ?_⟩) hT
    · intro p hp
      rw [hh, get_setCount, if_neg]
      rintro rfl; exact hI.not_priv hb hu hp
    · intro p x _ hx; exact dat' p x hx
    · intro p x _ hx; exact dat p x hx
    · intros; rw [htb]
  · rw [hh, setCount, List.pairwise_map]
    refine hI.ord.imp ?_
    intro x y h
    split <;> split <;> exact h
  · rw [hh]; intro e he
    simp only [setCount, List.mem_map] at he
    obtain ⟨e0, he0, rfl⟩ := he
    have := hI.self e0 he0
    split <;> exact this
  · rw [eK]; exact hI.null

/-- A step that destroys a private box. -/
theorem inv_free [LawfulHashable V] {cfg : Cfg V} {s s' : State V} {t : Tid} {th th' : Thread V} (hI : Inv cfg s)
    (ht : s.threads[t]? = some th) {b : Addr} {x : Cell V} (hx : get s.heap b = some x)
    (hh : s'.heap = free s.heap b) (htb : s'.table = s.table) (hha : s'.handles = s.handles)
    (hz : s'.zombies = s.zombies) (hlk : s'.locks = s.locks) (hs : s'.threads = s.threads.set t th')
    (hp : th.pc.priv = [b]) (hp' : th'.pc.priv = [])
    (hA : ∀ p, (th'.owned cfg).count p = (th.owned cfg).count p + (cfg.kids x.data).count p)
    (hU : th'.pc.undoing = th.pc.undoing) (hR : th'.pc.removing = th.pc.removing)
    (hl : th.pc.holds = none) (hl' : th'.pc.holds = none)
    (hT : ThInv cfg s' th') : Inv cfg s' := by
  have eA : ∀ p, A cfg s' p = A cfg s p := by
    intro p
    have h1 := owned_set cfg s.threads th' ht p
    have h2 := hA p
    have h3 := storedHandles_free cfg p s.heap b x hx hI.nd
    rw [A_eq, A_eq, hh, hs, hha]; omega
  have eP : ∀ p, P s' p + [b].count p = P s p := by
    intro p
    have h1 := priv_set s.threads th' ht p
    rw [hp, hp'] at h1
    simp only [P, hs]; simp only [List.count_nil] at h1; omega
  have eU : ∀ p, U s' p = U s p := by
    intro p
    have h1 := undoing_set s.threads th' ht p
    rw [hU] at h1
    simp only [U, hs]; omega
  have eR : ∀ p, R s' p = R s p := by
    intro p
    have h1 := removing_set s.threads th' ht p
    rw [hR] at h1
    simp only [R, hs]; omega
  have eT : ∀ p, T s' p = T s p := fun p => by simp only [T, htb]
  have eK : ∀ p, K s' p = if p = b then 0 else K s p := fun p => by
    simp only [K, hh, keys_free]
  have eZ : ∀ p, Z s' p = Z s p := fun p => by simp only [Z, hz]
  have hPb : 0 < P s b := mem_priv_P ht (by simp [hp])
  have hTb : b ∉ s.table := by
    intro h; exact hI.not_priv h ht (by simp [hp])
  have live' : ∀ p, 0 < A cfg s' p → 0 < T s' p := by
    intro p; rw [eA, eT]; exact hI.live p
  have hne : ∀ r, r ∈ s.table → r ≠ b := fun r hr h => hTb (h ▸ hr)
  have g : ∀ r, r ≠ b → get s'.heap r = get s.heap r := by
    intro r hr; rw [hh, get_free, if_neg hr]
  refine ⟨?_, ?_, ?_, live', ?_, ?_, ?_, ?_, ?_, ?_, ?_, ?_, ?_⟩
  · intro r; rw [eK]; have := hI.nd r; split <;> omega
  · intro r; rw [eK, eT]
    have h1 := hI.split r
    have h2 := eP r
    by_cases hr : r = b
    · subst hr
      have := hI.nd r
      simp at h2 ⊢; omega
    · rw [if_neg hr]
      have : [b].count r = 0 := by simp [Ne.symm hr]
      omega
  · rw [htb]
    intro p q y z hp hq hy hz'
    rw [g p (hne p hp)] at hy
    rw [g q (hne q hq)] at hz'
    exact hI.uniq p q y z hp hq hy hz'
  · intro r y; rw [eT, eA, eU]; intro h1
    rw [g r (hne r (List.count_pos_iff.mp h1))]
    exact hI.cnt r y h1
  · intro r; rw [eR, eZ, eT, eA]; exact hI.pend r
  · intro r; rw [eU, eT, eA]; exact hI.undo r
  · refine lk_set hI.lk ht hs ?_
    intro i u
    rw [hlk, hl']
    by_cases hut : u = t
    · subst hut
      simp only [if_true]
      constructor
      · intro h
        obtain ⟨th2, h1, h2⟩ := (hI.lk i u).mp h
        rw [ht] at h1; cases h1
        rw [hl] at h2; exact h2
      · intro h; cases h
    · simp [hut]
  · refine th_set hI ht hs live' (fun u thu hut hu => ⟨?_, ?_, ?_, ?_⟩) hT
    · intro p hpp
      refine g p ?_
      rintro rfl
      have h1 := P_two ht hu hut (by simp [hp]) hpp
      have h2 := hI.split p
      have h3 := hI.nd p
      omega
    · intro p y hpt hy; rw [g p (hne p hpt)]; exact ⟨y, hy, rfl⟩
    · intro p y hpt hy
      rw [htb] at hpt
      rw [g p (hne p hpt)] at hy; exact ⟨y, hy, rfl⟩
    · intros; rw [htb]
  · rw [hh]; exact hI.ord.sublist List.filter_sublist
  · rw [hh]; intro e he; exact hI.self e (List.mem_filter.mp he).1
  · rw [eK]; have := hI.null; split <;> omega
  · intro p; have := hI.small p; have := eA p; simp only [A] at *; omega

end Arc
