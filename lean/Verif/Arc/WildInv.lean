import Verif.Arc.Main
import Verif.Arc.Wild
/-! Memory safety of `ArcIntern` without any contract on `Eq` and `Hash` (C62): invariant and its preservation. The structure is
that of `Verif/Arc/Inv.lean`, `Step.lean`, `Step2.lean` and `Main.lean`, without the facts about values. -/
namespace Arc.Wild
variable {V : Type} {home home' : Addr → Nat}

/-- Element `b` found (or inserted) under the lock of shard `sh`. -/
def PcInv (cfg : Cfg V) (home : Addr → Nat) (s : State V) (arg : Option V) : Pc V → Prop
  | .newLoop c => callOk cfg s arg c
  | .newFound c sh b | .newUndo c sh b | .newHit c sh b => callOk cfg s arg c ∧ b ∈ s.table ∧ home b = sh
  | .newRelease c _ => callOk cfg s arg c
  | .newAlloc c => callOk cfg s arg c ∧ c.conv = none
  | .newEntry c b => callOk cfg s arg c ∧ c.conv = none ∧ get s.heap b = some ⟨1, c.val⟩
  | .newVacant c _ b => callOk cfg s arg c ∧ c.conv = none ∧ get s.heap b = some ⟨1, c.val⟩
  | .newInserted c _ _ => callOk cfg s arg c ∧ c.conv = none
  | .newOccupied c _ b => callOk cfg s arg c ∧ c.conv = none ∧ get s.heap b = some ⟨1, c.val⟩
  | .newUnbox c b => callOk cfg s arg c ∧ c.conv = none ∧ c.dst = false ∧
      get s.heap b = some ⟨1, c.val⟩
  | _ => True

structure ThInv (cfg : Cfg V) (home : Addr → Nat) (s : State V) (th : Thread V) : Prop where
  pc : PcInv cfg home s th.arg th.pc
  empty : th.pc.dropping = false → th.todo = [] ∧ th.ret = none

structure Inv (cfg : Cfg V) (home : Addr → Nat) (s : State V) : Prop where
  nd : ∀ b, K s b ≤ 1
  split : ∀ b, K s b = T s b + P s b
  live : ∀ p, 0 < A cfg s p → 0 < T s p
  cnt : ∀ b x, 0 < T s b → get s.heap b = some x → x.count = A cfg s b + U s b
  pend : ∀ b, R s b + Z s b ≤ if 0 < T s b ∧ A cfg s b = 0 then 1 else 0
  undo : ∀ b, 0 < U s b → 0 < T s b ∧ A cfg s b = 0
  lk : ∀ (i : Nat) (t : Tid), s.locks i = some t ↔ ∃ th, s.threads[t]? = some th ∧ th.pc.holds = some i
  th : ∀ (t : Tid) (th : Thread V), s.threads[t]? = some th → ThInv cfg home s th
  ord : s.heap.Pairwise (fun x y => x.1 ∉ cfg.kids y.2.data)
  self : ∀ e ∈ s.heap, e.1 ∉ cfg.kids e.2.data
  null : K s 0 = 0
  small : Small cfg s

theorem init_inv {cfg : Cfg V} (hv : cfg.Valid) : Inv cfg home (Arc.init : State V) := by
  constructor <;> simp [Arc.init, K, T, P, A, U, R, Z, keys, allHandles, storedHandles, get, Small]
  have := hv.W_ge; omega

theorem Inv.mem_keys {cfg : Cfg V} {s : State V} (hI : Inv cfg home s) {b : Addr} (hb : b ∈ s.table) :
    b ∈ keys s.heap := by
  have h1 : 0 < T s b := List.count_pos_iff.mpr hb
  have h2 := hI.split b
  exact List.count_pos_iff.mp (by simp only [K] at h2; omega)

theorem Inv.not_priv {cfg : Cfg V} {s : State V} (hI : Inv cfg home s) {b : Addr} (hb : b ∈ s.table)
    {t : Tid} {th : Thread V} (h : s.threads[t]? = some th) : b ∉ th.pc.priv := by
  intro hp
  have h1 : 0 < T s b := List.count_pos_iff.mpr hb
  have h2 := hI.split b
  have h3 := hI.nd b
  have h4 := mem_priv_P h hp
  omega

theorem Inv.tableOk {cfg : Cfg V} {s : State V} (hI : Inv cfg home s) : tableOk s = true := by
  simp only [Arc.tableOk, List.all_eq_true]
  intro b hb
  exact (get_isSome _ _).mpr (hI.mem_keys hb)

/-- What may not change under the feet of another thread. -/
structure Frame (home : Addr → Nat) (s : State V) (home' : Addr → Nat) (s' : State V) (pc : Pc V) : Prop where
  priv : ∀ b ∈ pc.priv, get s'.heap b = get s.heap b
  keep : ∀ sh, pc.holds = some sh → ∀ b ∈ s.table, home b = sh → b ∈ s'.table ∧ home' b = sh

theorem PcInv_frame {cfg : Cfg V} {s s' : State V} {arg : Option V} {pc : Pc V}
    (F : Frame home s home' s' pc) (h : PcInv cfg home s arg pc) : PcInv cfg home' s' arg pc := by
  cases pc <;> simp only [PcInv] at * <;> try exact True.intro
  case newLoop c => exact callOk_frame (fun b hb => F.priv b (by simp [Pc.priv, hb])) h
  case newFound c sh b =>
    exact ⟨callOk_frame (fun b hb => F.priv b (by simp [Pc.priv, hb])) h.1, F.keep sh rfl b h.2.1 h.2.2⟩
  case newUndo c sh b =>
    exact ⟨callOk_frame (fun b hb => F.priv b (by simp [Pc.priv, hb])) h.1, F.keep sh rfl b h.2.1 h.2.2⟩
  case newHit c sh b =>
    exact ⟨callOk_frame (fun b hb => F.priv b (by simp [Pc.priv, hb])) h.1, F.keep sh rfl b h.2.1 h.2.2⟩
  case newRelease c sh => exact callOk_frame (fun b hb => F.priv b (by simp [Pc.priv, hb])) h
  case newAlloc c => exact ⟨callOk_frame (fun b hb => by simp [h.2] at hb) h.1, h.2⟩
  case newEntry c b =>
    refine ⟨callOk_frame (fun b hb => by simp [h.2.1] at hb) h.1, h.2.1, ?_⟩
    rw [F.priv b (by simp [Pc.priv])]; exact h.2.2
  case newVacant c sh b =>
    refine ⟨callOk_frame (fun b hb => by simp [h.2.1] at hb) h.1, h.2.1, ?_⟩
    rw [F.priv b (by simp [Pc.priv])]; exact h.2.2
  case newInserted c sh b => exact ⟨callOk_frame (fun b hb => by simp [h.2] at hb) h.1, h.2⟩
  case newOccupied c sh b =>
    refine ⟨callOk_frame (fun b hb => by simp [h.2.1] at hb) h.1, h.2.1, ?_⟩
    rw [F.priv b (by simp [Pc.priv])]; exact h.2.2
  case newUnbox c b =>
    obtain ⟨h1, h2, h3, h4⟩ := h
    refine ⟨callOk_frame (fun b hb => by simp [h2] at hb) h1, h2, h3, ?_⟩
    rw [F.priv b (by simp [Pc.priv])]; exact h4

theorem th_set {cfg : Cfg V} {s s' : State V} {t : Tid} {th th' : Thread V} (hI : Inv cfg home s)
    (ht : s.threads[t]? = some th) (hs : s'.threads = s.threads.set t th')
    (F : ∀ (u : Tid) (thu : Thread V), u ≠ t → s.threads[u]? = some thu → Frame home s home' s' thu.pc)
    (h : ThInv cfg home' s' th') :
    ∀ (u : Tid) (thu : Thread V), s'.threads[u]? = some thu → ThInv cfg home' s' thu := by
  intro u thu hu
  rw [hs, set_getElem? _ _ _ _ _ ht] at hu
  by_cases hut : u = t
  · rw [if_pos hut] at hu; cases hu; exact h
  · rw [if_neg hut] at hu
    have h0 := hI.th u thu hu
    exact ⟨PcInv_frame (F u thu hut hu) h0.pc, h0.empty⟩

/-- A step that changes only thread-local state, locks and client handles. -/
theorem inv_thread {cfg : Cfg V} {s s' : State V} {t : Tid} {th th' : Thread V} (hI : Inv cfg home s)
    (ht : s.threads[t]? = some th) (hh : s'.heap = s.heap) (htb : s'.table = s.table)
    (hz : s'.zombies = s.zombies) (hs : s'.threads = s.threads.set t th')
    (hA : ∀ p, s'.handles.count p + (th'.owned cfg).count p = s.handles.count p + (th.owned cfg).count p)
    (hP : ∀ p, th'.pc.priv.count p = th.pc.priv.count p)
    (hU : th'.pc.undoing = th.pc.undoing) (hR : th'.pc.removing = th.pc.removing)
    (hl : ∀ (i : Nat) (u : Tid), s'.locks i = some u ↔ if u = t then th'.pc.holds = some i else s.locks i = some u)
    (hT : ThInv cfg home s' th') : Inv cfg home s' := by
  have eA : ∀ p, A cfg s' p = A cfg s p := by
    intro p
    have h1 := owned_set cfg s.threads th' ht p
    have h2 := hA p
    rw [A_eq, A_eq, hh, hs]; omega
  have eP : ∀ p, P s' p = P s p := by
    intro p
    have h1 := priv_set s.threads th' ht p
    have h2 := hP p
    simp only [P, hs]; omega
  have eU : ∀ p, U s' p = U s p := by
    intro p
    have h1 := undoing_set s.threads th' ht p
    rw [hU] at h1
    simp only [U, hs]; omega
  have eR : ∀ p, R s' p = R s p := by
    intro p
    have h1 := removing_set s.threads th' ht p
    rw [hR] at h1
    simp only [R, hs]; omega
  have eT : ∀ p, T s' p = T s p := fun p => by simp only [T, htb]
  have eK : ∀ p, K s' p = K s p := fun p => by simp only [K, hh]
  have eZ : ∀ p, Z s' p = Z s p := fun p => by simp only [Z, hz]
  have live' : ∀ p, 0 < A cfg s' p → 0 < T s' p := by
    intro p; rw [eA, eT]; exact hI.live p
  refine ⟨?_, ?_, live', ?_, ?_, ?_, lk_set hI.lk ht hs hl, ?_, ?_, ?_, ?_, ?_⟩
  · intro b; rw [eK]; exact hI.nd b
  · intro b; rw [eK, eT, eP]; exact hI.split b
  · intro b x; rw [eT, eA, eU, hh]; exact hI.cnt b x
  · intro b; rw [eR, eZ, eT, eA]; exact hI.pend b
  · intro b; rw [eU, eT, eA]; exact hI.undo b
  · refine th_set hI ht hs (fun u thu _ _ => ⟨?_, ?_⟩) hT
    · intros; rw [hh]
    · intro sh _ b hb h; rw [htb]; exact ⟨hb, h⟩
  · rw [hh]; exact hI.ord
  · rw [hh]; exact hI.self
  · rw [eK]; exact hI.null
  · intro p; have := hI.small p; have := eA p; simp only [A] at *; omega

/-- A step that changes the counter of a registered box. -/
theorem inv_count {cfg : Cfg V} {s s' : State V} {t : Tid} {th th' : Thread V} (hI : Inv cfg home s)
    (ht : s.threads[t]? = some th) {b : Addr} {n : Nat} (hb : b ∈ s.table)
    (hh : s'.heap = setCount s.heap b n) (htb : s'.table = s.table)
    (hz : s'.zombies = s.zombies) (hs : s'.threads = s.threads.set t th')
    (hA : ∀ p, p ≠ b → s'.handles.count p + (th'.owned cfg).count p = s.handles.count p + (th.owned cfg).count p)
    (hP : ∀ p, th'.pc.priv.count p = th.pc.priv.count p)
    (hU : ∀ p, p ≠ b → th'.pc.undoing.count p = th.pc.undoing.count p)
    (hR : ∀ p, p ≠ b → th'.pc.removing.count p = th.pc.removing.count p)
    (a' u' r' : Nat)
    (hAb : s'.handles.count b + (th'.owned cfg).count b + A cfg s b = s.handles.count b + (th.owned cfg).count b + a')
    (hUb : th'.pc.undoing.count b + U s b = th.pc.undoing.count b + u')
    (hRb : th'.pc.removing.count b + R s b = th.pc.removing.count b + r')
    (hcnt' : a' < cfg.W → n = a' + u')
    (hpend' : r' + Z s b ≤ if a' = 0 then 1 else 0)
    (hundo' : 0 < u' → a' = 0)
    (hl : ∀ (i : Nat) (u : Tid), s'.locks i = some u ↔ if u = t then th'.pc.holds = some i else s.locks i = some u)
    (hS : Small cfg s')
    (hT : ThInv cfg home s' th') : Inv cfg home s' := by
  have hTb : 0 < T s b := List.count_pos_iff.mpr hb
  have eAb : A cfg s' b = a' := by
    have h1 := owned_set cfg s.threads th' ht b
    have h3 : (storedHandles cfg (setCount s.heap b n)).count b = (storedHandles cfg s.heap).count b := by
      rw [storedHandles_setCount]
    rw [A_eq] at hAb ⊢; rw [hh, hs]; omega
  have eUb : U s' b = u' := by
    have h1 := undoing_set s.threads th' ht b
    simp only [U, hs] at hUb ⊢; omega
  have eRb : R s' b = r' := by
    have h1 := removing_set s.threads th' ht b
    simp only [R, hs] at hRb ⊢; omega
  have hcnt : n = A cfg s' b + U s' b := by
    rw [eAb, eUb]; apply hcnt'; have := hS b; simp only [A] at eAb; omega
  have hpend : R s' b + Z s' b ≤ if A cfg s' b = 0 then 1 else 0 := by
    rw [eAb, eRb]; simpa only [Z, hz] using hpend'
  have hundo : 0 < U s' b → A cfg s' b = 0 := by rw [eAb, eUb]; exact hundo'
  have eA : ∀ p, p ≠ b → A cfg s' p = A cfg s p := by
    intro p hp
    have h1 := owned_set cfg s.threads th' ht p
    have h2 := hA p hp
    have h3 : (storedHandles cfg (setCount s.heap b n)).count p = (storedHandles cfg s.heap).count p := by
      rw [storedHandles_setCount]
    rw [A_eq, A_eq, hh, hs]; omega
  have eP : ∀ p, P s' p = P s p := by
    intro p
    have h1 := priv_set s.threads th' ht p
    have h2 := hP p
    simp only [P, hs]; omega
  have eU : ∀ p, p ≠ b → U s' p = U s p := by
    intro p hp
    have h1 := undoing_set s.threads th' ht p
    have h2 := hU p hp
    simp only [U, hs]; omega
  have eR : ∀ p, p ≠ b → R s' p = R s p := by
    intro p hp
    have h1 := removing_set s.threads th' ht p
    have h2 := hR p hp
    simp only [R, hs]; omega
  have eT : ∀ p, T s' p = T s p := fun p => by simp only [T, htb]
  have eK : ∀ p, K s' p = K s p := fun p => by simp only [K, hh, keys_setCount]
  have eZ : ∀ p, Z s' p = Z s p := fun p => by simp only [Z, hz]
  have live' : ∀ p, 0 < A cfg s' p → 0 < T s' p := by
    intro p; rw [eT]
    by_cases hp : p = b
    · subst hp; intro _; exact hTb
    · rw [eA p hp]; exact hI.live p
  refine ⟨?_, ?_, live', ?_, ?_, ?_, lk_set hI.lk ht hs hl, ?_, ?_, ?_, ?_, hS⟩
  · intro b; rw [eK]; exact hI.nd b
  · intro b; rw [eK, eT, eP]; exact hI.split b
  · intro p x; rw [eT]; intro h1 h2
    by_cases hp : p = b
    · subst hp
      rw [hh, get_setCount, if_pos rfl] at h2
      cases hg : get s.heap p with
      | none => simp [hg] at h2
      | some y => simp [hg] at h2; rw [← h2]; exact hcnt
    · rw [eA p hp, eU p hp]
      rw [hh, get_setCount, if_neg hp] at h2
      exact hI.cnt p x h1 h2
  · intro p
    by_cases hp : p = b
    · subst hp; rw [eT]; simpa [hTb] using hpend
    · rw [eR p hp, eZ, eT, eA p hp]; exact hI.pend p
  · intro p
    by_cases hp : p = b
    · subst hp; rw [eT]; intro h; exact ⟨hTb, hundo h⟩
    · rw [eU p hp, eT, eA p hp]; exact hI.undo p
  · refine th_set hI ht hs (fun u thu _ hu => ⟨?_, ?_⟩) hT
    · intro p hp
      rw [hh, get_setCount, if_neg]
      rintro rfl; exact hI.not_priv hb hu hp
    · intro sh _ b hb h; rw [htb]; exact ⟨hb, h⟩
  · rw [hh, setCount, List.pairwise_map]
    refine hI.ord.imp ?_
    intro x y h
    split <;> split <;> exact h
  · rw [hh]; intro e he
    simp only [setCount, List.mem_map] at he
    obtain ⟨e0, he0, rfl⟩ := he
    have := hI.self e0 he0
    split <;> exact this
  · rw [eK]; exact hI.null

/-- A step that destroys a private box. -/
theorem inv_free {cfg : Cfg V} {s s' : State V} {t : Tid} {th th' : Thread V} (hI : Inv cfg home s)
    (ht : s.threads[t]? = some th) {b : Addr} {x : Cell V} (hx : get s.heap b = some x)
    (hh : s'.heap = free s.heap b) (htb : s'.table = s.table) (hha : s'.handles = s.handles)
    (hz : s'.zombies = s.zombies) (hlk : s'.locks = s.locks) (hs : s'.threads = s.threads.set t th')
    (hp : th.pc.priv = [b]) (hp' : th'.pc.priv = [])
    (hA : ∀ p, (th'.owned cfg).count p = (th.owned cfg).count p + (cfg.kids x.data).count p)
    (hU : th'.pc.undoing = th.pc.undoing) (hR : th'.pc.removing = th.pc.removing)
    (hl : th.pc.holds = none) (hl' : th'.pc.holds = none)
    (hT : ThInv cfg home s' th') : Inv cfg home s' := by
  have eA : ∀ p, A cfg s' p = A cfg s p := by
    intro p
    have h1 := owned_set cfg s.threads th' ht p
    have h2 := hA p
    have h3 := storedHandles_free cfg p s.heap b x hx hI.nd
    rw [A_eq, A_eq, hh, hs, hha]; omega
  have eP : ∀ p, P s' p + [b].count p = P s p := by
    intro p
    have h1 := priv_set s.threads th' ht p
    rw [hp, hp'] at h1
    simp only [P, hs]; simp only [List.count_nil] at h1; omega
  have eU : ∀ p, U s' p = U s p := by
    intro p
    have h1 := undoing_set s.threads th' ht p
    rw [hU] at h1
    simp only [U, hs]; omega
  have eR : ∀ p, R s' p = R s p := by
    intro p
    have h1 := removing_set s.threads th' ht p
    rw [hR] at h1
    simp only [R, hs]; omega
  have eT : ∀ p, T s' p = T s p := fun p => by simp only [T, htb]
  have eK : ∀ p, K s' p = if p = b then 0 else K s p := fun p => by
    simp only [K, hh, keys_free]
  have eZ : ∀ p, Z s' p = Z s p := fun p => by simp only [Z, hz]
  have hPb : 0 < P s b := mem_priv_P ht (by simp [hp])
  have hTb : b ∉ s.table := by
    intro h; exact hI.not_priv h ht (by simp [hp])
  have live' : ∀ p, 0 < A cfg s' p → 0 < T s' p := by
    intro p; rw [eA, eT]; exact hI.live p
  have hne : ∀ r, r ∈ s.table → r ≠ b := fun r hr h => hTb (h ▸ hr)
  have g : ∀ r, r ≠ b → get s'.heap r = get s.heap r := by
    intro r hr; rw [hh, get_free, if_neg hr]
  refine ⟨?_, ?_, live', ?_, ?_, ?_, ?_, ?_, ?_, ?_, ?_, ?_⟩
  · intro r; rw [eK]; have := hI.nd r; split <;> omega
  · intro r; rw [eK, eT]
    have h1 := hI.split r
    have h2 := eP r
    by_cases hr : r = b
    · subst hr
      have := hI.nd r
      simp at h2 ⊢; omega
    · rw [if_neg hr]
      have : [b].count r = 0 := by simp [Ne.symm hr]
      omega
  · intro r y; rw [eT, eA, eU]; intro h1
    rw [g r (hne r (List.count_pos_iff.mp h1))]
    exact hI.cnt r y h1
  · intro r; rw [eR, eZ, eT, eA]; exact hI.pend r
  · intro r; rw [eU, eT, eA]; exact hI.undo r
  · refine lk_set hI.lk ht hs ?_
    intro i u
    rw [hlk, hl']
    by_cases hut : u = t
    · subst hut
      simp only [if_true]
      constructor
      · intro h
        obtain ⟨th2, h1, h2⟩ := (hI.lk i u).mp h
        rw [ht] at h1; cases h1
        rw [hl] at h2; exact h2
      · intro h; cases h
    · simp [hut]
  · refine th_set hI ht hs (fun u thu hut hu => ⟨?_, ?_⟩) hT
    · intro p hpp
      refine g p ?_
      rintro rfl
      have h1 := P_two ht hu hut (by simp [hp]) hpp
      have h2 := hI.split p
      have h3 := hI.nd p
      omega
    · intro sh _ b hb h; rw [htb]; exact ⟨hb, h⟩
  · rw [hh]; exact hI.ord.sublist List.filter_sublist
  · rw [hh]; intro e he; exact hI.self e (List.mem_filter.mp he).1
  · rw [eK]; have := hI.null; split <;> omega
  · intro p; have := hI.small p; have := eA p; simp only [A] at *; omega

theorem Inv.lock_none {cfg : Cfg V} {s : State V} (hI : Inv cfg home s) {t : Tid} {th : Thread V}
    (ht : s.threads[t]? = some th) (h : th.pc.holds = none) (i : Nat) : s.locks i ≠ some t := by
  intro hi
  obtain ⟨th2, h1, h2⟩ := (hI.lk i t).mp hi
  rw [ht] at h1; cases h1
  rw [h] at h2; cases h2

theorem Inv.lock_some {cfg : Cfg V} {s : State V} (hI : Inv cfg home s) {t : Tid} {th : Thread V}
    (ht : s.threads[t]? = some th) {i : Nat} (h : th.pc.holds = some i) (j : Nat) :
    s.locks j = some t ↔ j = i := by
  constructor
  · intro hi
    obtain ⟨th2, h1, h2⟩ := (hI.lk j t).mp hi
    rw [ht] at h1; cases h1
    rw [h] at h2; cases h2; rfl
  · rintro rfl
    exact (hI.lk j t).mpr ⟨th, ht, h⟩

/-- Locks unchanged, thread holds the same lock as before. -/
theorem Inv.locks_same {cfg : Cfg V} {s : State V} (hI : Inv cfg home s) {t : Tid} {th th' : Thread V}
    (ht : s.threads[t]? = some th) (h : th'.pc.holds = th.pc.holds) (i : Nat) (u : Tid) :
    s.locks i = some u ↔ if u = t then th'.pc.holds = some i else s.locks i = some u := by
  by_cases hut : u = t
  · subst hut
    rw [if_pos rfl, h]
    constructor
    · intro hi
      obtain ⟨th2, h1, h2⟩ := (hI.lk i u).mp hi
      rw [ht] at h1; cases h1; exact h2
    · intro hi; exact (hI.lk i u).mpr ⟨th, ht, hi⟩
  · simp [hut]

/-- Acquiring a free lock. -/
theorem Inv.locks_acquire {cfg : Cfg V} {s : State V} (hI : Inv cfg home s) {t : Tid} {th th' : Thread V}
    (ht : s.threads[t]? = some th) (h : th.pc.holds = none) {sh : Nat} (hf : s.locks sh = none)
    (h' : th'.pc.holds = some sh) (i : Nat) (u : Tid) :
    (s.lock sh t).locks i = some u ↔ if u = t then th'.pc.holds = some i else s.locks i = some u := by
  have := hI.lock_none ht h i
  simp only [State.lock, h']
  by_cases hi : i = sh
  · subst hi
    simp only [if_true, hf]
    by_cases hut : u = t
    · subst hut; simp
    · simp [hut, Ne.symm hut]
  · simp only [if_neg hi]
    by_cases hut : u = t
    · subst hut; simp only [if_true]
      constructor
      · intro h1; exact absurd h1 this
      · intro h1; cases h1; exact absurd rfl hi
    · simp [hut]

/-- Releasing the held lock. -/
theorem Inv.locks_release {cfg : Cfg V} {s : State V} (hI : Inv cfg home s) {t : Tid} {th th' : Thread V}
    (ht : s.threads[t]? = some th) {sh : Nat} (h : th.pc.holds = some sh)
    (h' : th'.pc.holds = none) (i : Nat) (u : Tid) :
    (s.unlock sh).locks i = some u ↔ if u = t then th'.pc.holds = some i else s.locks i = some u := by
  have h1 := hI.lock_some ht h i
  have h2 := hI.lock_some ht h sh
  simp only [State.unlock, h']
  by_cases hi : i = sh
  · subst hi
    by_cases hut : u = t
    · subst hut; simp
    · have : s.locks i = some t := h2.mpr rfl
      simp [hut, this, Ne.symm hut]
  · simp only [if_neg hi]
    by_cases hut : u = t
    · subst hut; simp [h1, hi]
    · simp [hut]

/-- Allocation (arc.rs:244). -/
theorem inv_alloc {cfg : Cfg V} {s : State V} {t : Tid} {th : Thread V} (hI : Inv cfg home s)
    (ht : s.threads[t]? = some th) {c : Call V} (hpc : th.pc = .newAlloc c) {a : Addr} (ha : a ≠ 0)
    (hk : a ∉ keys s.heap) :
    Inv cfg home ({ s with heap := (a, { count := 1, data := c.val }) :: s.heap }.setThread t
      { th with pc := .newEntry c a }) := by
  have hth := hI.th t th ht
  have hpi := hth.pc
  rw [hpc] at hpi
  obtain ⟨hcall, hconv⟩ := hpi
  have hKa : K s a = 0 := List.count_eq_zero.mpr hk
  have hTa : T s a = 0 := by have := hI.split a; omega
  have hAa : A cfg s a = 0 := by have := hI.live a; omega
  have hta : a ∉ s.table := List.count_eq_zero.mp hTa
  generalize hs' : ({ s with heap := (a, { count := 1, data := c.val }) :: s.heap }.setThread t
      { th with pc := .newEntry c a } : State V) = s'
  have hh : s'.heap = (a, { count := 1, data := c.val }) :: s.heap := by rw [← hs']; rfl
  have htb : s'.table = s.table := by rw [← hs']; rfl
  have hz : s'.zombies = s.zombies := by rw [← hs']; rfl
  have hha : s'.handles = s.handles := by rw [← hs']; rfl
  have hlk : s'.locks = s.locks := by rw [← hs']; rfl
  have hs : s'.threads = s.threads.set t { th with pc := .newEntry c a } := by rw [← hs']; rfl
  have eA : ∀ p, A cfg s' p = A cfg s p := by
    intro p
    have h1 := owned_set cfg s.threads { th with pc := .newEntry c a } ht p
    rw [A_eq, A_eq, hh, hs, hha]
    simp only [Thread.owned, Pc.owned, hpc, List.count_append, storedHandles, List.flatMap_cons,
      List.count_nil] at h1 ⊢
    omega
  have eP : ∀ p, P s' p = P s p + [a].count p := by
    intro p
    have h1 := priv_set s.threads { th with pc := .newEntry c a } ht p
    simp only [P, hs]
    simp only [Pc.priv, hpc, List.count_nil] at h1 ⊢; omega
  have eU : ∀ p, U s' p = U s p := by
    intro p
    have h1 := undoing_set s.threads { th with pc := .newEntry c a } ht p
    simp only [U, hs]
    simp only [Pc.undoing, hpc, List.count_nil] at h1 ⊢; omega
  have eR : ∀ p, R s' p = R s p := by
    intro p
    have h1 := removing_set s.threads { th with pc := .newEntry c a } ht p
    simp only [R, hs]
    simp only [Pc.removing, hpc, List.count_nil] at h1 ⊢; omega
  have eT : ∀ p, T s' p = T s p := fun p => by simp only [T, htb]
  have eK : ∀ p, K s' p = K s p + [a].count p := fun p => by
    simp only [K, hh, keys, List.map_cons, List.count_cons, List.count_nil]; omega
  have eZ : ∀ p, Z s' p = Z s p := fun p => by simp only [Z, hz]
  have live' : ∀ p, 0 < A cfg s' p → 0 < T s' p := by
    intro p; rw [eA, eT]; exact hI.live p
  have g : ∀ r, r ≠ a → get s'.heap r = get s.heap r := by
    intro r hr; rw [hh]; simp [get, Ne.symm hr]
  have ga : get s'.heap a = some { count := 1, data := c.val } := by rw [hh]; simp [get]
  have hne : ∀ r, r ∈ s.table → r ≠ a := fun r hr h => hta (h ▸ hr)
  refine ⟨?_, ?_, live', ?_, ?_, ?_, ?_, ?_, ?_, ?_, ?_, ?_⟩
  · intro r; rw [eK]
    by_cases hr : r = a
    · subst hr; simp [hKa]
    · have := hI.nd r; simp [Ne.symm hr]; omega
  · intro r; rw [eK, eT, eP]; have := hI.split r; omega
  · intro r y; rw [eT, eA, eU]; intro h1
    rw [g r (hne r (List.count_pos_iff.mp h1))]
    exact hI.cnt r y h1
  · intro r; rw [eR, eZ, eT, eA]; exact hI.pend r
  · intro r; rw [eU, eT, eA]; exact hI.undo r
  · refine lk_set hI.lk ht hs ?_
    rw [hlk]
    exact hI.locks_same ht (by simp [Pc.holds, hpc])
  · refine th_set hI ht hs (fun u thu hut hu => ⟨?_, ?_⟩) ⟨?_, ?_⟩
    · intro p hpp
      refine g p ?_
      rintro rfl
      have h1 := mem_priv_P hu hpp
      have h2 := hI.split p
      omega
    · intro sh _ b hb h; rw [htb]; exact ⟨hb, h⟩
    · refine ⟨callOk_frame ?_ hcall, hconv, ga⟩
      intro b hb; rw [hconv] at hb; cases hb
    · intro _; exact hth.empty (by simp [hpc, Pc.dropping])
  · rw [hh, List.pairwise_cons]
    refine ⟨?_, hI.ord⟩
    intro e he hka
    have : 0 < (storedHandles cfg s.heap).count a :=
      List.count_pos_iff.mpr (List.mem_flatMap.mpr ⟨e, he, hka⟩)
    have := A_eq cfg s a
    omega
  · rw [hh]; intro e he
    rcases List.mem_cons.mp he with rfl | he
    · intro hka
      have : 0 < A cfg s a := mem_owned_A ht (by simp [Thread.owned, hpc, Pc.owned]; exact Or.inl hka)
      omega
    · exact hI.self e he
  · rw [eK]; have := hI.null; simp [ha, this]
  · intro p; have := hI.small p; have := eA p; simp only [A] at *; omega

/-- Insertion into the table (arc.rs:254). -/
theorem inv_insert {cfg : Cfg V} {s : State V} {t : Tid} {th : Thread V} (hI : Inv cfg home s)
    (ht : s.threads[t]? = some th) {c : Call V} {sh : Nat} {b : Addr} (hpc : th.pc = .newVacant c sh b)
    (hS : Small cfg ({ s with table := b :: s.table }.setThread t { th with pc := .newInserted c sh b })) :
    Inv cfg (fun r => if r = b then sh else home r) ({ s with table := b :: s.table }.setThread t { th with pc := .newInserted c sh b }) := by
  have hth := hI.th t th ht
  have hpi := hth.pc
  rw [hpc] at hpi
  obtain ⟨hcall, hconv, hgb⟩ := hpi
  have hPb : 0 < P s b := mem_priv_P ht (by simp [hpc, Pc.priv])
  have hTb : T s b = 0 := by have := hI.split b; have := hI.nd b; omega
  have hAb : A cfg s b = 0 := by have := hI.live b; omega
  have hUb : U s b = 0 := by have := hI.undo b; omega
  have hRZ : R s b + Z s b = 0 := by have := hI.pend b; simp [hTb] at this; omega
  have htb' : b ∉ s.table := List.count_eq_zero.mp hTb
  generalize hs' : ({ s with table := b :: s.table }.setThread t
      { th with pc := .newInserted c sh b } : State V) = s' at hS ⊢
  have hh : s'.heap = s.heap := by rw [← hs']; rfl
  have htb : s'.table = b :: s.table := by rw [← hs']; rfl
  have hz : s'.zombies = s.zombies := by rw [← hs']; rfl
  have hha : s'.handles = s.handles := by rw [← hs']; rfl
  have hlk : s'.locks = s.locks := by rw [← hs']; rfl
  have hs : s'.threads = s.threads.set t { th with pc := .newInserted c sh b } := by rw [← hs']; rfl
  have eA : ∀ p, A cfg s' p = A cfg s p + [b].count p := by
    intro p
    have h1 := owned_set cfg s.threads { th with pc := .newInserted c sh b } ht p
    rw [A_eq, A_eq, hh, hs, hha]
    simp only [Thread.owned, Pc.owned, hpc, List.count_append, List.count_nil] at h1 ⊢
    omega
  have eP : ∀ p, P s' p + [b].count p = P s p := by
    intro p
    have h1 := priv_set s.threads { th with pc := .newInserted c sh b } ht p
    simp only [P, hs]
    simp only [Pc.priv, hpc, List.count_nil] at h1 ⊢; omega
  have eU : ∀ p, U s' p = U s p := by
    intro p
    have h1 := undoing_set s.threads { th with pc := .newInserted c sh b } ht p
    simp only [U, hs]
    simp only [Pc.undoing, hpc, List.count_nil] at h1 ⊢; omega
  have eR : ∀ p, R s' p = R s p := by
    intro p
    have h1 := removing_set s.threads { th with pc := .newInserted c sh b } ht p
    simp only [R, hs]
    simp only [Pc.removing, hpc, List.count_nil] at h1 ⊢; omega
  have eT : ∀ p, T s' p = T s p + [b].count p := fun p => by
    simp only [T, htb, List.count_cons, List.count_nil]; omega
  have eK : ∀ p, K s' p = K s p := fun p => by simp only [K, hh]
  have eZ : ∀ p, Z s' p = Z s p := fun p => by simp only [Z, hz]
  have live' : ∀ p, 0 < A cfg s' p → 0 < T s' p := by
    intro p; rw [eA, eT]; have := hI.live p; omega
  have one : [b].count b = 1 := by simp
  have zero : ∀ p, p ≠ b → [b].count p = 0 := fun p hp => by simp [Ne.symm hp]
  refine ⟨?_, ?_, live', ?_, ?_, ?_, ?_, ?_, ?_, ?_, ?_, hS⟩
  · intro r; rw [eK]; exact hI.nd r
  · intro r; rw [eK, eT]; have := hI.split r; have := eP r; omega
  · intro r y; rw [eT, eA, eU, hh]; intro h1 h2
    by_cases hr : r = b
    · subst hr; rw [hgb] at h2; cases h2; simp [hAb, hUb]
    · rw [zero r hr] at h1 ⊢; exact hI.cnt r y h1 h2
  · intro r; rw [eR, eZ, eT, eA]
    by_cases hr : r = b
    · subst hr; rw [hRZ]; simp
    · rw [zero r hr]; exact hI.pend r
  · intro r; rw [eU, eT, eA]
    by_cases hr : r = b
    · subst hr; omega
    · rw [zero r hr]; exact hI.undo r
  · refine lk_set hI.lk ht hs ?_
    rw [hlk]
    exact hI.locks_same ht (by simp [Pc.holds, hpc])
  · refine th_set hI ht hs (fun u thu hut hu => ⟨?_, ?_⟩) ⟨?_, ?_⟩
    · intro p hpp; rw [hh]
    · intro sh' _ p hpt h
      rw [htb, if_neg (fun (e : p = b) => htb' (e ▸ hpt))]
      exact ⟨List.mem_cons_of_mem _ hpt, h⟩
    · refine ⟨callOk_frame ?_ hcall, hconv⟩
      intro b hb; rw [hconv] at hb; cases hb
    · intro _; exact hth.empty (by simp [hpc, Pc.dropping])
  · rw [hh]; exact hI.ord
  · rw [hh]; exact hI.self
  · rw [eK]; exact hI.null

/-- Removal from the table (arc.rs:322). -/
theorem inv_erase {cfg : Cfg V} {s : State V} {t : Tid} {th : Thread V} (hI : Inv cfg home s)
    (ht : s.threads[t]? = some th) {b : Addr} (hpc : th.pc = .dropRemove b)
    (hfree : s.locks (home b) = none) :
    Inv cfg home ({ s with table := s.table.erase b }.setThread t { th with pc := .dropFree b }) := by
  have hth := hI.th t th ht
  have hRb : 0 < R s b := (count_flatMap_pos _ b s.threads).mpr ⟨t, th, ht, by simp [hpc, Pc.removing]⟩
  have hpend := hI.pend b
  have hTA : 0 < T s b ∧ A cfg s b = 0 := by
    by_cases h : 0 < T s b ∧ A cfg s b = 0
    · exact h
    · rw [if_neg h] at hpend; omega
  have hRZ : R s b + Z s b ≤ 1 := by rw [if_pos hTA] at hpend; exact hpend
  have hmem : b ∈ s.table := List.count_pos_iff.mp hTA.1
  have hT1 : T s b = 1 := by have := hI.split b; have := hI.nd b; omega
  have hUb : U s b = 0 := by
    rcases Nat.eq_zero_or_pos (U s b) with h | h
    · exact h
    · obtain ⟨u, thu, hu, hb⟩ := (count_flatMap_pos _ b s.threads).mp h
      have hi := (hI.th u thu hu).pc
      cases hpu : thu.pc <;> simp [hpu, Pc.undoing] at hb
      rename_i c sh r
      subst hb
      rw [hpu] at hi
      obtain ⟨_, _, h2⟩ := hi
      have : s.locks sh = some u := (hI.lk sh u).mpr ⟨thu, hu, by simp [hpu, Pc.holds]⟩
      rw [← h2, hfree] at this; cases this
  generalize hs' : ({ s with table := s.table.erase b }.setThread t { th with pc := .dropFree b } : State V) = s'
  have hh : s'.heap = s.heap := by rw [← hs']; rfl
  have htb : s'.table = s.table.erase b := by rw [← hs']; rfl
  have hz : s'.zombies = s.zombies := by rw [← hs']; rfl
  have hha : s'.handles = s.handles := by rw [← hs']; rfl
  have hlk : s'.locks = s.locks := by rw [← hs']; rfl
  have hs : s'.threads = s.threads.set t { th with pc := .dropFree b } := by rw [← hs']; rfl
  have eA : ∀ p, A cfg s' p = A cfg s p := by
    intro p
    have h1 := owned_set cfg s.threads { th with pc := .dropFree b } ht p
    rw [A_eq, A_eq, hh, hs, hha]
    simp only [Thread.owned, Pc.owned, hpc, List.count_append, List.count_nil] at h1 ⊢
    omega
  have eP : ∀ p, P s' p = P s p + [b].count p := by
    intro p
    have h1 := priv_set s.threads { th with pc := .dropFree b } ht p
    simp only [P, hs]
    simp only [Pc.priv, hpc, List.count_nil] at h1 ⊢; omega
  have eU : ∀ p, U s' p = U s p := by
    intro p
    have h1 := undoing_set s.threads { th with pc := .dropFree b } ht p
    simp only [U, hs]
    simp only [Pc.undoing, hpc, List.count_nil] at h1 ⊢; omega
  have eR : ∀ p, R s' p + [b].count p = R s p := by
    intro p
    have h1 := removing_set s.threads { th with pc := .dropFree b } ht p
    simp only [R, hs]
    simp only [Pc.removing, hpc, List.count_nil] at h1 ⊢; omega
  have one : [b].count b = 1 := by simp
  have zero : ∀ p, p ≠ b → [b].count p = 0 := fun p hp => by simp [Ne.symm hp]
  have eT : ∀ p, T s' p = T s p - [b].count p := fun p => by
    simp only [T, htb, count_erase']
    by_cases hp : p = b
    · subst hp; simp
    · rw [zero p hp, if_neg (Ne.symm hp)]
  have eK : ∀ p, K s' p = K s p := fun p => by simp only [K, hh]
  have eZ : ∀ p, Z s' p = Z s p := fun p => by simp only [Z, hz]
  have live' : ∀ p, 0 < A cfg s' p → 0 < T s' p := by
    intro p; rw [eA, eT]
    by_cases hp : p = b
    · subst hp; omega
    · rw [zero p hp]; exact hI.live p
  refine ⟨?_, ?_, live', ?_, ?_, ?_, ?_, ?_, ?_, ?_, ?_, ?_⟩
  · intro r; rw [eK]; exact hI.nd r
  · intro r; rw [eK, eT, eP]; have := hI.split r
    by_cases hp : r = b
    · subst hp; omega
    · rw [zero r hp]; omega
  · intro r y; rw [eT, eA, eU, hh]; intro h1; exact hI.cnt r y (by omega)
  · intro r; rw [eZ, eT, eA]
    have h1 := eR r
    have h2 := hI.pend r
    by_cases hp : r = b
    · subst hp
      rw [hT1, one, if_neg (by omega)]
      rw [one] at h1; omega
    · rw [zero r hp] at h1 ⊢; rw [Nat.sub_zero]; omega
  · intro r; rw [eU, eT, eA]
    by_cases hp : r = b
    · subst hp; omega
    · rw [zero r hp]; exact hI.undo r
  · refine lk_set hI.lk ht hs ?_
    rw [hlk]
    exact hI.locks_same ht (by simp [Pc.holds, hpc])
  · refine th_set hI ht hs (fun u thu hut hu => ⟨?_, ?_⟩) ⟨?_, ?_⟩
    · intro p hpp; rw [hh]
    · intro sh' hsh' p hpt h
      rw [htb]
      have : p ≠ b := by
        rintro rfl
        have h1 : s.locks sh' = some u := (hI.lk sh' u).mpr ⟨thu, hu, hsh'⟩
        rw [← h, hfree] at h1; cases h1
      exact ⟨(List.mem_erase_of_ne this).mpr hpt, h⟩
    · exact True.intro
    · intro h; simp [Pc.dropping] at h
  · rw [hh]; exact hI.ord
  · rw [hh]; exact hI.self
  · rw [eK]; exact hI.null
  · intro p; have := hI.small p; have := eA p; simp only [A] at *; omega

/-- A removal abandoned by a panic (arc.rs:322). -/
theorem inv_zombie {cfg : Cfg V} {s : State V} {t : Tid} {th : Thread V} (hI : Inv cfg home s)
    (ht : s.threads[t]? = some th) {b : Addr} (hpc : th.pc = .dropRemove b) :
    Inv cfg home { s.setThread t { th with pc := .idle } with zombies := b :: s.zombies } := by
  have hth := hI.th t th ht
  generalize hs' : ({ s.setThread t { th with pc := .idle } with zombies := b :: s.zombies } : State V) = s'
  have hh : s'.heap = s.heap := by rw [← hs']; rfl
  have htb : s'.table = s.table := by rw [← hs']; rfl
  have hz : s'.zombies = b :: s.zombies := by rw [← hs']
  have hha : s'.handles = s.handles := by rw [← hs']; rfl
  have hlk : s'.locks = s.locks := by rw [← hs']; rfl
  have hs : s'.threads = s.threads.set t { th with pc := .idle } := by rw [← hs']; rfl
  have eA : ∀ p, A cfg s' p = A cfg s p := by
    intro p
    have h1 := owned_set cfg s.threads { th with pc := .idle } ht p
    rw [A_eq, A_eq, hh, hs, hha]
    simp only [Thread.owned, Pc.owned, hpc, List.count_append, List.count_nil] at h1 ⊢
    omega
  have eP : ∀ p, P s' p = P s p := by
    intro p
    have h1 := priv_set s.threads { th with pc := .idle } ht p
    simp only [P, hs]
    simp only [Pc.priv, hpc, List.count_nil] at h1 ⊢; omega
  have eU : ∀ p, U s' p = U s p := by
    intro p
    have h1 := undoing_set s.threads { th with pc := .idle } ht p
    simp only [U, hs]
    simp only [Pc.undoing, hpc, List.count_nil] at h1 ⊢; omega
  have eR : ∀ p, R s' p + [b].count p = R s p := by
    intro p
    have h1 := removing_set s.threads { th with pc := .idle } ht p
    simp only [R, hs]
    simp only [Pc.removing, hpc, List.count_nil] at h1 ⊢; omega
  have eT : ∀ p, T s' p = T s p := fun p => by simp only [T, htb]
  have eK : ∀ p, K s' p = K s p := fun p => by simp only [K, hh]
  have eZ : ∀ p, Z s' p = Z s p + [b].count p := fun p => by
    simp only [Z, hz, List.count_cons, List.count_nil]; omega
  have live' : ∀ p, 0 < A cfg s' p → 0 < T s' p := by
    intro p; rw [eA, eT]; exact hI.live p
  refine ⟨?_, ?_, live', ?_, ?_, ?_, ?_, ?_, ?_, ?_, ?_, ?_⟩
  · intro r; rw [eK]; exact hI.nd r
  · intro r; rw [eK, eT, eP]; exact hI.split r
  · intro r y; rw [eT, eA, eU, hh]; exact hI.cnt r y
  · intro r; have h1 := eR r; have h2 := hI.pend r; rw [eZ, eT, eA]; omega
  · intro r; rw [eU, eT, eA]; exact hI.undo r
  · refine lk_set hI.lk ht hs ?_
    rw [hlk]
    exact hI.locks_same ht (by simp [Pc.holds, hpc])
  · refine th_set hI ht hs (fun u thu hut hu => ⟨?_, ?_⟩) ⟨?_, ?_⟩
    · intro p hpp; rw [hh]
    · intro sh _ b hb h; rw [htb]; exact ⟨hb, h⟩
    · exact True.intro
    · intro h; simp [Pc.dropping] at h
  · rw [hh]; exact hI.ord
  · rw [hh]; exact hI.self
  · rw [eK]; exact hI.null
  · intro p; have := hI.small p; have := eA p; simp only [A] at *; omega

/-- A removal that finds nothing (arc.rs:322): the object stays in the table for ever. -/
theorem inv_lost {cfg : Cfg V} {s : State V} {t : Tid} {th : Thread V} (hI : Inv cfg home s)
    (ht : s.threads[t]? = some th) {b : Addr} (hpc : th.pc = .dropRemove b) :
    Inv cfg home (s.setThread t { th with pc := .idle }) := by
  have hth := hI.th t th ht
  generalize hs' : (s.setThread t { th with pc := .idle } : State V) = s'
  have hh : s'.heap = s.heap := by rw [← hs']; rfl
  have htb : s'.table = s.table := by rw [← hs']; rfl
  have hz : s'.zombies = s.zombies := by rw [← hs']; rfl
  have hha : s'.handles = s.handles := by rw [← hs']; rfl
  have hlk : s'.locks = s.locks := by rw [← hs']; rfl
  have hs : s'.threads = s.threads.set t { th with pc := .idle } := by rw [← hs']; rfl
  have eA : ∀ p, A cfg s' p = A cfg s p := by
    intro p
    have h1 := owned_set cfg s.threads { th with pc := .idle } ht p
    rw [A_eq, A_eq, hh, hs, hha]
    simp only [Thread.owned, Pc.owned, hpc, List.count_append, List.count_nil] at h1 ⊢
    omega
  have eP : ∀ p, P s' p = P s p := by
    intro p
    have h1 := priv_set s.threads { th with pc := .idle } ht p
    simp only [P, hs]
    simp only [Pc.priv, hpc, List.count_nil] at h1 ⊢; omega
  have eU : ∀ p, U s' p = U s p := by
    intro p
    have h1 := undoing_set s.threads { th with pc := .idle } ht p
    simp only [U, hs]
    simp only [Pc.undoing, hpc, List.count_nil] at h1 ⊢; omega
  have eR : ∀ p, R s' p + [b].count p = R s p := by
    intro p
    have h1 := removing_set s.threads { th with pc := .idle } ht p
    simp only [R, hs]
    simp only [Pc.removing, hpc, List.count_nil] at h1 ⊢; omega
  have eT : ∀ p, T s' p = T s p := fun p => by simp only [T, htb]
  have eK : ∀ p, K s' p = K s p := fun p => by simp only [K, hh]
  have eZ : ∀ p, Z s' p = Z s p := fun p => by simp only [Z, hz]
  have live' : ∀ p, 0 < A cfg s' p → 0 < T s' p := by
    intro p; rw [eA, eT]; exact hI.live p
  refine ⟨?_, ?_, live', ?_, ?_, ?_, ?_, ?_, ?_, ?_, ?_, ?_⟩
  · intro r; rw [eK]; exact hI.nd r
  · intro r; rw [eK, eT, eP]; exact hI.split r
  · intro r y; rw [eT, eA, eU, hh]; exact hI.cnt r y
  · intro r; have h1 := eR r; have h2 := hI.pend r; rw [eZ, eT, eA]; omega
  · intro r; rw [eU, eT, eA]; exact hI.undo r
  · refine lk_set hI.lk ht hs ?_
    rw [hlk]
    exact hI.locks_same ht (by simp [Pc.holds, hpc])
  · refine th_set hI ht hs (fun u thu hut hu => ⟨?_, ?_⟩) ⟨?_, ?_⟩
    · intro p hpp; rw [hh]
    · intro sh _ b hb h; rw [htb]; exact ⟨hb, h⟩
    · exact True.intro
    · intro h; simp [Pc.dropping] at h
  · rw [hh]; exact hI.ord
  · rw [hh]; exact hI.self
  · rw [eK]; exact hI.null
  · intro p; have := hI.small p; have := eA p; simp only [A] at *; omega

/-- A new thread. -/
theorem inv_spawn {cfg : Cfg V} {s : State V} (hI : Inv cfg home s) :
    Inv cfg home { s with threads := s.threads ++ [{}] } := by
  have eA : ∀ p, A cfg { s with threads := s.threads ++ [{}] } p = A cfg s p := by
    intro p; simp [A, allHandles, Thread.owned, Pc.owned]
  have key : ∀ (t : Tid) (th : Thread V), (s.threads ++ [({} : Thread V)])[t]? = some th →
      s.threads[t]? = some th ∨ th = {} := by
    intro t th h
    rw [List.getElem?_append] at h
    split at h
    · exact Or.inl h
    · right
      cases hn : t - s.threads.length with
      | zero => simp [hn] at h; exact h.symm
      | succ n => simp [hn] at h
  constructor
  · exact hI.nd
  · intro b; have := hI.split b; simpa [P, Pc.priv] using this
  · intro p; rw [eA]; exact hI.live p
  · intro b x h1 h2; rw [eA]; have := hI.cnt b x h1 h2; simpa [U, Pc.undoing] using this
  · intro b; rw [eA]; have := hI.pend b; simpa [R, Pc.removing] using this
  · intro b; rw [eA]; have := hI.undo b; simpa [U, Pc.undoing] using this
  · intro i t
    have := hI.lk i t
    rw [show ({ s with threads := s.threads ++ [{}] } : State V).locks = s.locks from rfl, this]
    constructor
    · rintro ⟨th, h1, h2⟩
      refine ⟨th, ?_, h2⟩
      have : t < s.threads.length := by
        rcases Nat.lt_or_ge t s.threads.length with h' | h'
        · exact h'
        · simp [List.getElem?_eq_none h'] at h1
      rw [List.getElem?_append_left this]; exact h1
    · rintro ⟨th, h1, h2⟩
      rcases key t th h1 with h | h
      · exact ⟨th, h, h2⟩
      · subst h; simp [Pc.holds] at h2
  · intro t th h
    rcases key t th h with h | h
    · have h0 := hI.th t th h
      refine ⟨?_, h0.empty⟩
      have := h0.pc
      cases hpc : th.pc <;> rw [hpc] at this <;> exact this
    · subst h
      exact ⟨True.intro, fun _ => ⟨rfl, rfl⟩⟩
  · exact hI.ord
  · exact hI.self
  · exact hI.null
  · intro p; have := hI.small p; have := eA p; simp only [A] at *; omega

theorem Inv.deref {cfg : Cfg V} {s : State V} (hI : Inv cfg home s) {p : Addr} (h : 0 < A cfg s p) :
    ∃ x, get s.heap p = some x :=
  exists_get (hI.mem_keys (List.count_pos_iff.mp (hI.live p h)))

theorem follow_ok {cfg : Cfg V} {s : State V} (hI : Inv cfg home s) (path : List Addr) :
    ∀ p, 0 < A cfg s p → follow cfg s p path ≠ .ub ∧
      ∀ q, follow cfg s p path = .ok q → 0 < A cfg s q := by
  induction path with
  | nil =>
    intro p hp
    obtain ⟨x, hx⟩ := hI.deref hp
    simp [follow, hx]
    exact List.count_pos_iff.mp hp
  | cons k path ih =>
    intro p hp
    obtain ⟨x, hx⟩ := hI.deref hp
    simp only [follow, hx]
    split
    · exact ih k (stored_A hx (by assumption))
    · simp

theorem borrow_ok {cfg : Cfg V} {s : State V} (hI : Inv cfg home s) (path : List Addr) :
    borrow cfg s path ≠ .ub ∧ ∀ q, borrow cfg s path = .ok q → 0 < A cfg s q := by
  cases path with
  | nil => simp [borrow]
  | cons p path =>
    simp only [borrow]
    split
    · refine follow_ok hI path p ?_
      rw [A_eq]
      have : 0 < s.handles.count p := List.count_pos_iff.mpr (by assumption)
      omega
    · simp

theorem Inv.small_count {cfg : Cfg V} {s : State V} (hI : Inv cfg home s) (p : Addr) : A cfg s p < cfg.W :=
  hI.small p

/-- Two threads cannot hold the same shard lock. -/
theorem Inv.excl {cfg : Cfg V} {s : State V} (hI : Inv cfg home s) {t u : Tid} {th thu : Thread V} {i : Nat}
    (ht : s.threads[t]? = some th) (hu : s.threads[u]? = some thu)
    (h1 : th.pc.holds = some i) (h2 : thu.pc.holds = some i) : t = u := by
  have a := (hI.lk i t).mpr ⟨th, ht, h1⟩
  have b := (hI.lk i u).mpr ⟨thu, hu, h2⟩
  rw [a] at b; exact Option.some.inj b

/-- If a thread holding the shard lock of `b` is not itself undoing, nobody is undoing on `b`. -/
theorem Inv.no_undo {cfg : Cfg V} {s : State V} (hI : Inv cfg home s) {t : Tid} {th : Thread V}
    (ht : s.threads[t]? = some th) {b : Addr}
    (hh : th.pc.holds = some (home b)) (hn : b ∉ th.pc.undoing) : U s b = 0 := by
  rcases Nat.eq_zero_or_pos (U s b) with h | h
  · exact h
  · obtain ⟨u, thu, hu, hb⟩ := (count_flatMap_pos _ b s.threads).mp h
    have hb0 := hb
    have hi := (hI.th u thu hu).pc
    cases hpu : thu.pc <;> simp [hpu, Pc.undoing] at hb
    rename_i c sh r
    subst hb
    rw [hpu] at hi
    obtain ⟨_, _, h2⟩ := hi
    have : t = u := hI.excl ht hu hh (by rw [hpu, h2]; rfl)
    subst this
    rw [ht] at hu; cases hu
    exact absurd hb0 hn

/-- If the thread is undoing on `b`, the transient increment is the only one. -/
theorem Inv.one_undo {cfg : Cfg V} {s : State V} (hI : Inv cfg home s) {t : Tid} {th : Thread V}
    (ht : s.threads[t]? = some th) {c : Call V} {sh : Nat} {b : Addr} (hpc : th.pc = .newUndo c sh b) :
    U s b = 1 := by
  have hi := (hI.th t th ht).pc
  rw [hpc] at hi
  obtain ⟨_, _, h2⟩ := hi
  have h1 := undoing_set s.threads ({} : Thread V) ht b
  have h0 : ((s.threads.set t {}).flatMap (fun th => th.pc.undoing)).count b = 0 := by
    rcases Nat.eq_zero_or_pos (((s.threads.set t {}).flatMap (fun th => th.pc.undoing)).count b) with h | h
    · exact h
    · obtain ⟨u, thu, hu, hb⟩ := (count_flatMap_pos _ b _).mp h
      rw [set_getElem? _ _ _ _ _ ht] at hu
      by_cases hut : u = t
      · rw [if_pos hut] at hu; cases hu; simp [Pc.undoing] at hb
      · rw [if_neg hut] at hu
        have hi' := (hI.th u thu hu).pc
        cases hpu : thu.pc <;> simp [hpu, Pc.undoing] at hb
        rename_i c' sh' r
        subst hb
        rw [hpu] at hi'
        obtain ⟨_, _, h2'⟩ := hi'
        have : t = u := hI.excl ht hu (i := home b) (by rw [hpc, h2]; rfl) (by rw [hpu, h2']; rfl)
        exact absurd this.symm hut
  have h2 : th.pc.undoing.count b = 1 := by rw [hpc]; simp [Pc.undoing]
  have h3 : ({} : Thread V).pc.undoing.count b = 0 := by simp [Pc.undoing]
  simp only [U]
  omega

section
variable [BEq V] [Hashable V]

/-- Result of an action in a state satisfying the invariant: never `ub`, and the invariant is kept. -/
def Kept (cfg : Cfg V) (home : Addr → Nat) (r : Res (State V)) : Prop :=
  r ≠ .ub ∧ ∀ s', r = .ok s' → Small cfg s' → Inv cfg home s'

omit [BEq V] [Hashable V] in
theorem kept_ok {cfg : Cfg V} {s' : State V} (h : Small cfg s' → Inv cfg home s') : Kept cfg home (.ok s') :=
  ⟨by simp, fun s'' e hS => by cases e; exact h hS⟩
omit [BEq V] [Hashable V] in
theorem kept_blocked {cfg : Cfg V} : Kept cfg home (.blocked : Res (State V)) := ⟨by simp, fun _ e => by cases e⟩

theorem run_kept {cfg : Cfg V} (hv : cfg.Valid) {s : State V} {t : Tid}
    {th : Thread V} (hI : Inv cfg home s) (ht : s.threads[t]? = some th) (a : Addr) {sh₀ : Nat} {found : Option Addr}
    (hans : ∀ r ∈ found, r ∈ s.table ∧ home r = sh₀ ∧ ∀ b, th.pc = .dropRemove b → r = b) :
    Kept cfg (rehomePc home th.pc) (run sh₀ found cfg s t th a) := by
  have hth := hI.th t th ht
  have hpi := hth.pc
  have hemp := hth.empty
  have hW := hv.W_ge
  unfold run Arc.run
  cases hpc : th.pc with
  | idle =>
    cases htodo : th.todo with
    | cons p ps =>
      simp only
      refine kept_ok fun _ => inv_thread hI ht rfl rfl rfl rfl ?_ ?_ ?_ ?_ (hI.locks_same ht ?_) ⟨?_, ?_⟩
      · intro q
        simp only [Thread.owned, Pc.owned, hpc, htodo, State.setThread, List.count_append, List.count_cons,
          List.count_nil]
        omega
      · simp [Pc.priv, hpc]
      · simp [Pc.undoing, hpc]
      · simp [Pc.removing, hpc]
      · simp [Pc.holds, hpc]
      · exact True.intro
      · simp [Pc.dropping]
    | nil =>
      cases hret : th.ret with
      | none => exact kept_blocked
      | some b =>
        simp only
        refine kept_ok fun _ => inv_thread (th' := {}) hI ht rfl rfl rfl rfl ?_ ?_ ?_ ?_ (hI.locks_same ht ?_) ⟨?_, ?_⟩
        · intro q
          simp only [Thread.owned, Pc.owned, hpc, htodo, hret, List.count_append, List.count_cons,
            List.count_nil, Option.toList]
          omega
        · simp [Pc.priv, hpc]
        · simp [Pc.undoing, hpc]
        · simp [Pc.removing, hpc]
        · simp [Pc.holds, hpc]
        · exact True.intro
        · simp
  | newLoop c =>
    rw [hpc] at hpi hemp
    have hnr := hemp rfl
    simp only
    by_cases hl : (s.locks sh₀).isSome
    · rw [if_pos hl]; exact kept_blocked
    rw [if_neg hl, if_neg (by simp [hI.tableOk])]
    have hfree := isNone_of_not hl
    cases hf : found with
    | some b =>
      refine kept_ok fun _ => inv_thread hI ht rfl rfl rfl rfl ?_ ?_ ?_ ?_
        (hI.locks_acquire ht (by rw [hpc]; rfl) hfree rfl) ⟨?_, ?_⟩
      · intro q; simp [Thread.owned, Pc.owned, hpc, State.setThread, State.lock]
      · simp [Pc.priv, hpc]
      · simp [Pc.undoing, hpc]
      · simp [Pc.removing, hpc]
      · exact ⟨hpi, (hans b hf).1, (hans b hf).2.1⟩
      · intro _; exact hnr
    | none =>
      simp only
      cases hc : c.conv with
      | some b =>
        refine kept_ok fun _ => inv_thread hI ht rfl rfl rfl rfl ?_ ?_ ?_ ?_ (hI.locks_same ht ?_) ⟨?_, ?_⟩
        · intro q
          have hd : c.dst = true := by
            cases hd : c.dst with
            | true => rfl
            | false => have := hpi.2.1 hd; rw [hc] at this; cases this
          simp [Thread.owned, Pc.owned, hpc, State.setThread, hpi.2.2.1 hd]
        · simp [Pc.priv, hpc, hc]
        · simp [Pc.undoing, hpc]
        · simp [Pc.removing, hpc]
        · simp [Pc.holds, hpc]
        · exact ⟨⟨hpi.1, fun _ => rfl, hpi.2.2.1, fun b hb => by cases hb⟩, rfl, hpi.2.2.2 b hc⟩
        · intro _; exact hnr
      | none =>
        refine kept_ok fun _ => inv_thread hI ht rfl rfl rfl rfl ?_ ?_ ?_ ?_ (hI.locks_same ht ?_) ⟨?_, ?_⟩
        · intro q; simp [Thread.owned, Pc.owned, hpc, State.setThread]
        · simp [Pc.priv, hpc, hc]
        · simp [Pc.undoing, hpc]
        · simp [Pc.removing, hpc]
        · simp [Pc.holds, hpc]
        · exact ⟨hpi, hc⟩
        · intro _; exact hnr
  | newFound c sh b =>
    rw [hpc] at hpi hemp
    have hnr := hemp rfl
    obtain ⟨hcall, hmem, hsh⟩ := hpi
    obtain ⟨x, hx⟩ := exists_get (hI.mem_keys hmem)
    have hTb : 0 < T s b := List.count_pos_iff.mpr hmem
    have hU0 : U s b = 0 := hI.no_undo ht (by rw [hpc, hsh]; rfl) (by simp [hpc, Pc.undoing])
    have hcnt := hI.cnt b x hTb hx
    have hpend := hI.pend b
    have hsm := hI.small_count b
    have hconv : ∀ r, c.conv = some r → r ≠ b := by
      rintro r hr rfl
      exact hI.not_priv hmem ht (by simp [hpc, Pc.priv, hr])
    simp only [hx]
    by_cases hc : x.count ≠ 0
    · rw [if_pos hc]
      refine kept_ok fun hS => ?_
      refine inv_count (b := b) (n := cfg.inc x.count) hI ht hmem rfl rfl rfl rfl ?_ ?_ ?_ ?_ (A cfg s b + 1) 0 (R s b) ?_ ?_ ?_ ?_ ?_ ?_ (hI.locks_same ht ?_) hS ⟨?_, ?_⟩
      · intro q hq
        simp [Thread.owned, Pc.owned, hpc, State.setThread, List.count_cons, Ne.symm hq]
      · simp [Pc.priv, hpc]
      · simp [Pc.undoing, hpc]
      · simp [Pc.removing, hpc]
      · simp only [Thread.owned, Pc.owned, hpc, State.setThread, List.count_append, List.count_cons_self, List.count_nil] <;> omega
      · simp only [Pc.undoing, hpc, List.count_cons_self, List.count_nil] <;> omega
      · simp only [Pc.removing, hpc, List.count_cons_self, List.count_nil] <;> omega
      · intro _; rw [inc_eq (by omega)]; omega
      · split at hpend <;> split <;> omega
      · omega
      · simp [Pc.holds, hpc]
      · refine ⟨callOk_frame (s := s) ?_ hcall, hmem, hsh⟩
        intro r hr; simp only [State.setThread]; rw [get_setCount, if_neg (hconv r hr)]
      · intro _; exact hnr
    · rw [if_neg hc]
      have hc0 : x.count = 0 := by omega
      refine kept_ok fun hS => ?_
      refine inv_count (b := b) (n := cfg.inc x.count) hI ht hmem rfl rfl rfl rfl ?_ ?_ ?_ ?_ (A cfg s b) 1 (R s b) ?_ ?_ ?_ ?_ ?_ ?_ (hI.locks_same ht ?_) hS ⟨?_, ?_⟩
      · intro q hq
        simp [Thread.owned, Pc.owned, hpc, State.setThread]
      · simp [Pc.priv, hpc]
      · intro q hq; simp [Pc.undoing, hpc, Ne.symm hq]
      · simp [Pc.removing, hpc]
      · simp only [Thread.owned, Pc.owned, hpc, State.setThread, List.count_append, List.count_cons_self, List.count_nil] <;> omega
      · simp only [Pc.undoing, hpc, List.count_cons_self, List.count_nil] <;> omega
      · simp only [Pc.removing, hpc, List.count_cons_self, List.count_nil] <;> omega
      · intro _; rw [inc_eq (by omega)]; omega
      · split at hpend <;> split <;> omega
      · omega
      · simp [Pc.holds, hpc]
      · refine ⟨callOk_frame (s := s) ?_ hcall, hmem, hsh⟩
        intro r hr; simp only [State.setThread]; rw [get_setCount, if_neg (hconv r hr)]
      · intro _; exact hnr
  | newUndo c sh b =>
    have hU1 := hI.one_undo ht hpc
    rw [hpc] at hpi hemp
    have hnr := hemp rfl
    obtain ⟨hcall, hmem, hsh⟩ := hpi
    obtain ⟨x, hx⟩ := exists_get (hI.mem_keys hmem)
    have hTb : 0 < T s b := List.count_pos_iff.mpr hmem
    have hcnt := hI.cnt b x hTb hx
    have hpend := hI.pend b
    have hA0 := (hI.undo b (by omega)).2
    have hconv : ∀ r, c.conv = some r → r ≠ b := by
      rintro r hr rfl
      exact hI.not_priv hmem ht (by simp [hpc, Pc.priv, hr])
    simp only [hx]
    have one : [b].count b = 1 := by simp
    refine kept_ok fun hS => ?_
    refine inv_count (b := b) (n := cfg.dec x.count) hI ht hmem rfl rfl rfl rfl ?_ ?_ ?_ ?_ (A cfg s b) 0 (R s b) ?_ ?_ ?_ ?_ ?_ ?_ (hI.locks_same ht ?_) hS ⟨?_, ?_⟩
    · intro q hq
      simp [Thread.owned, Pc.owned, hpc, State.setThread]
    · simp [Pc.priv, hpc]
    · intro q hq; simp [Pc.undoing, hpc, Ne.symm hq]
    · simp [Pc.removing, hpc]
    · simp only [Thread.owned, Pc.owned, hpc, State.setThread, List.count_append, List.count_cons_self, List.count_nil] <;> omega
    · simp only [Pc.undoing, hpc, List.count_cons_self, List.count_nil] <;> omega
    · simp only [Pc.removing, hpc, List.count_cons_self, List.count_nil] <;> omega
    · intro _; rw [dec_eq (by omega) (by omega)]; omega
    · split at hpend <;> split <;> omega
    · omega
    · simp [Pc.holds, hpc]
    · refine callOk_frame (s := s) ?_ hcall
      intro r hr; simp only [State.setThread]; rw [get_setCount, if_neg (hconv r hr)]
    · intro _; exact hnr
  | newRelease c sh =>
    rw [hpc] at hpi hemp
    have hnr := hemp rfl
    refine kept_ok fun _ => inv_thread hI ht rfl rfl rfl rfl ?_ ?_ ?_ ?_
        (hI.locks_release ht (by rw [hpc]; rfl) rfl) ⟨?_, ?_⟩
    · intro q; simp [Thread.owned, Pc.owned, hpc, State.setThread, State.unlock]
    · simp [Pc.priv, hpc]
    · simp [Pc.undoing, hpc]
    · simp [Pc.removing, hpc]
    · exact hpi
    · intro _; exact hnr
  | newHit c sh b =>
    rw [hpc] at hpi hemp
    have hnr := hemp rfl
    refine kept_ok fun _ => inv_thread hI ht rfl rfl rfl rfl ?_ ?_ ?_ ?_
        (hI.locks_release ht (by rw [hpc]; rfl) ?_) ⟨?_, ?_⟩
    · intro q
      have ho : (unwindCall cfg c (some b) th.arg).pc.owned cfg = [] := by
        unfold unwindCall; cases c.conv <;> rfl
      simp only [Thread.owned, ho]
      simp only [unwindCall, Pc.owned, hpc, hnr, State.setThread, State.unlock, List.count_append, List.count_cons,
        List.count_nil, Option.toList]
      omega
    · unfold unwindCall; cases hcv : c.conv <;> simp [Pc.priv, hpc, hcv]
    · unfold unwindCall; cases hcv : c.conv <;> simp [Pc.undoing, hpc]
    · unfold unwindCall; cases hcv : c.conv <;> simp [Pc.removing, hpc]
    · unfold unwindCall; cases hcv : c.conv <;> simp [Pc.holds]
    · unfold unwindCall; cases hcv : c.conv <;> exact True.intro
    · unfold unwindCall; cases hcv : c.conv <;> simp [Pc.dropping]
  | newAlloc c =>
    simp only
    by_cases ha : a = 0 ∨ a ∈ keys s.heap
    · rw [if_pos ha]; exact kept_blocked
    · rw [if_neg ha]
      simp only [not_or] at ha
      exact kept_ok fun _ => inv_alloc hI ht hpc ha.1 ha.2
  | newEntry c b =>
    rw [hpc] at hpi hemp
    have hnr := hemp rfl
    obtain ⟨hcall, hconv, hgb⟩ := hpi
    simp only [hgb]
    by_cases hl : (s.locks sh₀).isSome
    · rw [if_pos hl]; exact kept_blocked
    rw [if_neg hl, if_neg (by simp [hI.tableOk])]
    have hfree := isNone_of_not hl
    cases hf : found with
    | some r =>
      refine kept_ok fun _ => inv_thread hI ht rfl rfl rfl rfl ?_ ?_ ?_ ?_
        (hI.locks_acquire ht (by rw [hpc]; rfl) hfree rfl) ⟨?_, ?_⟩
      · intro q; simp [Thread.owned, Pc.owned, hpc, State.setThread, State.lock]
      · simp [Pc.priv, hpc]
      · simp [Pc.undoing, hpc]
      · simp [Pc.removing, hpc]
      · exact ⟨hcall, hconv, hgb⟩
      · intro _; exact hnr
    | none =>
      refine kept_ok fun _ => inv_thread hI ht rfl rfl rfl rfl ?_ ?_ ?_ ?_
        (hI.locks_acquire ht (by rw [hpc]; rfl) hfree rfl) ⟨?_, ?_⟩
      · intro q; simp [Thread.owned, Pc.owned, hpc, State.setThread, State.lock]
      · simp [Pc.priv, hpc]
      · simp [Pc.undoing, hpc]
      · simp [Pc.removing, hpc]
      · exact ⟨hcall, hconv, hgb⟩
      · intro _; exact hnr
  | newVacant c sh b =>
    exact kept_ok fun hS => inv_insert hI ht hpc hS
  | newInserted c sh b =>
    rw [hpc] at hpi hemp
    have hnr := hemp rfl
    refine kept_ok fun _ => inv_thread hI ht rfl rfl rfl rfl ?_ ?_ ?_ ?_
        (hI.locks_release ht (by rw [hpc]; rfl) rfl) ⟨?_, ?_⟩
    · intro q
      simp only [Thread.owned, Pc.owned, hpc, hnr, State.setThread, State.unlock, List.count_append,
        List.count_nil, Option.toList]
      omega
    · simp [Pc.priv, hpc]
    · simp [Pc.undoing, hpc]
    · simp [Pc.removing, hpc]
    · exact True.intro
    · simp [Pc.dropping]
  | newOccupied c sh b =>
    rw [hpc] at hpi hemp
    have hnr := hemp rfl
    obtain ⟨hcall, hconv, hgb⟩ := hpi
    simp only
    cases hd : c.dst with
    | true =>
      refine kept_ok fun _ => inv_thread hI ht rfl rfl rfl rfl ?_ ?_ ?_ ?_
        (hI.locks_release ht (by rw [hpc]; rfl) rfl) ⟨?_, ?_⟩
      · intro q; simp [Thread.owned, Pc.owned, hpc, State.setThread, State.unlock, hcall.2.2.1 hd]
      · simp [Pc.priv, hpc]
      · simp [Pc.undoing, hpc]
      · simp [Pc.removing, hpc]
      · refine ⟨hcall.1, fun h => (by cases h), fun _ => hcall.2.2.1 hd, ?_⟩
        · intro r hr; simp only [Option.some.injEq] at hr; subst hr; exact hgb
      · intro _; exact hnr
    | false =>
      refine kept_ok fun _ => inv_thread hI ht rfl rfl rfl rfl ?_ ?_ ?_ ?_
        (hI.locks_release ht (by rw [hpc]; rfl) rfl) ⟨?_, ?_⟩
      · intro q; simp [Thread.owned, Pc.owned, hpc, State.setThread, State.unlock]
      · simp [Pc.priv, hpc]
      · simp [Pc.undoing, hpc]
      · simp [Pc.removing, hpc]
      · exact ⟨hcall, hconv, hd, hgb⟩
      · intro _; exact hnr
  | newUnbox c b =>
    rw [hpc] at hpi hemp
    have hnr := hemp rfl
    obtain ⟨hcall, hconv, hd, hgb⟩ := hpi
    simp only [hgb]
    refine kept_ok fun _ => inv_free hI ht hgb rfl rfl rfl rfl rfl rfl ?_ ?_ ?_ ?_ ?_ ?_ ?_ ⟨?_, ?_⟩
    · simp [Pc.priv, hpc]
    · simp [Pc.priv, hconv]
    · intro q; simp [Thread.owned, Pc.owned, hpc]; omega
    · simp [Pc.undoing, hpc]
    · simp [Pc.removing, hpc]
    · simp [Pc.holds, hpc]
    · simp [Pc.holds]
    · refine ⟨hcall.1, hcall.2.1, hcall.2.2.1, ?_⟩
      intro r hr; simp only at hr; rw [hconv] at hr; cases hr
    · intro _; exact hnr
  | dropSub b =>
    have hAb : 0 < A cfg s b := mem_owned_A ht (by simp [Thread.owned, hpc, Pc.owned])
    have hTb := hI.live b hAb
    have hmem : b ∈ s.table := List.count_pos_iff.mp hTb
    obtain ⟨x, hx⟩ := hI.deref hAb
    have hU0 : U s b = 0 := by have := hI.undo b; omega
    have hcnt := hI.cnt b x hTb hx
    have hpend := hI.pend b
    have hsm := hI.small_count b
    have one : [b].count b = 1 := by simp
    simp only [hx]
    by_cases hc : x.count = 1
    · rw [if_pos hc]
      refine kept_ok fun hS => ?_
      refine inv_count (b := b) (n := cfg.dec x.count) hI ht hmem rfl rfl rfl rfl ?_ ?_ ?_ ?_ (A cfg s b - 1) 0 (R s b + 1) ?_ ?_ ?_ ?_ ?_ ?_ (hI.locks_same ht ?_) hS ⟨?_, ?_⟩
      · intro q hq
        simp [Thread.owned, Pc.owned, hpc, State.setThread, List.count_cons, Ne.symm hq]
      · simp [Pc.priv, hpc]
      · simp [Pc.undoing, hpc]
      · intro q hq; simp [Pc.removing, hpc, Ne.symm hq]
      · simp only [Thread.owned, Pc.owned, hpc, State.setThread, List.count_append, List.count_cons_self, List.count_nil] <;> omega
      · simp only [Pc.undoing, hpc, List.count_cons_self, List.count_nil] <;> omega
      · simp only [Pc.removing, hpc, List.count_cons_self, List.count_nil] <;> omega
      · intro _; rw [dec_eq (by omega) (by omega)]; omega
      · split at hpend <;> split <;> omega
      · omega
      · simp [Pc.holds, hpc]
      · exact True.intro
      · simp [Pc.dropping]
    · rw [if_neg hc]
      refine kept_ok fun hS => ?_
      refine inv_count (b := b) (n := cfg.dec x.count) hI ht hmem rfl rfl rfl rfl ?_ ?_ ?_ ?_ (A cfg s b - 1) 0 (R s b) ?_ ?_ ?_ ?_ ?_ ?_ (hI.locks_same ht ?_) hS ⟨?_, ?_⟩
      · intro q hq
        simp [Thread.owned, Pc.owned, hpc, State.setThread, List.count_cons, Ne.symm hq]
      · simp [Pc.priv, hpc]
      · simp [Pc.undoing, hpc]
      · simp [Pc.removing, hpc]
      · simp only [Thread.owned, Pc.owned, hpc, State.setThread, List.count_append, List.count_cons_self, List.count_nil] <;> omega
      · simp only [Pc.undoing, hpc, List.count_cons_self, List.count_nil] <;> omega
      · simp only [Pc.removing, hpc, List.count_cons_self, List.count_nil] <;> omega
      · intro _; rw [dec_eq (by omega) (by omega)]; omega
      · split at hpend <;> split <;> omega
      · omega
      · simp [Pc.holds, hpc]
      · exact True.intro
      · simp [Pc.dropping]
  | dropRemove b =>
    have hRb : 0 < R s b := (count_flatMap_pos _ b s.threads).mpr ⟨t, th, ht, by simp [hpc, Pc.removing]⟩
    have hpend := hI.pend b
    have hTA : 0 < T s b ∧ A cfg s b = 0 := by
      by_cases h : 0 < T s b ∧ A cfg s b = 0
      · exact h
      · rw [if_neg h] at hpend; omega
    have hmem : b ∈ s.table := List.count_pos_iff.mp hTA.1
    obtain ⟨x, hx⟩ := exists_get (hI.mem_keys hmem)
    simp only [hx]
    by_cases hl : (s.locks sh₀).isSome
    · rw [if_pos hl]; exact kept_blocked
    rw [if_neg hl, if_neg (by simp [hI.tableOk])]
    have hfree := isNone_of_not hl
    cases hf : found with
    | none => exact kept_ok fun _ => inv_lost hI ht hpc
    | some r =>
      obtain ⟨h1, h2, h3⟩ := hans r hf
      have h4 : r = b := h3 b hpc
      subst h4
      exact kept_ok fun _ => inv_erase hI ht hpc (by rw [h2]; exact hfree)
  | dropFree b =>
    have hPb : 0 < P s b := mem_priv_P ht (by simp [hpc, Pc.priv])
    obtain ⟨x, hx⟩ : ∃ x, get s.heap b = some x := by
      apply exists_get
      have := hI.split b
      exact List.count_pos_iff.mp (by simp only [K] at this; omega)
    simp only [hx]
    refine kept_ok fun _ => inv_free hI ht hx rfl rfl rfl rfl rfl rfl ?_ ?_ ?_ ?_ ?_ ?_ ?_ ⟨?_, ?_⟩
    · simp [Pc.priv, hpc]
    · simp [Pc.priv]
    · intro q; simp [Thread.owned, Pc.owned, hpc]; omega
    · simp [Pc.undoing, hpc]
    · simp [Pc.removing, hpc]
    · simp [Pc.holds, hpc]
    · simp [Pc.holds]
    · exact True.intro
    · simp [Pc.dropping]
  | lenScan i m acc =>
    rw [hpc] at hemp
    have hnr := hemp rfl
    simp only
    by_cases hi : i < m
    · rw [if_pos hi]
      by_cases hl : (s.locks i).isSome
      · rw [if_pos hl]; exact kept_blocked
      rw [if_neg hl]
      refine kept_ok fun _ => inv_thread hI ht rfl rfl rfl rfl ?_ ?_ ?_ ?_ (hI.locks_same ht ?_) ⟨?_, ?_⟩
      · intro q; simp [Thread.owned, Pc.owned, hpc, State.setThread]
      · simp [Pc.priv, hpc]
      · simp [Pc.undoing, hpc]
      · simp [Pc.removing, hpc]
      · simp [Pc.holds, hpc]
      · exact True.intro
      · intro _; exact hnr
    · rw [if_neg hi]
      refine kept_ok fun _ => inv_thread hI ht rfl rfl rfl rfl ?_ ?_ ?_ ?_ (hI.locks_same ht ?_) ⟨?_, ?_⟩
      · intro q; simp [Thread.owned, Pc.owned, hpc, State.setThread]
      · simp [Pc.priv, hpc]
      · simp [Pc.undoing, hpc]
      · simp [Pc.removing, hpc]
      · simp [Pc.holds, hpc]
      · exact True.intro
      · intro _; exact hnr
  | lenDone n =>
    rw [hpc] at hemp
    have hnr := hemp rfl
    refine kept_ok fun _ => inv_thread hI ht rfl rfl rfl rfl ?_ ?_ ?_ ?_ (hI.locks_same ht ?_) ⟨?_, ?_⟩
    · intro q; simp [Thread.owned, Pc.owned, hpc, State.setThread]
    · simp [Pc.priv, hpc]
    · simp [Pc.undoing, hpc]
    · simp [Pc.removing, hpc]
    · simp [Pc.holds, hpc]
    · exact True.intro
    · intro _; exact hnr
  | shrinkScan i m =>
    rw [hpc] at hemp
    have hnr := hemp rfl
    simp only
    by_cases hi : i < m
    · rw [if_pos hi]
      by_cases hl : (s.locks i).isSome
      · rw [if_pos hl]; exact kept_blocked
      rw [if_neg hl]
      refine kept_ok fun _ => inv_thread hI ht rfl rfl rfl rfl ?_ ?_ ?_ ?_ (hI.locks_same ht ?_) ⟨?_, ?_⟩
      · intro q; simp [Thread.owned, Pc.owned, hpc, State.setThread]
      · simp [Pc.priv, hpc]
      · simp [Pc.undoing, hpc]
      · simp [Pc.removing, hpc]
      · simp [Pc.holds, hpc]
      · exact True.intro
      · intro _; exact hnr
    · rw [if_neg hi]
      refine kept_ok fun _ => inv_thread hI ht rfl rfl rfl rfl ?_ ?_ ?_ ?_ (hI.locks_same ht ?_) ⟨?_, ?_⟩
      · intro q; simp [Thread.owned, Pc.owned, hpc, State.setThread]
      · simp [Pc.priv, hpc]
      · simp [Pc.undoing, hpc]
      · simp [Pc.removing, hpc]
      · simp [Pc.holds, hpc]
      · exact True.intro
      · intro _; exact hnr

theorem runPanic_kept {cfg : Cfg V} {s : State V} {t : Tid}
    {th : Thread V} (hI : Inv cfg home s) (ht : s.threads[t]? = some th) :
    Kept cfg home (runPanic cfg s t th) := by
  have hth := hI.th t th ht
  have hpi := hth.pc
  have hemp := hth.empty
  unfold runPanic
  cases hpc : th.pc <;> simp only <;> try exact kept_blocked
  case newLoop c =>
    rw [hpc] at hpi hemp
    have hnr := hemp rfl
    refine kept_ok fun _ => inv_thread hI ht rfl rfl rfl rfl ?_ ?_ ?_ ?_ (hI.locks_same ht ?_) ⟨?_, ?_⟩
    · intro q
      have ho : (unwindCall cfg c none none).pc.owned cfg = [] := by
        unfold unwindCall; cases c.conv <;> rfl
      simp only [Thread.owned, ho]
      simp [unwindCall, Pc.owned, hpc, hnr, State.setThread]
    · unfold unwindCall; cases hcv : c.conv <;> simp [Pc.priv, hpc, hcv]
    · unfold unwindCall; cases hcv : c.conv <;> simp [Pc.undoing, hpc]
    · unfold unwindCall; cases hcv : c.conv <;> simp [Pc.removing, hpc]
    · unfold unwindCall; cases hcv : c.conv <;> simp [Pc.holds, hpc]
    · unfold unwindCall; cases hcv : c.conv <;> exact True.intro
    · unfold unwindCall; cases hcv : c.conv <;> simp [Pc.dropping]
  case newEntry c b =>
    rw [hpc] at hpi hemp
    have hnr := hemp rfl
    refine kept_ok fun _ => inv_thread (th' := { pc := .dropFree b }) hI ht rfl rfl rfl rfl ?_ ?_ ?_ ?_ (hI.locks_same ht ?_) ⟨?_, ?_⟩
    · intro q; simp [Thread.owned, Pc.owned, hpc, hnr, State.setThread]
    · simp [Pc.priv, hpc]
    · simp [Pc.undoing, hpc]
    · simp [Pc.removing, hpc]
    · simp [Pc.holds, hpc]
    · exact True.intro
    · simp
  case dropRemove b => exact kept_ok fun _ => inv_zombie hI ht hpc
  case shrinkScan i m =>
    rw [hpc] at hemp
    have hnr := hemp rfl
    split
    · refine kept_ok fun _ => inv_thread hI ht rfl rfl rfl rfl ?_ ?_ ?_ ?_ (hI.locks_same ht ?_) ⟨?_, ?_⟩
      · intro q; simp [Thread.owned, Pc.owned, hpc, State.setThread]
      · simp [Pc.priv, hpc]
      · simp [Pc.undoing, hpc]
      · simp [Pc.removing, hpc]
      · simp [Pc.holds, hpc]
      · exact True.intro
      · intro _; exact hnr
    · exact kept_blocked

theorem step_kept {cfg : Cfg V} (hv : cfg.Valid) {s : State V}
    (hI : Inv cfg home s) {act : Act V} (hs : act.Sane) {sh₀ : Nat} {found : Option Addr}
    (hans : Answer home s sh₀ found act) : Kept cfg (rehome home s act) (step sh₀ found cfg s act) := by
  cases act <;> simp only [step, Arc.step, rehome]
  case spawn => exact kept_ok fun _ => inv_spawn hI
  case panicInsert => exact absurd hs (by simp [Act.Sane])
  case run t a =>
    cases ht : s.threads[t]? with
    | none => exact kept_blocked
    | some th => exact run_kept hv hI ht a (hans th ht)
  case panic t =>
    cases ht : s.threads[t]? with
    | none => exact kept_blocked
    | some th => exact runPanic_kept hI ht
  case read t path =>
    cases ht : s.threads[t]? with
    | none => exact kept_blocked
    | some th =>
      have hb := borrow_ok hI path
      simp only
      split
      · cases hp : borrow cfg s path with
        | ok q => exact kept_ok fun _ => hI
        | blocked => exact kept_blocked
        | ub => exact absurd hp hb.1
      · exact kept_blocked
  case clone t path =>
    cases ht : s.threads[t]? with
    | none => exact kept_blocked
    | some th =>
      have hb := borrow_ok hI path
      simp only
      split
      · cases hp : borrow cfg s path with
        | blocked => exact kept_blocked
        | ub => exact absurd hp hb.1
        | ok b =>
          have hAb := hb.2 b hp
          have hTb := hI.live b hAb
          have hmem : b ∈ s.table := List.count_pos_iff.mp hTb
          obtain ⟨x, hx⟩ := hI.deref hAb
          have hU0 : U s b = 0 := by have := hI.undo b; omega
          have hcnt := hI.cnt b x hTb hx
          have hpend := hI.pend b
          simp only [hx]
          have hset : s.threads.set t th = s.threads := by
            apply List.ext_getElem?
            intro i; rw [set_getElem? _ _ _ _ _ ht]; split
            · subst_vars; exact ht.symm
            · rfl
          refine kept_ok fun hS => ?_
          refine inv_count (b := b) (n := cfg.inc x.count) (th' := th) hI ht hmem rfl rfl rfl hset.symm ?_ ?_ ?_ ?_ (A cfg s b + 1) 0 (R s b) ?_ ?_ ?_ ?_ ?_ ?_ (hI.locks_same ht rfl) hS ?_
          · intro q hq; simp [List.count_cons, Ne.symm hq]
          · simp
          · simp
          · simp
          · simp only [Thread.owned, Pc.owned, State.setThread, List.count_append, List.count_cons_self, List.count_nil] <;> omega
          · simp only [Pc.undoing, List.count_cons_self, List.count_nil] <;> omega
          · simp only [Pc.removing, List.count_cons_self, List.count_nil] <;> omega
          · intro _; rw [inc_eq (by omega)]; omega
          · split at hpend <;> split <;> omega
          · omega
          · have h0 := hI.th t th ht
            refine ⟨?_, h0.empty⟩
            refine PcInv_frame (home := home) (s := s) ⟨?_, ?_⟩ h0.pc
            · intro p hpp
              simp only; rw [get_setCount, if_neg]
              rintro rfl; exact hI.not_priv hmem ht hpp
            · intro sh _ p hp h; exact ⟨hp, h⟩
      · exact kept_blocked
  case new t v dst =>
    cases ht : s.threads[t]? with
    | none => exact kept_blocked
    | some th =>
      simp only
      by_cases hc : (th.isIdle && ownsAll s.handles (cfg.kids v) && (!dst || (cfg.kids v).isEmpty)) = true
      · rw [if_pos hc]
        simp only [Bool.and_eq_true] at hc
        obtain ⟨⟨h1, h2⟩, h3⟩ := hc
        rw [isIdle_iff] at h1
        rw [ownsAll_iff] at h2
        refine kept_ok fun _ => inv_thread (th' := { pc := .newLoop { val := v, dst := dst, conv := none }, arg := some v }) hI ht rfl rfl rfl rfl ?_ ?_ ?_ ?_ (hI.locks_same ht ?_) ⟨?_, ?_⟩
        · intro q
          have := h2 q
          simp [Thread.owned, Pc.owned, h1, count_eraseAll]; omega
        · simp [Pc.priv, h1]
        · simp [Pc.undoing, h1]
        · simp [Pc.removing, h1]
        · simp [Pc.holds, h1]
        · refine ⟨rfl, fun _ => rfl, ?_, fun b hb => by cases hb⟩
          intro hd; simp only at hd; subst hd; simpa using h3
        · simp
      · rw [if_neg hc]; exact kept_blocked
  case drop t p =>
    cases ht : s.threads[t]? with
    | none => exact kept_blocked
    | some th =>
      simp only
      by_cases hc : (th.isIdle && decide (p ∈ s.handles)) = true
      · rw [if_pos hc]
        simp only [Bool.and_eq_true, decide_eq_true_eq] at hc
        obtain ⟨h1, h2⟩ := hc
        rw [isIdle_iff] at h1
        refine kept_ok fun _ => inv_thread (th' := { pc := .dropSub p }) hI ht rfl rfl rfl rfl ?_ ?_ ?_ ?_ (hI.locks_same ht ?_) ⟨?_, ?_⟩
        · intro q
          have : 0 < s.handles.count p := List.count_pos_iff.mpr h2
          simp only [Thread.owned, Pc.owned, h1, count_erase', List.count_append, List.count_nil, Option.toList,
            List.count_cons, beq_iff_eq]
          split
          · subst_vars; omega
          · omega
        · simp [Pc.priv, h1]
        · simp [Pc.undoing, h1]
        · simp [Pc.removing, h1]
        · simp [Pc.holds, h1]
        · exact True.intro
        · simp
      · rw [if_neg hc]; exact kept_blocked
  case len t lo up =>
    cases ht : s.threads[t]? with
    | none => exact kept_blocked
    | some th =>
      simp only
      by_cases hc : th.isIdle = true
      · rw [if_pos hc]
        rw [isIdle_iff] at hc
        refine kept_ok fun _ => inv_thread (th' := { pc := .lenScan lo up 0 }) hI ht rfl rfl rfl rfl ?_ ?_ ?_ ?_ (hI.locks_same ht ?_) ⟨?_, ?_⟩
        · intro q; simp [Thread.owned, Pc.owned, hc, State.setThread]
        · simp [Pc.priv, hc]
        · simp [Pc.undoing, hc]
        · simp [Pc.removing, hc]
        · simp [Pc.holds, hc]
        · exact True.intro
        · simp
      · rw [if_neg hc]; exact kept_blocked
  case shrink t lo up =>
    cases ht : s.threads[t]? with
    | none => exact kept_blocked
    | some th =>
      simp only
      by_cases hc : th.isIdle = true
      · rw [if_pos hc]
        rw [isIdle_iff] at hc
        refine kept_ok fun _ => inv_thread (th' := { pc := .shrinkScan lo up }) hI ht rfl rfl rfl rfl ?_ ?_ ?_ ?_ (hI.locks_same ht ?_) ⟨?_, ?_⟩
        · intro q; simp [Thread.owned, Pc.owned, hc, State.setThread]
        · simp [Pc.priv, hc]
        · simp [Pc.undoing, hc]
        · simp [Pc.removing, hc]
        · simp [Pc.holds, hc]
        · exact True.intro
        · simp
      · rw [if_neg hc]; exact kept_blocked


end

theorem keys_setData (h : List (Addr × Cell V)) (a : Addr) (v : V) : keys (setData h a v) = keys h := by
  simp only [keys, setData, List.map_map]
  apply List.map_congr_left
  intro e _
  simp only [Function.comp]
  split <;> rfl

theorem get_setData (h : List (Addr × Cell V)) (a : Addr) (v : V) (b : Addr) :
    get (setData h a v) b = if b = a then (get h b).map (fun c => { c with data := v }) else get h b := by
  induction h with
  | nil => simp [setData, get]
  | cons e h ih =>
    obtain ⟨x, c⟩ := e
    simp only [setData, List.map_cons] at ih ⊢
    by_cases hxa : x = a
    · subst hxa
      by_cases hb : b = x
      · subst hb; simp [get]
      · simp only [if_true, get, if_neg (Ne.symm hb), if_neg hb] at ih ⊢; exact ih
    · by_cases hb : x = b
      · subst hb; simp [get, hxa]
      · simp only [if_neg hxa, get, if_neg hb]; exact ih

/-- Changing the data of an object that a client can reach, but not the handles in it. -/
theorem inv_store {cfg : Cfg V} {s : State V} (hI : Inv cfg home s) {p : Addr} {x : Cell V} {v : V} (hA : 0 < A cfg s p)
    (hx : get s.heap p = some x) (hk : cfg.kids v = cfg.kids x.data) :
    Inv cfg home { s with heap := setData s.heap p v } := by
  have hTp : 0 < T s p := hI.live p hA
  have hmem : p ∈ s.table := List.count_pos_iff.mp hTp
  have same : ∀ e ∈ s.heap, e.1 = p → cfg.kids v = cfg.kids e.2.data := by
    intro e he hep
    have := get_of_mem_nodup he hI.nd
    rw [hep, hx] at this
    injection this with this
    rw [hk, this]
  have hst : storedHandles cfg (setData s.heap p v) = storedHandles cfg s.heap := by
    simp only [storedHandles, setData, List.flatMap_map, List.flatMap_def]
    congr 1
    rw [List.map_map]
    apply List.map_congr_left
    intro e he
    simp only [Function.comp]
    split
    · rename_i h; exact same e he h
    · rfl
  have eA : ∀ q, A cfg { s with heap := setData s.heap p v } q = A cfg s q := by
    intro q; rw [A_eq, A_eq, hst]
  have eK : ∀ q, K { s with heap := setData s.heap p v } q = K s q := fun q => by simp only [K, keys_setData]
  refine ⟨?_, ?_, ?_, ?_, ?_, ?_, hI.lk, ?_, ?_, ?_, ?_, ?_⟩
  · intro b; rw [eK]; exact hI.nd b
  · intro b; rw [eK]; exact hI.split b
  · intro q; rw [eA]; exact hI.live q
  · intro b y hb hy
    rw [eA]
    simp only [get_setData] at hy
    split at hy
    · rename_i e; subst e
      rw [hx] at hy
      injection hy with hy
      subst hy
      exact hI.cnt b x hb hx
    · exact hI.cnt b y hb hy
  · intro b; rw [eA]; exact hI.pend b
  · intro b; rw [eA]; exact hI.undo b
  · intro t th ht
    have h0 := hI.th t th ht
    refine ⟨PcInv_frame (s := s) ⟨?_, fun _ _ _ hb h => ⟨hb, h⟩⟩ h0.pc, h0.empty⟩
    intro b hb
    simp only [get_setData]
    rw [if_neg]
    rintro rfl
    exact hI.not_priv hmem ht hb
  · show (setData s.heap p v).Pairwise _
    rw [setData, List.pairwise_map]
    refine hI.ord.imp_of_mem ?_
    intro y z hy hz h
    have h1 : ∀ e : Addr × Cell V, (if e.1 = p then (e.1, { e.2 with data := v }) else e).1 = e.1 := by
      intro e; split <;> rfl
    rw [h1]
    split
    · rename_i e; rw [show (z.1, ({ z.2 with data := v } : Cell V)).2.data = v from rfl, same z hz e]; exact h
    · exact h
  · intro e he
    simp only [setData, List.mem_map] at he
    obtain ⟨z, hz, rfl⟩ := he
    have h := hI.self z hz
    split
    · rename_i e; rw [show (z.1, ({ z.2 with data := v } : Cell V)).2.data = v from rfl, same z hz e]; exact h
    · exact h
  · rw [eK]; exact hI.null
  · intro q; have := hI.small q; have := eA q; simp only [A] at *; omega

theorem Reach.inv [BEq V] [Hashable V] {cfg : Cfg V} (hv : cfg.Valid) {s : State V} (h : Reach cfg home s) :
    Inv cfg home s := by
  induction h with
  | init => exact init_inv hv
  | step _ hs ha he hS ih => exact (step_kept hv ih hs ha).2 _ he hS
  | store _ hb hx hk ih => exact inv_store ih ((borrow_ok ih _).2 _ hb) hx hk

end Arc.Wild
