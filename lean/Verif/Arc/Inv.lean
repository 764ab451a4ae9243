import Verif.Arc.Lemmas
/-! The central invariant of the ArcIntern model and its preservation by every step. -/
namespace Arc
variable {V : Type}

/-- Boxes on which the thread has made a transient increment. -/
def Pc.undoing : Pc V → List Addr
  | .newUndo _ _ b => [b]
  | _ => []

/-- Boxes the thread is committed to removing. -/
def Pc.removing : Pc V → List Addr
  | .dropRemove b => [b]
  | _ => []

/-- The shard lock held. -/
def Pc.holds : Pc V → Option Nat
  | .newFound _ sh _ | .newUndo _ sh _ | .newRelease _ sh | .newHit _ sh _
  | .newVacant _ sh _ | .newInserted _ sh _ | .newOccupied _ sh _ => some sh
  | _ => none

/-- Program counters at which a thread may have pending drops or a pending result. -/
def Pc.dropping : Pc V → Bool
  | .idle | .dropSub _ | .dropRemove _ | .dropFree _ => true
  | _ => false

abbrev A (cfg : Cfg V) (s : State V) (p : Addr) : Nat := (allHandles cfg s).count p
abbrev T (s : State V) (p : Addr) : Nat := s.table.count p
abbrev K (s : State V) (p : Addr) : Nat := (keys s.heap).count p
abbrev P (s : State V) (p : Addr) : Nat := (s.threads.flatMap (fun th => th.pc.priv)).count p
abbrev U (s : State V) (p : Addr) : Nat := (s.threads.flatMap (fun th => th.pc.undoing)).count p
abbrev R (s : State V) (p : Addr) : Nat := (s.threads.flatMap (fun th => th.pc.removing)).count p
abbrev Z (s : State V) (p : Addr) : Nat := s.zombies.count p

def callOk (cfg : Cfg V) (s : State V) (arg : Option V) (c : Call V) : Prop :=
  arg = some c.val ∧ (c.dst = false → c.conv = none) ∧ (c.dst = true → cfg.kids c.val = []) ∧
  ∀ b, c.conv = some b → get s.heap b = some ⟨1, c.val⟩

def matches' [BEq V] (s : State V) (b : Addr) (v : V) : Prop :=
  b ∈ s.table ∧ ∃ x, get s.heap b = some x ∧ (x.data == v) = true

def PcInv [BEq V] [Hashable V] (cfg : Cfg V) (s : State V) (arg : Option V) : Pc V → Prop
  | .newLoop c => callOk cfg s arg c
  | .newFound c sh b | .newUndo c sh b | .newHit c sh b =>
    callOk cfg s arg c ∧ sh = cfg.shardOf c.val ∧ matches' s b c.val
  | .newRelease c sh => callOk cfg s arg c ∧ sh = cfg.shardOf c.val
  | .newAlloc c => callOk cfg s arg c ∧ c.conv = none
  | .newEntry c b => callOk cfg s arg c ∧ c.conv = none ∧ get s.heap b = some ⟨1, c.val⟩
  | .newVacant c sh b => callOk cfg s arg c ∧ c.conv = none ∧ get s.heap b = some ⟨1, c.val⟩ ∧
      sh = cfg.shardOf c.val ∧
      ∀ r x, r ∈ s.table → get s.heap r = some x → (x.data == c.val) = false
  | .newInserted c sh b => callOk cfg s arg c ∧ c.conv = none ∧ sh = cfg.shardOf c.val ∧ matches' s b c.val
  | .newOccupied c sh b => callOk cfg s arg c ∧ c.conv = none ∧ get s.heap b = some ⟨1, c.val⟩ ∧
      sh = cfg.shardOf c.val
  | .newUnbox c b => callOk cfg s arg c ∧ c.conv = none ∧ c.dst = false ∧
      get s.heap b = some ⟨1, c.val⟩
  | _ => True

structure ThInv [BEq V] [Hashable V] (cfg : Cfg V) (s : State V) (th : Thread V) : Prop where
  pc : PcInv cfg s th.arg th.pc
  empty : th.pc.dropping = false → th.todo = [] ∧ th.ret = none
  ret : ∀ b, th.ret = some b → ∃ v, th.arg = some v ∧ matches' s b v

structure Inv [BEq V] [Hashable V] (cfg : Cfg V) (s : State V) : Prop where
  nd : ∀ b, K s b ≤ 1
  split : ∀ b, K s b = T s b + P s b
  uniq : ∀ b c x y, b ∈ s.table → c ∈ s.table → get s.heap b = some x → get s.heap c = some y →
    (x.data == y.data) = true → b = c
  live : ∀ p, 0 < A cfg s p → 0 < T s p
  cnt : ∀ b x, 0 < T s b → get s.heap b = some x → x.count = A cfg s b + U s b
  pend : ∀ b, R s b + Z s b = if 0 < T s b ∧ A cfg s b = 0 then 1 else 0
  undo : ∀ b, 0 < U s b → 0 < T s b ∧ A cfg s b = 0
  lk : ∀ (i : Nat) (t : Tid), s.locks i = some t ↔ ∃ th, s.threads[t]? = some th ∧ th.pc.holds = some i
  th : ∀ (t : Tid) (th : Thread V), s.threads[t]? = some th → ThInv cfg s th
  ord : s.heap.Pairwise (fun x y => x.1 ∉ cfg.kids y.2.data)
  self : ∀ e ∈ s.heap, e.1 ∉ cfg.kids e.2.data
  null : K s 0 = 0
  small : Small cfg s

theorem init_inv [BEq V] [Hashable V] {cfg : Cfg V} (hv : cfg.Valid) : Inv cfg (init : State V) := by
  constructor <;> simp [init, K, T, P, A, U, R, Z, keys, allHandles, storedHandles, get, Small]
  have := hv.W_ge; omega

/-! ### Counting under a thread update -/

theorem A_eq (cfg : Cfg V) (s : State V) (p : Addr) :
    A cfg s p = s.handles.count p + (s.threads.flatMap (Thread.owned cfg)).count p
      + (storedHandles cfg s.heap).count p := by
  simp [A, allHandles, List.count_append]; omega

theorem owned_set (cfg : Cfg V) (l : List (Thread V)) {t : Tid} {th : Thread V} (th' : Thread V)
    (h : l[t]? = some th) (p : Addr) :
    ((l.set t th').flatMap (Thread.owned cfg)).count p + (th.owned cfg).count p =
    (l.flatMap (Thread.owned cfg)).count p + (th'.owned cfg).count p :=
  count_flatMap_set _ p l t th th' h

theorem priv_set (l : List (Thread V)) {t : Tid} {th : Thread V} (th' : Thread V)
    (h : l[t]? = some th) (p : Addr) :
    ((l.set t th').flatMap (fun th => th.pc.priv)).count p + th.pc.priv.count p =
    (l.flatMap (fun th => th.pc.priv)).count p + th'.pc.priv.count p :=
  count_flatMap_set _ p l t th th' h

theorem undoing_set (l : List (Thread V)) {t : Tid} {th : Thread V} (th' : Thread V)
    (h : l[t]? = some th) (p : Addr) :
    ((l.set t th').flatMap (fun th => th.pc.undoing)).count p + th.pc.undoing.count p =
    (l.flatMap (fun th => th.pc.undoing)).count p + th'.pc.undoing.count p :=
  count_flatMap_set _ p l t th th' h

theorem removing_set (l : List (Thread V)) {t : Tid} {th : Thread V} (th' : Thread V)
    (h : l[t]? = some th) (p : Addr) :
    ((l.set t th').flatMap (fun th => th.pc.removing)).count p + th.pc.removing.count p =
    (l.flatMap (fun th => th.pc.removing)).count p + th'.pc.removing.count p :=
  count_flatMap_set _ p l t th th' h

theorem mem_priv_P {s : State V} {t : Tid} {th : Thread V} (h : s.threads[t]? = some th) {b : Addr}
    (hb : b ∈ th.pc.priv) : 0 < P s b :=
  (count_flatMap_pos _ b s.threads).mpr ⟨t, th, h, hb⟩

theorem mem_owned_A {cfg : Cfg V} {s : State V} {t : Tid} {th : Thread V} (h : s.threads[t]? = some th)
    {b : Addr} (hb : b ∈ th.owned cfg) : 0 < A cfg s b := by
  rw [A_eq]
  have : 0 < (s.threads.flatMap (Thread.owned cfg)).count b :=
    (count_flatMap_pos _ b s.threads).mpr ⟨t, th, h, hb⟩
  omega

theorem P_two {s : State V} {t u : Tid} {th th' : Thread V} (h : s.threads[t]? = some th)
    (h' : s.threads[u]? = some th') (hne : u ≠ t) {b : Addr} (hb : b ∈ th.pc.priv)
    (hb' : b ∈ th'.pc.priv) : 2 ≤ P s b := by
  have h1 := priv_set s.threads ({} : Thread V) h b
  have h2 : (s.threads.set t {})[u]? = some th' := by
    rw [set_getElem? _ _ _ _ _ h, if_neg hne]; exact h'
  have h3 : 0 < ((s.threads.set t {}).flatMap (fun th => th.pc.priv)).count b :=
    (count_flatMap_pos _ b _).mpr ⟨u, th', h2, hb'⟩
  have h4 : 0 < th.pc.priv.count b := List.count_pos_iff.mpr hb
  have h5 : ({} : Thread V).pc.priv.count b = 0 := by simp [Pc.priv]
  simp only [P]; omega

section
variable [BEq V] [Hashable V]

theorem Inv.mem_keys {cfg : Cfg V} {s : State V} (hI : Inv cfg s) {b : Addr} (hb : b ∈ s.table) :
    b ∈ keys s.heap := by
  have h1 : 0 < T s b := List.count_pos_iff.mpr hb
  have h2 := hI.split b
  exact List.count_pos_iff.mp (by simp only [K] at h2; omega)

theorem Inv.not_priv {cfg : Cfg V} {s : State V} (hI : Inv cfg s) {b : Addr} (hb : b ∈ s.table)
    {t : Tid} {th : Thread V} (h : s.threads[t]? = some th) : b ∉ th.pc.priv := by
  intro hp
  have h1 : 0 < T s b := List.count_pos_iff.mpr hb
  have h2 := hI.split b
  have h3 := hI.nd b
  have h4 := mem_priv_P h hp
  omega

theorem Inv.tableOk {cfg : Cfg V} {s : State V} (hI : Inv cfg s) : tableOk s = true := by
  simp only [Arc.tableOk, List.all_eq_true]
  intro b hb
  exact (get_isSome _ _).mpr (hI.mem_keys hb)

/-- What may not change under the feet of another thread. -/
structure Frame (cfg : Cfg V) (s s' : State V) (pc : Pc V) : Prop where
  priv : ∀ b ∈ pc.priv, get s'.heap b = get s.heap b
  data : ∀ b x, b ∈ s.table → get s.heap b = some x → ∃ x', get s'.heap b = some x' ∧ x'.data = x.data
  data' : ∀ b x', b ∈ s'.table → get s'.heap b = some x' → ∃ x, get s.heap b = some x ∧ x.data = x'.data
  keep : ∀ sh, pc.holds = some sh → ∀ b x, get s.heap b = some x → cfg.shardOf x.data = sh →
    (b ∈ s'.table ↔ b ∈ s.table)

theorem shardOf_congr [LawfulHashable V] {cfg : Cfg V} {x y : V} (h : (x == y) = true) :
    cfg.shardOf x = cfg.shardOf y := by
  unfold Cfg.shardOf; rw [LawfulHashable.hash_eq x y h]

omit [BEq V] [Hashable V] in
theorem callOk_frame {cfg : Cfg V} {s s' : State V} {arg : Option V} {c : Call V}
    (hp : ∀ b, c.conv = some b → get s'.heap b = get s.heap b) (h : callOk cfg s arg c) :
    callOk cfg s' arg c := by
  obtain ⟨h1, h2, h3, h4⟩ := h
  refine ⟨h1, h2, h3, fun b hb => ?_⟩
  rw [hp b hb]; exact h4 b hb

theorem matches_frame {s s' : State V} {b : Addr} {v : V}
    (hd : ∀ b x, b ∈ s.table → get s.heap b = some x → ∃ x', get s'.heap b = some x' ∧ x'.data = x.data)
    (hk : b ∈ s'.table) (h : matches' s b v) : matches' s' b v := by
  obtain ⟨h1, x, h2, h3⟩ := h
  obtain ⟨x', h4, h5⟩ := hd b x h1 h2
  exact ⟨hk, x', h4, by rw [h5]; exact h3⟩

theorem PcInv_frame [LawfulHashable V] {cfg : Cfg V} {s s' : State V} {arg : Option V} {pc : Pc V}
    (F : Frame cfg s s' pc) (h : PcInv cfg s arg pc) : PcInv cfg s' arg pc := by
  have hm : ∀ b v sh, pc.holds = some sh → sh = cfg.shardOf v → matches' s b v → matches' s' b v := by
    intro b v sh h1 h2 h3
    obtain ⟨h4, x, h5, h6⟩ := h3
    refine matches_frame F.data ((F.keep sh h1 b x h5 ?_).mpr h4) ⟨h4, x, h5, h6⟩
    rw [h2]; exact shardOf_congr h6
  cases pc <;> simp only [PcInv, Pc.priv, Pc.holds] at * <;> try exact True.intro
  case newLoop c => exact callOk_frame (fun b hb => F.priv b (by simp [Pc.priv, hb])) h
  case newFound c sh b =>
    exact ⟨callOk_frame (fun b hb => F.priv b (by simp [Pc.priv, hb])) h.1, h.2.1, hm _ _ _ rfl h.2.1 h.2.2⟩
  case newUndo c sh b =>
    exact ⟨callOk_frame (fun b hb => F.priv b (by simp [Pc.priv, hb])) h.1, h.2.1, hm _ _ _ rfl h.2.1 h.2.2⟩
  case newHit c sh b =>
    exact ⟨callOk_frame (fun b hb => F.priv b (by simp [Pc.priv, hb])) h.1, h.2.1, hm _ _ _ rfl h.2.1 h.2.2⟩
  case newRelease c sh =>
    exact ⟨callOk_frame (fun b hb => F.priv b (by simp [Pc.priv, hb])) h.1, h.2⟩
  case newAlloc c => exact ⟨callOk_frame (fun b hb => by simp [h.2] at hb) h.1, h.2⟩
  case newEntry c b =>
    refine ⟨callOk_frame (fun b hb => by simp [h.2.1] at hb) h.1, h.2.1, ?_⟩
    rw [F.priv b (by simp [Pc.priv])]; exact h.2.2
  case newVacant c sh b =>
    obtain ⟨h1, h2, h3, h4, h5⟩ := h
    refine ⟨callOk_frame (fun b hb => by simp [h2] at hb) h1, h2, ?_, h4, ?_⟩
    · rw [F.priv b (by simp [Pc.priv])]; exact h3
    · intro r x hr hx
      obtain ⟨y, hy, hxy⟩ := F.data' r x hr hx
      rw [← hxy]
      by_cases hs : cfg.shardOf y.data = sh
      · exact h5 r y ((F.keep sh rfl r y hy hs).mp hr) hy
      · cases hc : (y.data == c.val)
        · rfl
        · exact absurd (by rw [h4]; exact shardOf_congr hc) hs
  case newInserted c sh b =>
    obtain ⟨h1, h2, h3⟩ := h
    exact ⟨callOk_frame (fun b hb => by simp [h2] at hb) h1, h2, h3.1, hm _ _ _ rfl h3.1 h3.2⟩
  case newOccupied c sh b =>
    obtain ⟨h1, h2, h3, h4⟩ := h
    refine ⟨callOk_frame (fun b hb => by simp [h2] at hb) h1, h2, ?_, h4⟩
    rw [F.priv b (by simp [Pc.priv])]; exact h3
  case newUnbox c b =>
    obtain ⟨h1, h2, h3, h4⟩ := h
    refine ⟨callOk_frame (fun b hb => by simp [h2] at hb) h1, h2, h3, ?_⟩
    rw [F.priv b (by simp [Pc.priv])]; exact h4

end
end Arc
