import Verif.Pool.Spec
namespace Pool
variable {K V : Type} [DecidableEq K] [BEq V] [Hashable V]

/-- The lock a thread holds. -/
def Pc.holds (cfg : Cfg K V) : Pc K V → Option Nat
  | .idle | .want _ => none
  | .inside o | .leave o _ => some (cfg.lockOf o.pool)
  | .build k _ _ | .insert k _ _ _ | .dropArg k _ _ _ => some (cfg.lockOf k)

def Pc.isInsert (k : K) (p : Ptr) : Pc K V → Bool
  | .insert k' _ _ p' => decide (k' = k ∧ p' = p)
  | _ => false

def entryOf (t : Tid) : Pc K V → Option (Entry K V)
  | .leave o r => some { tid := t, op := o, ret := r }
  | _ => none

/-- Facts about one thread. -/
def PcOk (s : State K V) : Pc K V → Prop
  | .idle => True
  | .want o => o.Lawful
  | .inside o => o.Lawful
  | .build k q v => (Op.intern k q v).Lawful ∧ (∀ p ∈ s.table k, ∀ x, ⟨k, p, x⟩ ∈ s.heap → (x == v) = false)
  | .insert k q v p => (Op.intern k q v).Lawful ∧ (∀ p ∈ s.table k, ∀ x, ⟨k, p, x⟩ ∈ s.heap → (x == v) = false) ∧
      ⟨k, p, v⟩ ∈ s.heap
  | .dropArg k q v p => (Op.intern k q v).Lawful ∧ p ∈ s.table k ∧ ∃ x, ⟨k, p, x⟩ ∈ s.heap ∧ (x == v) = true
  | .leave o r => o.Lawful ∧ (match o, r with
      | .intern k _ v, .ptr p => p ∈ s.table k ∧ ∃ x, ⟨k, p, x⟩ ∈ s.heap ∧ (x == v) = true
      | .intern .., _ => False
      | _, _ => True)

structure Inv (cfg : Cfg K V) (s : State K V) : Prop where
  holder : ∀ (t : Tid) pc i, s.threads[t]? = some pc → pc.holds cfg = some i → s.lock i = some t
  held : ∀ i (t : Tid), s.lock i = some t → ∃ pc, s.threads[t]? = some pc ∧ pc.holds cfg = some i
  shape : ∀ o ∈ s.heap, o.ptr.info = cfg.info o.pool o.val ∧
    (cfg.zst o.pool o.val = true → o.ptr.addr = cfg.dangle o.pool o.val)
  addrs : s.heap.Pairwise fun o o' => cfg.zst o.pool o.val = false → cfg.zst o'.pool o'.val = false →
    o.ptr.addr ≠ o'.ptr.addr
  mem : ∀ k, ∀ p ∈ s.table k, ∃ x, ⟨k, p, x⟩ ∈ s.heap
  pcs : ∀ (t : Tid) pc, s.threads[t]? = some pc → PcOk s pc
  alive : ∀ (t : Tid) pc k, s.threads[t]? = some pc → pc.pool? = some k → k ∉ s.gone
  tab : ∀ k, k ∉ s.gone → s.table k = (interned s.log k).map (·.1)
  goneTab : ∀ k, k ∈ s.gone → s.table k = []
  vals : ∀ k, k ∉ s.gone → ∀ x ∈ interned s.log k, ⟨k, x.1, x.2⟩ ∈ s.heap
  seq : Sequential s.log
  owned : ∀ k, cfg.owns k = true → ∀ p, s.heap.countP (Obj.is k p) =
    (s.table k).count p + s.threads.countP (Pc.isInsert k p)
  goneOwned : ∀ k, k ∈ s.gone → cfg.owns k = true

/-- The distinct interned values of a history are pairwise unequal. -/
theorem interned_distinct [EquivBEq V] (l : List (Entry K V)) (k : K) :
    (interned l k).Pairwise fun x y => (y.2 == x.2) = false := by
  induction l with
  | nil => exact List.Pairwise.nil
  | cons e l ih =>
    simp only [interned]
    split
    · split
      · rename_i h
        refine List.Pairwise.cons (fun y hy => ?_) ih
        have := h.2
        rw [List.any_eq_false] at this
        simpa using this y hy
      · exact ih
    · exact ih

section lemmas
variable {cfg : Cfg K V} {s : State K V}

omit [DecidableEq K] [BEq V] [Hashable V] in
theorem same_val (lay : cfg.Layout) (shape : ∀ o ∈ s.heap, o.ptr.info = cfg.info o.pool o.val ∧
    (cfg.zst o.pool o.val = true → o.ptr.addr = cfg.dangle o.pool o.val))
    (addrs : s.heap.Pairwise fun o o' => cfg.zst o.pool o.val = false → cfg.zst o'.pool o'.val = false →
      o.ptr.addr ≠ o'.ptr.addr) {k : K} {p : Ptr} {x y : V}
    (hx : ⟨k, p, x⟩ ∈ s.heap) (hy : ⟨k, p, y⟩ ∈ s.heap) : x = y := by
  have i1 := (shape _ hx).1
  have i2 := (shape _ hy).1
  simp only at i1 i2
  have hz := lay.size k x y (i1 ▸ i2)
  cases hzx : cfg.zst k x
  · have hzy : cfg.zst k y = false := by rw [← hz]; exact hzx
    revert hx hy addrs
    clear shape
    generalize s.heap = h
    intro addrs hx hy
    induction h with
    | nil => cases hx
    | cons o h ih =>
      rw [List.pairwise_cons] at addrs
      rcases List.mem_cons.mp hx with e | hx'
      · rcases List.mem_cons.mp hy with e' | hy'
        · have := e.trans e'.symm
          injection this
        · exact absurd rfl (e ▸ addrs.1 _ hy' (by rw [← e]; exact hzx) hzy)
      · rcases List.mem_cons.mp hy with e' | hy'
        · exact absurd rfl (e' ▸ addrs.1 _ hx' (by rw [← e']; exact hzy) hzx)
        · exact ih addrs.2 hx' hy'
  · exact lay.unique k x y hzx (hz ▸ hzx) (i1 ▸ i2)

omit [BEq V] [Hashable V] in
theorem deref_mem {k : K} {p : Ptr} {x : V} (h : deref s k p = some x) : ⟨k, p, x⟩ ∈ s.heap := by
  unfold deref at h
  cases hf : s.heap.find? (Obj.is k p) with
  | none => rw [hf] at h; cases h
  | some o =>
    rw [hf] at h
    injection h with h
    have h1 := List.mem_of_find?_eq_some hf
    have h2 := List.find?_some hf
    simp only [Obj.is, decide_eq_true_eq] at h2
    obtain ⟨rfl, rfl⟩ := h2
    cases h
    exact h1

omit [BEq V] [Hashable V] in
theorem deref_some {k : K} {p : Ptr} {x : V} (h : ⟨k, p, x⟩ ∈ s.heap) : ∃ y, deref s k p = some y := by
  unfold deref
  cases hf : s.heap.find? (Obj.is k p) with
  | none =>
    rw [List.find?_eq_none] at hf
    exact absurd (by simp [Obj.is]) (hf _ h)
  | some o => exact ⟨_, rfl⟩

theorem Inv.deref_iff (I : Inv cfg s) (lay : cfg.Layout) (k : K) (p : Ptr) (x : V) :
    deref s k p = some x ↔ ⟨k, p, x⟩ ∈ s.heap := by
  refine ⟨deref_mem, fun h => ?_⟩
  obtain ⟨y, hy⟩ := deref_some h
  rw [hy, same_val lay I.shape I.addrs (deref_mem hy) h]

theorem Inv.tableOk (I : Inv cfg s) (k : K) : tableOk s k = true := by
  unfold Pool.tableOk
  rw [List.all_eq_true]
  intro p hp
  obtain ⟨x, hx⟩ := I.mem k p hp
  obtain ⟨y, hy⟩ := deref_some hx
  rw [hy]; rfl

theorem find_hit {k : K} {q : Query V} {p : Ptr} (h : find s k q = some p) :
    p ∈ s.table k ∧ ∃ x, ⟨k, p, x⟩ ∈ s.heap ∧ hash x = q.hash ∧ q.eq x = true := by
  have h1 := List.mem_of_find?_eq_some h
  have h2 := List.find?_some h
  refine ⟨h1, ?_⟩
  cases hd : deref s k p with
  | none => rw [hd] at h2; cases h2
  | some x =>
    rw [hd] at h2
    simp only [Bool.and_eq_true, beq_iff_eq] at h2
    exact ⟨x, deref_mem hd, h2.1, h2.2⟩

theorem Inv.find_miss (I : Inv cfg s) (lay : cfg.Layout) {k : K} {q : Query V} (h : find s k q = none) :
    ∀ p ∈ s.table k, ∀ x, ⟨k, p, x⟩ ∈ s.heap → hash x = q.hash → q.eq x = false := by
  intro p hp x hx hh
  have := (List.find?_eq_none.mp h) p hp
  rw [(I.deref_iff lay k p x).mpr hx] at this
  simp only [hh, BEq.rfl, Bool.true_and] at this
  simpa using this

end lemmas
end Pool
