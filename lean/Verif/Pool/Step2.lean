import Verif.Pool.Step
namespace Pool
variable {K V : Type} [DecidableEq K] [BEq V] [Hashable V]

section
variable {cfg : Cfg K V} {s : State K V}

theorem pcOk_mono {s' : State K V} {pc : Pc K V}
    (h0 : ∀ k, pc.pool? = some k → pc.holds cfg = some (cfg.lockOf k) → s'.table k = s.table k)
    (h1 : ∀ k p x, pc.pool? = some k → pc.holds cfg = some (cfg.lockOf k) → ⟨k, p, x⟩ ∈ s.heap → ⟨k, p, x⟩ ∈ s'.heap)
    (h2 : ∀ k p x, pc.pool? = some k → pc.holds cfg = some (cfg.lockOf k) → p ∈ s.table k → ⟨k, p, x⟩ ∈ s'.heap →
      ⟨k, p, x⟩ ∈ s.heap) (h : PcOk s pc) : PcOk s' pc := by
  cases pc with
  | idle => exact h
  | want o => exact h
  | inside o => exact h
  | build k q v =>
    refine ⟨h.1, fun p hp x hx => ?_⟩
    rw [h0 k rfl rfl] at hp
    exact h.2 p hp x (h2 k p x rfl rfl hp hx)
  | insert k q v p0 =>
    refine ⟨h.1, fun p hp x hx => ?_, h1 k p0 v rfl rfl h.2.2⟩
    rw [h0 k rfl rfl] at hp
    exact h.2.1 p hp x (h2 k p x rfl rfl hp hx)
  | dropArg k q v p =>
    obtain ⟨l, hp, x, hx, e⟩ := h
    exact ⟨l, by rw [h0 k rfl rfl]; exact hp, x, h1 k p x rfl rfl hx, e⟩
  | leave o r =>
    refine ⟨h.1, ?_⟩
    have h' := h.2
    cases o with
    | intern k q v =>
      cases r with
      | ptr p =>
        obtain ⟨hp, x, hx, e⟩ := h'
        exact ⟨by rw [h0 k rfl rfl]; exact hp, x, h1 k p x rfl rfl hx, e⟩
      | bool b => exact h'
      | num n => exact h'
      | unit => exact h'
    | query k q => trivial
    | len k => trivial
    | clear k => trivial

theorem Inv.spawn (I : Inv cfg s) : Inv cfg { s with threads := s.threads ++ [.idle] } := by
  have key : ∀ (u : Tid) pu, (s.threads ++ [Pc.idle])[u]? = some pu → s.threads[u]? = some pu ∨ pu = .idle := by
    intro u pu hu
    rw [List.getElem?_append] at hu
    split at hu
    · exact .inl hu
    · rw [List.getElem?_singleton] at hu
      split at hu
      · injection hu with hu; exact .inr hu.symm
      · cases hu
  exact {
    holder := fun u pu i hu hi => by
      rcases key u pu hu with h | rfl
      · exact I.holder u pu i h hi
      · cases hi
    held := fun i u hu => by
      obtain ⟨pu, h1, h2⟩ := I.held i u hu
      refine ⟨pu, ?_, h2⟩
      show (s.threads ++ [Pc.idle])[u]? = _
      rw [List.getElem?_append_left (List.getElem?_eq_some_iff.mp h1).1]
      exact h1
    shape := I.shape, addrs := I.addrs, mem := I.mem
    pcs := fun u pu hu => by
      rcases key u pu hu with h | rfl
      · exact I.pcs u pu h
      · exact True.intro
    alive := fun u pu k hu hk => by
      rcases key u pu hu with h | rfl
      · exact I.alive u pu k h hk
      · cases hk
    tab := I.tab, goneTab := I.goneTab, vals := I.vals, seq := I.seq
    owned := fun k hk p => by
      show _ = _ + (s.threads ++ [Pc.idle]).countP _
      rw [List.countP_append, I.owned k hk p]
      rfl
    goneOwned := I.goneOwned }

/-- What the allocator guarantees. -/
theorem alloc_shape (lay : cfg.Layout) (I : Inv cfg s) {k : K} {v : V} {a addr : Nat}
    (h : allocAt cfg s k v a = some addr) :
    (cfg.zst k v = true → addr = cfg.dangle k v) ∧
    (cfg.zst k v = false → ∀ o ∈ s.heap, cfg.zst o.pool o.val = false → addr ≠ o.ptr.addr) := by
  unfold allocAt at h
  by_cases hz : cfg.zst k v = true
  · rw [if_pos hz] at h
    injection h with h
    exact ⟨fun _ => h.symm, fun h' => by rw [hz] at h'; cases h'⟩
  · rw [if_neg hz] at h
    split at h
    · rename_i hc
      injection h with h
      subst h
      refine ⟨fun h' => absurd h' hz, fun _ o ho hzo e => ?_⟩
      have := List.all_eq_true.mp hc.2 o ho
      rw [hzo] at this
      simp [e] at this
    · cases h

theorem Inv.alloc (I : Inv cfg s) (lay : cfg.Layout) {t : Tid} {k : K} {q : Query V} {v : V} {a addr : Nat}
    (h : s.threads[t]? = some (.build k q v)) (ha : allocAt cfg s k v a = some addr) :
    Inv cfg ({ s with heap := ⟨k, ⟨addr, cfg.info k v⟩, v⟩ :: s.heap }.at t
      (.insert k q v ⟨addr, cfg.info k v⟩)) := by
  obtain ⟨a1, a2⟩ := alloc_shape lay I ha
  have shape' : ∀ o ∈ (⟨k, ⟨addr, cfg.info k v⟩, v⟩ :: s.heap : List (Obj K V)),
      o.ptr.info = cfg.info o.pool o.val ∧ (cfg.zst o.pool o.val = true → o.ptr.addr = cfg.dangle o.pool o.val) := by
    intro o ho
    rcases List.mem_cons.mp ho with rfl | ho
    · exact ⟨rfl, a1⟩
    · exact I.shape o ho
  have addrs' : (⟨k, ⟨addr, cfg.info k v⟩, v⟩ :: s.heap : List (Obj K V)).Pairwise
      fun o o' => cfg.zst o.pool o.val = false → cfg.zst o'.pool o'.val = false → o.ptr.addr ≠ o'.ptr.addr :=
    List.Pairwise.cons (fun o ho hz hz' => a2 hz o ho hz') I.addrs
  have back : ∀ j p x, p ∈ s.table j →
      (⟨j, p, x⟩ : Obj K V) ∈ (⟨k, ⟨addr, cfg.info k v⟩, v⟩ :: s.heap : List (Obj K V)) → ⟨j, p, x⟩ ∈ s.heap := by
    intro j p x hp hx
    obtain ⟨y, hy⟩ := I.mem j p hp
    have := same_val (s := { s with heap := ⟨k, ⟨addr, cfg.info k v⟩, v⟩ :: s.heap }) lay shape' addrs' hx
      (List.mem_cons_of_mem _ hy)
    rw [this]; exact hy
  have hok := I.pcs t _ h
  exact {
    holder := fun u pu i hu hi => by
      rcases getElem?_set_cases hu with ⟨rfl, rfl⟩ | ⟨hne, hu'⟩
      · exact I.holder u (.build k q v) i h hi
      · exact I.holder u pu i hu' hi
    held := fun i u hu => by
      obtain ⟨pu, h1, h2⟩ := I.held i u hu
      by_cases e : u = t
      · subst e
        rw [h] at h1
        injection h1 with h1
        subst h1
        exact ⟨_, getElem?_set_self' h, h2⟩
      · exact ⟨pu, getElem?_set_other h1 e, h2⟩
    shape := shape', addrs := addrs'
    mem := fun j p hp => by
      obtain ⟨x, hx⟩ := I.mem j p hp
      exact ⟨x, List.mem_cons_of_mem _ hx⟩
    pcs := fun u pu hu => by
      rcases getElem?_set_cases hu with ⟨rfl, rfl⟩ | ⟨hne, hu'⟩
      · exact ⟨hok.1, fun p hp x hx => hok.2 p hp x (back k p x hp hx), List.mem_cons_self⟩
      · exact pcOk_mono (cfg := cfg) (s := s) (fun _ _ _ => rfl) (fun _ _ _ _ _ hx => List.mem_cons_of_mem _ hx)
          (fun j p x _ _ hp hx => back j p x hp hx) (I.pcs u pu hu')
    alive := fun u pu j hu hj => by
      rcases getElem?_set_cases hu with ⟨rfl, rfl⟩ | ⟨hne, hu'⟩
      · exact I.alive u (.build k q v) j h hj
      · exact I.alive u pu j hu' hj
    tab := I.tab, goneTab := I.goneTab
    vals := fun j hj x hx => List.mem_cons_of_mem _ (I.vals j hj x hx)
    seq := I.seq
    owned := fun j hj p => by
      show (⟨k, ⟨addr, cfg.info k v⟩, v⟩ :: s.heap : List (Obj K V)).countP _ = _ + (s.threads.set t _).countP _
      have := countP_set (Pc.isInsert j p) h (y := .insert k q v ⟨addr, cfg.info k v⟩)
      have o := I.owned j hj p
      rw [List.countP_cons]
      simp only [State.at]
      simp only [Pc.isInsert, Obj.is] at this ⊢
      simp at this ⊢
      omega
    goneOwned := I.goneOwned }

theorem Inv.inserted [EquivBEq V] (I : Inv cfg s) (lay : cfg.Layout) {t : Tid} {k : K} {q : Query V} {v : V} {p : Ptr}
    (h : s.threads[t]? = some (.insert k q v p)) :
    Inv cfg ((s.setTable k (p :: s.table k)).commit t (.intern k q v) (.ptr p)) := by
  obtain ⟨hlaw, hnew, hbox⟩ := I.pcs t _ h
  have hlive : k ∉ s.gone := I.alive t _ k h rfl
  have hnone : (interned s.log k).any (fun x => x.2 == v) = false := by
    rw [List.any_eq_false]
    intro x hx
    have := (I.stored lay hlive).mpr hx
    have := hnew x.1 this.1 x.2 this.2
    simp [this]
  have hint : ∀ j, interned (⟨t, .intern k q v, .ptr p⟩ :: s.log) j =
      if k = j then (p, v) :: interned s.log j else interned s.log j := by
    intro j
    simp only [interned]
    by_cases e : k = j
    · subst e
      rw [if_pos ⟨rfl, hnone⟩, if_pos rfl]
    · rw [if_neg (fun c => e c.1), if_neg e]
  have hp : p ∉ s.table k := by
    intro hp
    have := hnew p hp v hbox
    simp at this
  exact {
    holder := fun u pu i hu hi => by
      rcases getElem?_set_cases hu with ⟨rfl, rfl⟩ | ⟨hne, hu'⟩
      · exact I.holder u _ i h hi
      · exact I.holder u pu i hu' hi
    held := fun i u hu => by
      obtain ⟨pu, h1, h2⟩ := I.held i u hu
      by_cases e : u = t
      · subst e
        rw [h] at h1
        injection h1 with h1
        subst h1
        exact ⟨_, getElem?_set_self' h, h2⟩
      · exact ⟨pu, getElem?_set_other h1 e, h2⟩
    shape := I.shape, addrs := I.addrs
    mem := fun j p' hp' => by
      have hp'' : p' ∈ (if j = k then p :: s.table k else s.table j) := hp'
      by_cases e : j = k
      · subst e
        rw [if_pos rfl] at hp''
        rcases List.mem_cons.mp hp'' with rfl | h'
        · exact ⟨v, hbox⟩
        · exact I.mem j p' h'
      · rw [if_neg e] at hp''
        exact I.mem j p' hp''
    pcs := fun u pu hu => by
      rcases getElem?_set_cases hu with ⟨rfl, rfl⟩ | ⟨hne, hu'⟩
      · refine ⟨hlaw, ?_, v, hbox, by simp⟩
        show p ∈ (if k = k then p :: s.table k else s.table k)
        simp
      · refine pcOk_mono (cfg := cfg) (s := s) (fun j hj hl => ?_) (fun _ _ _ _ _ hx => hx)
          (fun j p x _ _ hp hx => hx) (I.pcs u pu hu')
        show (if j = k then p :: s.table k else s.table j) = _
        by_cases e : j = k
        · subst e
          exact absurd (I.excl h hu' rfl hl) hne
        · rw [if_neg e]
    alive := fun u pu j hu hj => by
      rcases getElem?_set_cases hu with ⟨rfl, rfl⟩ | ⟨hne, hu'⟩
      · exact I.alive u _ j h hj
      · exact I.alive u pu j hu' hj
    tab := fun j hj => by
      show (if j = k then p :: s.table k else s.table j) = (interned (⟨t, .intern k q v, .ptr p⟩ :: s.log) j).map _
      rw [hint]
      by_cases e : j = k
      · subst e
        rw [if_pos rfl, if_pos rfl, List.map_cons, I.tab j hj]
      · rw [if_neg e, if_neg (fun c => e c.symm)]
        exact I.tab j hj
    goneTab := fun j hj => by
      show (if j = k then p :: s.table k else s.table j) = []
      by_cases e : j = k
      · subst e; exact absurd hj hlive
      · rw [if_neg e]; exact I.goneTab j hj
    vals := fun j hj x hx => by
      have hx' : x ∈ interned (⟨t, .intern k q v, .ptr p⟩ :: s.log) j := hx
      rw [hint] at hx'
      by_cases e : k = j
      · subst e
        rw [if_pos rfl] at hx'
        rcases List.mem_cons.mp hx' with rfl | h'
        · exact hbox
        · exact I.vals k hj x h'
      · rw [if_neg e] at hx'
        exact I.vals j hj x hx'
    seq := ⟨by
      refine .inr ⟨fun x hx => ?_, fun x hx e => ?_⟩
      · rw [List.any_eq_false] at hnone
        simpa using hnone x hx
      · exact hp (e ▸ ((I.stored lay hlive).mpr hx).1), I.seq⟩
    owned := fun j hj p' => by
      show s.heap.countP _ = (if j = k then p :: s.table k else s.table j).count p' + (s.threads.set t _).countP _
      have := countP_set (Pc.isInsert j p') h (y := .leave (.intern k q v) (.ptr p))
      have o := I.owned j hj p'
      by_cases e : j = k
      · subst e
        rw [if_pos rfl, List.count_cons]
        simp only [Pc.isInsert] at this ⊢
        simp at this ⊢
        omega
      · rw [if_neg e]
        have e' : ¬ (k = j ∧ p = p') := fun c => e c.1.symm
        simp only [Pc.isInsert] at this
        simp [e'] at this
        omega
    goneOwned := I.goneOwned }

end
end Pool
