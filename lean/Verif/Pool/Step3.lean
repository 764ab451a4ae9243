import Verif.Pool.Step2
namespace Pool
variable {K V : Type} [DecidableEq K] [BEq V] [Hashable V]

section
variable {cfg : Cfg K V} {s : State K V}

theorem mem_free_of_ne {h : List (Obj K V)} {k : K} {p : Ptr} {o : Obj K V} (ho : o ∈ h) (hne : ¬ (o.pool = k ∧ o.ptr = p)) :
    o ∈ free h k p := by
  unfold free
  rw [List.mem_eraseP_of_neg]
  · exact ho
  · simpa [Obj.is] using hne

theorem mem_of_mem_free {h : List (Obj K V)} {k : K} {p : Ptr} {o : Obj K V} (ho : o ∈ free h k p) : o ∈ h :=
  List.mem_of_mem_eraseP ho

/-- Freeing takes one box away. -/
theorem count_free {h : List (Obj K V)} {k : K} {p : Ptr} (hm : 0 < h.countP (Obj.is k p)) :
    ∀ j p', (free h k p).countP (Obj.is j p') + (if k = j ∧ p = p' then 1 else 0) = h.countP (Obj.is j p') := by
  intro j p'
  obtain ⟨o, ho, hio⟩ := List.countP_pos_iff.mp hm
  unfold free
  induction h with
  | nil => cases ho
  | cons a h ih =>
    rw [List.eraseP_cons]
    cases hia : Obj.is k p a with
    | true =>
      rw [cond_true, List.countP_cons]
      have e : Obj.is j p' a = decide (k = j ∧ p = p') := by
        simp only [Obj.is, decide_eq_true_eq] at hia ⊢
        rw [hia.1, hia.2]
      rw [e]
      simp
    | false =>
      rw [cond_false, List.countP_cons, List.countP_cons]
      rcases List.mem_cons.mp ho with rfl | ho'
      · rw [hio] at hia; cases hia
      · have := ih (List.countP_pos_iff.mpr ⟨o, ho', hio⟩) ho'
        omega

/-- A panic in the insertion. -/
theorem Inv.insertPanic [EquivBEq V] (I : Inv cfg s) {t : Tid} {k : K} {q : Query V} {v : V} {p : Ptr}
    (h : s.threads[t]? = some (.insert k q v p)) :
    Inv cfg (({ s with heap := if cfg.owns k then free s.heap k p else s.heap }.unlock (cfg.lockOf k)).at t .idle) := by
  obtain ⟨hlaw, hnew, hbox⟩ := I.pcs t _ h
  have hp : p ∉ s.table k := by
    intro hp
    have := hnew p hp v hbox
    simp at this
  -- everything but the box itself stays
  have keep : ∀ j p' x, ¬ (j = k ∧ p' = p) → ⟨j, p', x⟩ ∈ s.heap →
      (⟨j, p', x⟩ : Obj K V) ∈ (if cfg.owns k then free s.heap k p else s.heap) := by
    intro j p' x hne hx
    split
    · exact mem_free_of_ne hx hne
    · exact hx
  have back : ∀ o : Obj K V, o ∈ (if cfg.owns k then free s.heap k p else s.heap) → o ∈ s.heap := by
    intro o ho
    split at ho
    · exact mem_of_mem_free ho
    · exact ho
  exact {
    holder := fun u pu j hu hj => by
      rcases getElem?_set_cases hu with ⟨rfl, rfl⟩ | ⟨hne, hu'⟩
      · cases hj
      · show (if j = cfg.lockOf k then none else s.lock j) = _
        by_cases e : j = cfg.lockOf k
        · subst e
          exact absurd (I.excl h hu' rfl hj) hne
        · rw [if_neg e]
          exact I.holder u pu j hu' hj
    held := fun j u hu => by
      have hu' : (if j = cfg.lockOf k then none else s.lock j) = some u := hu
      by_cases e : j = cfg.lockOf k
      · rw [if_pos e] at hu'; cases hu'
      · rw [if_neg e] at hu'
        obtain ⟨pu, h1, h2⟩ := I.held j u hu'
        by_cases e' : u = t
        · subst e'
          rw [h] at h1
          injection h1 with h1
          subst h1
          injection h2 with h2
          exact absurd h2.symm e
        · exact ⟨pu, getElem?_set_other h1 e', h2⟩
    shape := fun o ho => I.shape o (back o ho)
    addrs := by
      show List.Pairwise _ (if cfg.owns k then free s.heap k p else s.heap)
      split
      · exact I.addrs.sublist List.eraseP_sublist
      · exact I.addrs
    mem := fun j p' hp' => by
      obtain ⟨x, hx⟩ := I.mem j p' hp'
      refine ⟨x, keep j p' x (fun c => ?_) hx⟩
      obtain ⟨rfl, rfl⟩ := c
      exact hp hp'
    pcs := fun u pu hu => by
      rcases getElem?_set_cases hu with ⟨rfl, rfl⟩ | ⟨hne, hu'⟩
      · exact True.intro
      · refine pcOk_mono (cfg := cfg) (s := s) (fun j hj hl => rfl) (fun j p' x hj hl hx => ?_)
          (fun j p' x _ _ _ hx => back _ hx) (I.pcs u pu hu')
        refine keep j p' x (fun c => ?_) hx
        obtain ⟨rfl, rfl⟩ := c
        exact absurd (I.excl h hu' rfl hl) hne
    alive := fun u pu j hu hj => by
      rcases getElem?_set_cases hu with ⟨rfl, rfl⟩ | ⟨hne, hu'⟩
      · cases hj
      · exact I.alive u pu j hu' hj
    tab := I.tab, goneTab := I.goneTab
    vals := fun j hj x hx => by
      refine keep j x.1 x.2 (fun c => ?_) (I.vals j hj x hx)
      obtain ⟨rfl, c⟩ := c
      refine hp ?_
      rw [I.tab j hj, ← c]
      exact List.mem_map.mpr ⟨x, hx, rfl⟩
    seq := I.seq
    owned := fun j hj p' => by
      show (if cfg.owns k then free s.heap k p else s.heap).countP _ = _ + (s.threads.set t .idle).countP _
      have c := countP_set (Pc.isInsert j p') h (y := .idle)
      have o := I.owned j hj p'
      by_cases hk : cfg.owns k = true
      · rw [if_pos hk]
        have := count_free (h := s.heap) (k := k) (p := p)
          (List.countP_pos_iff.mpr ⟨_, hbox, by simp [Obj.is]⟩) j p'
        simp only [Pc.isInsert, decide_eq_true_eq] at c
        simp only [Bool.false_eq_true, if_false] at c
        simp only [State.unlock, State.at]
        omega
      · rw [if_neg hk]
        have e : ¬ (k = j ∧ p = p') := fun e => hk (e.1 ▸ hj)
        simp only [Pc.isInsert, decide_eq_true_eq] at c
        rw [if_neg e] at c
        simp only [Bool.false_eq_true, if_false] at c
        simp only [State.unlock, State.at]
        omega
    goneOwned := I.goneOwned }

theorem foldl_free_sub (k : K) (l : List Ptr) (h : List (Obj K V)) (o : Obj K V)
    (ho : o ∈ l.foldl (fun h p => free h k p) h) : o ∈ h := by
  induction l generalizing h with
  | nil => exact ho
  | cons p l ih => exact mem_of_mem_free (ih _ ho)

theorem foldl_free_sublist (k : K) (l : List Ptr) (h : List (Obj K V)) :
    (l.foldl (fun h p => free h k p) h).Sublist h := by
  induction l generalizing h with
  | nil => exact List.Sublist.refl _
  | cons p l ih => exact (ih _).trans List.eraseP_sublist

theorem foldl_free_other (k : K) (l : List Ptr) (h : List (Obj K V)) :
    (l.foldl (fun h p => free h k p) h).filter (fun o => decide (o.pool ≠ k)) =
      h.filter (fun o => decide (o.pool ≠ k)) := by
  induction l generalizing h with
  | nil => rfl
  | cons p l ih =>
    rw [List.foldl_cons, ih]
    unfold free
    clear ih
    induction h with
    | nil => rfl
    | cons a h ih2 =>
      rw [List.eraseP_cons]
      cases hia : Obj.is k p a with
      | true =>
        simp only [Obj.is, decide_eq_true_eq] at hia
        rw [cond_true, List.filter_cons_of_neg]
        simp [hia.1]
      | false =>
        rw [cond_false, List.filter_cons, List.filter_cons, ih2]

theorem foldl_free_count (k : K) (l : List Ptr) (h : List (Obj K V))
    (hc : ∀ p, h.countP (Obj.is k p) = l.count p) (p : Ptr) :
    (l.foldl (fun h p => free h k p) h).countP (Obj.is k p) = 0 := by
  induction l generalizing h with
  | nil => rw [List.foldl_nil, hc]; rfl
  | cons a l ih =>
    rw [List.foldl_cons]
    apply ih
    intro p'
    have := count_free (h := h) (k := k) (p := a) (by rw [hc, List.count_cons_self]; exact Nat.succ_pos _) k p'
    have h2 := hc p'
    rw [List.count_cons] at h2
    by_cases e : a = p'
    · subst e
      simp at this h2
      omega
    · have e' : ¬ (k = k ∧ a = p') := fun c => e c.2
      rw [if_neg e'] at this
      simp [e] at h2
      omega

/-- Dropping an arena. -/
theorem Inv.dropped (I : Inv cfg s) {k : K} (ho : cfg.owns k = true)
    (hidle : ∀ (t : Tid) pc, s.threads[t]? = some pc → pc.pool? ≠ some k) :
    Inv cfg { (s.setTable k []) with heap := (s.table k).foldl (fun h p => free h k p) s.heap, gone := k :: s.gone } := by
  have keep : ∀ o : Obj K V, o.pool ≠ k → o ∈ s.heap → o ∈ (s.table k).foldl (fun h p => free h k p) s.heap := by
    intro o hne hx
    have : o ∈ s.heap.filter (fun o => decide (o.pool ≠ k)) := List.mem_filter.mpr ⟨hx, by simpa using hne⟩
    rw [← foldl_free_other k (s.table k) s.heap] at this
    exact (List.mem_filter.mp this).1
  have back := foldl_free_sub k (s.table k) s.heap
  have noins : ∀ p, s.threads.countP (Pc.isInsert k p) = 0 := by
    intro p
    rw [List.countP_eq_zero]
    intro pc hpc
    obtain ⟨t, ht⟩ := List.mem_iff_getElem?.mp hpc
    have := hidle t pc ht
    cases pc with
    | insert k' _ _ p' =>
      simp only [Pc.isInsert, decide_eq_true_eq]
      rintro ⟨rfl, _⟩
      exact this rfl
    | _ => simp [Pc.isInsert]
  exact {
    holder := I.holder, held := I.held
    shape := fun o h => I.shape o (back o h)
    addrs := I.addrs.sublist (foldl_free_sublist k (s.table k) s.heap)
    mem := fun j p hp => by
      have hp' : p ∈ (if j = k then [] else s.table j) := hp
      by_cases e : j = k
      · rw [if_pos e] at hp'; cases hp'
      · rw [if_neg e] at hp'
        obtain ⟨x, hx⟩ := I.mem j p hp'
        exact ⟨x, keep _ e hx⟩
    pcs := fun u pu hu => by
      have hne := hidle u pu hu
      have hne' : ∀ j, pu.pool? = some j → j ≠ k := fun j hj e => hne (e ▸ hj)
      refine pcOk_mono (cfg := cfg) (s := s) (fun j hj _ => ?_) (fun j p x hj _ hx => keep _ (hne' j hj) hx)
        (fun j p x hj _ _ hx => back _ hx) (I.pcs u pu hu)
      show (if j = k then [] else s.table j) = _
      rw [if_neg (hne' j hj)]
    alive := fun u pu j hu hj => by
      have h1 := I.alive u pu j hu hj
      have h2 := hidle u pu hu
      intro c
      rcases List.mem_cons.mp c with rfl | c
      · exact h2 hj
      · exact h1 c
    tab := fun j hj => by
      show (if j = k then [] else s.table j) = _
      have hjk : j ≠ k := fun e => hj (by rw [e]; exact List.mem_cons_self)
      rw [if_neg hjk]
      exact I.tab j (fun c => hj (List.mem_cons_of_mem _ c))
    goneTab := fun j hj => by
      show (if j = k then [] else s.table j) = _
      by_cases e : j = k
      · rw [if_pos e]
      · rw [if_neg e]
        rcases List.mem_cons.mp hj with rfl | c
        · exact absurd rfl e
        · exact I.goneTab j c
    vals := fun j hj x hx =>
      keep _ (fun e => hj (by rw [show j = k from e]; exact List.mem_cons_self))
        (I.vals j (fun c => hj (List.mem_cons_of_mem _ c)) x hx)
    seq := I.seq
    owned := fun j hj p => by
      show ((s.table k).foldl (fun h p => free h k p) s.heap).countP _ =
        (if j = k then [] else s.table j).count p + s.threads.countP _
      by_cases e : j = k
      · subst e
        rw [if_pos rfl, noins, foldl_free_count]
        · rfl
        · intro p'
          rw [I.owned j hj p', noins]
          rfl
      · rw [if_neg e, ← I.owned j hj p]
        have h1 := congrArg (List.countP (Obj.is j p)) (foldl_free_other k (s.table k) s.heap)
        rw [List.countP_filter, List.countP_filter] at h1
        have h2 : ∀ (l : List (Obj K V)), l.countP (Obj.is j p) =
            l.countP (fun a => Obj.is j p a && decide (a.pool ≠ k)) := by
          intro l
          apply List.countP_congr
          intro a _
          simp only [Obj.is, Bool.and_eq_true, decide_eq_true_eq]
          exact ⟨fun c => ⟨c, fun e' => e (c.1 ▸ e')⟩, fun c => c.1⟩
        rw [h2, h2 s.heap]
        exact h1
    goneOwned := fun j hj => by
      rcases List.mem_cons.mp hj with rfl | c
      · exact ho
      · exact I.goneOwned j c }

theorem Inv.init : Inv cfg (init : State K V) where
  holder t pc i h := by cases h
  held i t h := by cases h
  shape o ho := by cases ho
  addrs := List.Pairwise.nil
  mem k p hp := by cases hp
  pcs t pc h := by cases h
  alive t pc k h := by cases h
  tab k _ := rfl
  goneTab k h := by cases h
  vals k _ x hx := by cases hx
  seq := True.intro
  owned k _ p := rfl
  goneOwned k h := by cases h

/-- The history is unchanged by a hit. -/
theorem interned_hit {l : List (Entry K V)} {t : Tid} {k : K} {q : Query V} {v : V} {p : Ptr} {x : Ptr × V}
    (hx : x ∈ interned l k) (he : (x.2 == v) = true) (j : K) :
    interned (⟨t, .intern k q v, .ptr p⟩ :: l) j = interned l j := by
  simp only [interned]
  rw [if_neg]
  rintro ⟨rfl, c⟩
  rw [List.any_eq_false] at c
  exact c x hx he

theorem Inv.run [EquivBEq V] [LawfulHashable V] (I : Inv cfg s) (lay : cfg.Layout) {t : Tid} {a : Nat} {pc : Pc K V} {s' : State K V}
    (h : s.threads[t]? = some pc) (hr : run cfg s t a pc = .ok s') : Inv cfg s' := by
  have hok := I.pcs t pc h
  cases pc with
  | idle => cases hr
  | want o =>
    simp only [Pool.run] at hr
    split at hr
    · cases hr
    · rename_i hl
      cases hr
      exact I.locked h (by simpa using hl)
  | inside o =>
    have hal : o.pool ∉ s.gone := I.alive t _ _ h rfl
    simp only [Pool.run, I.tableOk, if_true] at hr
    cases o with
    | intern k q v =>
      obtain ⟨lh, le⟩ := hok
      simp only at hr
      cases hf : find s k q with
      | some p =>
        rw [hf] at hr
        cases hr
        obtain ⟨hp, x, hx, _, e⟩ := find_hit hf
        exact I.pc h rfl ⟨⟨lh, le⟩, hp, x, hx, by rw [← le]; exact e⟩ (fun k' hk' => by cases hk'; exact hal)
          (fun _ _ => rfl) (fun _ _ => rfl)
      | none =>
        rw [hf] at hr
        cases hr
        refine I.pc h rfl ⟨⟨lh, le⟩, fun p hp x hx => ?_⟩ (fun k' hk' => by cases hk'; exact hal)
          (fun _ _ => rfl) (fun _ _ => rfl)
        cases e : (x == v) with
        | false => rfl
        | true =>
          have := I.find_miss lay hf p hp x hx (by rw [lh]; exact LawfulHashable.hash_eq _ _ e)
          rw [le, e] at this
          cases this
    | query k q =>
      simp only at hr
      cases hr
      refine I.commit h rfl ⟨hok, True.intro⟩ hal (fun _ _ => rfl) ?_ (fun _ => rfl)
      show (find s k q).isSome = _
      cases hf : find s k q with
      | some p =>
        obtain ⟨hp, x, hx, _, e⟩ := find_hit hf
        have := (I.stored lay hal).mp ⟨hp, hx⟩
        symm
        exact List.any_eq_true.mpr ⟨_, this, e⟩
      | none =>
        symm
        refine List.any_eq_false.mpr (fun x hx e => ?_)
        have := (I.stored lay hal).mpr hx
        have := I.find_miss lay hf x.1 this.1 x.2 this.2 (hok.1 _ e)
        rw [e] at this
        cases this
    | len k =>
      simp only at hr
      cases hr
      refine I.commit h rfl ⟨hok, True.intro⟩ hal (fun _ _ => rfl) ?_ (fun _ => rfl)
      show (s.table k).length = _
      rw [I.tab k hal, List.length_map]
    | clear k => exact hok.elim
  | build k q v =>
    simp only [Pool.run] at hr
    split at hr
    · cases hr
    · rename_i addr ha
      cases hr
      exact I.alloc lay h ha
  | insert k q v p =>
    simp only [Pool.run, I.tableOk, if_true] at hr
    cases hf : find s k (.ofVal v) with
    | some p' =>
      obtain ⟨hp, x, hx, _, e⟩ := find_hit hf
      have := hok.2.1 p' hp x hx
      have e' : (x == v) = true := e
      rw [this] at e'
      cases e'
    | none =>
      rw [hf] at hr
      cases hr
      exact I.inserted lay h
  | dropArg k q v p =>
    simp only [Pool.run] at hr
    cases hr
    obtain ⟨hl, hp, x, hx, e⟩ := hok
    have hal : k ∉ s.gone := I.alive t _ _ h rfl
    have hi := (I.stored lay hal).mp ⟨hp, hx⟩
    exact I.commit h rfl ⟨hl, hp, x, hx, e⟩ hal (fun _ _ => rfl) (.inl ⟨_, hi, rfl, e⟩) (interned_hit hi e)
  | leave o r =>
    simp only [Pool.run] at hr
    cases hr
    have J := I.unlocked h rfl (fun _ _ => rfl)
    exact { holder := J.holder, held := J.held, shape := J.shape, addrs := J.addrs, mem := J.mem, pcs := J.pcs,
            alive := J.alive, tab := J.tab, goneTab := J.goneTab, vals := J.vals, seq := J.seq, owned := J.owned,
            goneOwned := J.goneOwned }

theorem Inv.step [EquivBEq V] [LawfulHashable V] (I : Inv cfg s) (lay : cfg.Layout) {a : Act K V} {s' : State K V}
    (hl : a.Lawful) (h : step cfg s a = .ok s') : Inv cfg s' := by
  cases a with
  | spawn => cases h; exact I.spawn
  | call t o =>
    simp only [Pool.step] at h
    cases ht : s.threads[t]? with
    | none => rw [ht] at h; cases h
    | some pc =>
      rw [ht] at h
      cases pc with
      | idle =>
        simp only at h
        split at h
        · cases h
        · rename_i hg
          cases h
          exact I.pc ht rfl hl (fun k hk => by cases hk; exact hg) (fun _ _ => rfl) (fun _ _ => rfl)
      | _ => cases h
  | run t a =>
    simp only [Pool.step] at h
    cases ht : s.threads[t]? with
    | none => rw [ht] at h; cases h
    | some pc => rw [ht] at h; exact I.run lay ht h
  | panic t =>
    simp only [Pool.step] at h
    cases ht : s.threads[t]? with
    | none => rw [ht] at h; cases h
    | some pc =>
      rw [ht] at h
      cases pc with
      | idle => cases h
      | want o => cases h
      | leave o r => cases h
      | inside o => cases h; exact I.unlocked ht rfl (fun _ _ => rfl)
      | build k q v => cases h; exact I.unlocked ht rfl (fun _ _ => rfl)
      | dropArg k q v p => cases h; exact I.unlocked ht rfl (fun _ _ => rfl)
      | insert k q v p => cases h; exact I.insertPanic ht
  | dropArena k =>
    simp only [Pool.step] at h
    split at h
    · rename_i hc
      cases h
      simp only [Bool.and_eq_true] at hc
      refine I.dropped hc.1.1 (fun t pc ht => ?_)
      have := List.all_eq_true.mp hc.2 pc (List.mem_iff_getElem?.mpr ⟨t, ht⟩)
      simpa using this
    · cases h
  | read k p => exact hl.elim

theorem Reach.inv [EquivBEq V] [LawfulHashable V] (lay : cfg.Layout) (h : Reach cfg s) : Inv cfg s := by
  induction h with
  | init => exact Inv.init
  | step _ hl hs ih => exact ih.step lay hl hs

end
end Pool
