import Verif.Src.PoolGlobal
/-
New calls, and the whole program.
-/
namespace Src.PoolCode
open Arc (Res)
open Pool (Tid Ptr Query Ret Obj Cfg Entry Pc)

variable {K V : Type}

theorem push_calls {S : State K V} {t : Tid} {cs : List (Running K V)} (ht : S.threads[t]? = some cs) (c : Running K V) :
    (S.threads.set t (c :: cs)).flatten.Perm (c :: S.calls) := by
  obtain ⟨a, b, h1, h2⟩ := flatten_set ht
  rw [h2, State.calls, h1]
  exact List.perm_middle

variable [DecidableEq K] [BEq V] [Hashable V] {cfg : Cfg K V} {S : State K V} {s s' : Pool.State K V}

/-- A call starts. -/
theorem sim_push (h : Sim cfg S s) {t : Tid} {cs : List (Running K V)} (ht : S.threads[t]? = some cs) {call : Call K V} {f : Fr K V} {pc : Pc K V}
    {m' : Mem K V} {gone' : List K} {hist' : List (Event K V)} (hs : Shared gone' m' s') (h3 : s'.threads = s.threads ++ [pc])
    (h2 : s'.done = s.done) (hR : Rel cfg S.next s'.done call f pc) (hn : NestedFr f) (ha : Acct m' (owed f ++ debts S.calls))
    (hu : ∀ i, .unlock i ∉ owed f) (hl : m'.lock = S.mem.lock) (hh : m'.heap = S.mem.heap) (hsub : ∀ k ∈ S.gone, k ∈ gone')
    (hsup : ∀ k ∈ gone', k ∉ S.gone → ∀ x ∈ S.calls, x.call.pool ≠ k) (hnew : call.pool ∉ S.gone)
    (hA : ArenaOk { S with mem := m', gone := gone' } { id := S.next, call := call, frame := f })
    (hd : ∀ k, .dropped k ∈ hist' → .dropped k ∈ S.hist) (L : Lin hist' s') :
    Sim cfg { mem := m', gone := gone', threads := S.threads.set t ({ id := S.next, call := call, frame := f } :: cs),
              next := S.next + 1, hist := hist' } s' := by
  have p := push_calls ht { id := S.next, call := call, frame := f }
  have lt : ∀ x ∈ S.calls, x.id < S.next := by
    intro x hx
    obtain ⟨pcx, a1, _⟩ := h.rel x hx
    rw [← h.len]
    exact (List.getElem?_eq_some_iff.mp a1).1
  have hself : s'.threads[S.next]? = some pc := by
    rw [h3, ← h.len]; simp
  refine ⟨hs, ?_, ?_, ?_, ?_, ?_, ?_, ?_, ?_, ?_, L⟩
  · rw [h3, List.length_append, h.len]; rfl
  · intro x hx
    rcases List.mem_cons.mp (p.mem_iff.mp hx) with rfl | hx
    · exact ⟨pc, hself, hR, hn⟩
    · obtain ⟨pcx, a1, a2, a3⟩ := h.rel x hx
      exact ⟨pcx, by rw [h3, List.getElem?_append_left (by rw [h.len]; exact lt x hx)]; exact a1, by rw [h2]; exact a2, a3⟩
  · refine (p.map (·.id)).nodup_iff.mpr ?_
    rw [List.map_cons, List.nodup_cons]
    refine ⟨fun hm => ?_, h.nodup⟩
    obtain ⟨x, hx, e⟩ := List.mem_map.mp hm
    have := lt x hx
    simp only at e
    omega
  · intro u pu hu hne
    by_cases e : u < s.threads.length
    · rw [h3, List.getElem?_append_left e] at hu
      obtain ⟨x, hx, rfl⟩ := h.idle u pu hu hne
      exact ⟨x, p.mem_iff.mpr (List.mem_cons_of_mem _ hx), rfl⟩
    · have hlt := (List.getElem?_eq_some_iff.mp hu).1
      rw [h3, List.length_append, List.length_singleton] at hlt
      have : u = S.next := by rw [← h.len]; omega
      exact ⟨_, p.mem_iff.mpr List.mem_cons_self, this.symm⟩
  · exact ha.perm (debts_perm p)
  · intro u us hu' x hx i hi
    show m'.lock i = _
    rw [hl]
    rcases Pool.getElem?_set_cases hu' with ⟨rfl, rfl⟩ | ⟨_, hu'⟩
    · rcases List.mem_cons.mp hx with rfl | hx
      · exact absurd hi (hu i)
      · exact h.holder u _ ht x hx i hi
    · exact h.holder u us hu' x hx i hi
  · intro x hx
    rcases List.mem_cons.mp (p.mem_iff.mp hx) with rfl | hx
    · exact hA
    · have hx0 := h.arena x hx
      simp only [ArenaOk] at hx0 ⊢
      cases hcall : x.call with
      | op o b =>
        rw [hcall] at hx0
        exact fun hg => hsup _ hg hx0 x hx (by rw [hcall]; rfl)
      | dropArena k =>
        rw [hcall] at hx0
        exact ⟨hsub k hx0.1, fun hf q => by rw [hh]; exact hx0.2 hf q⟩
  · have key : ∀ x ∈ S.calls, x.call.pool = call.pool → call.pool ∈ gone' → False :=
      fun x hx e hg => hsup _ hg hnew x hx e
    intro x hx y hy hxy hg
    rcases List.mem_cons.mp (p.mem_iff.mp hx) with rfl | hx
    · rcases List.mem_cons.mp (p.mem_iff.mp hy) with rfl | hy
      · rfl
      · exact (key y hy hxy.symm hg).elim
    · rcases List.mem_cons.mp (p.mem_iff.mp hy) with rfl | hy
      · exact (key x hx hxy (by rw [hxy] at hg; exact hg)).elim
      · by_cases hg' : x.call.pool ∈ S.gone
        · exact h.uniq x hx y hy hxy hg'
        · exact absurd rfl (hsup _ hg hg' x hx)
  · intro k hk
    obtain ⟨d1, d2, d3⟩ := h.dropped k (hd k hk)
    refine ⟨hsub k d1, fun q => by rw [hh]; exact d2 q, fun x hx => ?_⟩
    rcases List.mem_cons.mp (p.mem_iff.mp hx) with rfl | hx
    · exact fun e => hnew (by rw [show call.pool = k from e]; exact d1)
    · exact d3 x hx

theorem sim_spawn (h : Sim cfg S s) : Sim cfg { S with threads := S.threads ++ [[]] } s := by
  have e : ({ S with threads := S.threads ++ [[]] } : State K V).calls = S.calls := by simp [State.calls]
  refine ⟨h.shared, h.len, ?_, ?_, ?_, ?_, ?_, ?_, ?_, ?_, h.lin⟩
  · rw [e]; exact h.rel
  · rw [e]; exact h.nodup
  · rw [e]; exact h.idle
  · rw [e]; exact h.acct
  · intro t cs ht
    by_cases hlt : t < S.threads.length
    · exact h.holder t cs (by rw [List.getElem?_append_left hlt] at ht; exact ht)
    · have hlt' : t < (S.threads ++ [[]]).length := (List.getElem?_eq_some_iff.mp ht).1
      rw [List.length_append, List.length_singleton] at hlt'
      have : t = S.threads.length := Nat.le_antisymm (Nat.lt_succ_iff.mp hlt') (Nat.not_lt.mp hlt)
      subst this
      have : cs = [] := by simpa using ht.symm
      subst this
      intro c hc; cases hc
  · rw [e]; exact h.arena
  · rw [e]; exact h.uniq
  · intro k hk
    rw [e]; exact h.dropped k hk

theorem set_last {α : Type} (l : List α) (a b : α) : (l ++ [a]).set l.length b = l ++ [b] := by simp

theorem start_owed {o : Pool.Op K V} {byRef : Bool} {f : Fr K V} (h : start cfg o byRef = some f) :
    owed f = (taken o byRef).map (fun p => .value p.1 p.2) ∧ NestedFr f ∧ Rel cfg S.next s.done (.op o byRef) f (.want o) := by
  have hA := At.want h
  obtain ⟨y, x, l, rfl, e⟩ := start_head h
  refine ⟨?_, ?_, .at hA⟩
  · rw [← e]
    simp only [owed, List.filterMap_cons, itGlue, List.filterMap_append, itGlue_stmts]
    simp [scsGlue, scGlue]
  · exact nested_stmts l 0 [.close] trivial

theorem sim_call (h : Sim cfg S s) (hr : Pool.Reach cfg s) {t : Tid} {o : Pool.Op K V} {byRef : Bool} (ho : o.Lawful)
    {S' : State K V} (hs : step cfg S (.call t o byRef) = .ok S') : ∃ s', Sim cfg S' s' ∧ Pool.Reach cfg s' ∧ s.log <:+ s'.log := by
  simp only [step] at hs
  cases ht : S.threads[t]? with
  | none => rw [ht] at hs; cases hs
  | some cs =>
    cases hf : start cfg o byRef with
    | none => rw [ht, hf] at hs; cases hs
    | some f =>
      rw [ht, hf] at hs
      simp only at hs
      split at hs
      · rename_i hc
        simp only [Bool.and_eq_true, Bool.not_eq_true', decide_eq_false_iff_not] at hc
        cases hs
        obtain ⟨e1, e2, e3⟩ := start_owed (S := S) (s := s) hf
        let s1 : Pool.State K V := { s with threads := s.threads ++ [.idle] }
        let s2 : Pool.State K V := { s with threads := s.threads ++ [.want o] }
        have r1 : Pool.Reach cfg s1 := .step (a := .spawn) hr trivial rfl
        have hstep : Pool.step cfg s1 (.call s.threads.length o) = .ok s2 := by
          have : s1.threads[s.threads.length]? = some .idle := by simp [s1]
          simp only [Pool.step, this]
          rw [if_neg (by show o.pool ∉ s.gone; rw [h.shared.gone]; exact hc.2)]
          congr 1
          simp only [Pool.State.at, s1, s2, set_last]
        have r2 : Pool.Reach cfg s2 := .step (a := .call s.threads.length o) r1 ho hstep
        refine ⟨s2, ?_, r2, List.suffix_rfl⟩
        refine sim_push (s' := s2) (pc := .want o) h ht ⟨h.shared.heap, h.shared.table, h.shared.gone⟩ rfl rfl e3 e2 ?_ ?_ rfl rfl (fun _ hk => hk)
          (fun k hk hk' => absurd hk hk') hc.2 hc.2 (fun k hk => by simpa using hk) ?_
        · rw [e1]
          have hA := h.acct
          refine ⟨fun i => ?_, ?_, ?_⟩
          · rw [← hA.locks i, List.countP_append]
            have : ((taken o byRef).map (fun p => (Glue.value p.1 p.2 : Glue K V))).countP (Glue.isUnlock i) = 0 := by
              rw [List.countP_eq_zero]
              intro g hg
              obtain ⟨p, _, rfl⟩ := List.mem_map.mp hg
              simp [Glue.isUnlock]
            omega
          · rw [List.filterMap_append]
            have : ((taken o byRef).map (fun p => (Glue.value p.1 p.2 : Glue K V))).filterMap Glue.husk? = [] := by
              rw [List.filterMap_eq_nil_iff]
              intro g hg
              obtain ⟨p, _, rfl⟩ := List.mem_map.mp hg
              rfl
            rw [this]
            exact hA.husks
          · rw [List.filterMap_append]
            have : ((taken o byRef).map (fun p => (Glue.value p.1 p.2 : Glue K V))).filterMap Glue.value? = taken o byRef := by
              rw [List.filterMap_map]
              exact List.filterMap_some
            rw [this, List.append_assoc]
            refine (List.Perm.append_left _ hA.values).trans ?_
            rw [← List.append_assoc]
            refine (List.Perm.append_right _ List.perm_append_comm).trans ?_
            rw [List.append_assoc]
        · rw [e1]
          intro i hi
          obtain ⟨p, _, e⟩ := List.mem_map.mp hi
          cases e
        · rw [← h.len]
          exact h.lin.call rfl rfl rfl
      · cases hs

theorem pend_drop (k : K) (l : List Ptr) : pend k ((lang cfg).enter [] (dropCode k l)) = l := by
  simp only [pend, Lang.enter, dropCode, List.filterMap_append, List.map_map, List.filterMap_map]
  simp [Function.comp_def]

variable [EquivBEq V] [LawfulHashable V]

theorem sim_drop (lay : cfg.Layout) (h : Sim cfg S s) (hr : Pool.Reach cfg s) {t : Tid} {k : K} {S' : State K V}
    (hs : step cfg S (.dropArena t k) = .ok S') : ∃ s', Sim cfg S' s' ∧ Pool.Reach cfg s' ∧ s.log <:+ s'.log := by
  have I := hr.inv lay
  simp only [step] at hs
  cases ht : S.threads[t]? with
  | none => rw [ht] at hs; cases hs
  | some cs =>
    rw [ht] at hs
    simp only at hs
    split at hs
    · rename_i hc
      simp only [Bool.and_eq_true, Bool.not_eq_true', decide_eq_false_iff_not, List.all_eq_true, decide_eq_true_eq] at hc
      obtain ⟨⟨⟨_, hown⟩, hng⟩, hall⟩ := hc
      cases hs
      have hcalls : ∀ x ∈ S.calls, x.call.pool ≠ k := by
        intro x hx
        obtain ⟨us, h1, h2⟩ := List.mem_flatten.mp hx
        exact hall us h1 x h2
      have hpool : ∀ pc ∈ s.threads, pc.pool? ≠ some k := by
        intro pc hpc hk
        obtain ⟨u, hu⟩ := List.mem_iff_getElem?.mp hpc
        obtain ⟨c, hc, rfl⟩ := h.idle u pc hu (by intro e; subst e; cases hk)
        obtain ⟨pc', a1, a2, _⟩ := h.rel c hc
        rw [hu] at a1; cases a1
        exact hcalls c hc (a2.pool hk)
      have noins : ∀ p, s.threads.countP (Pc.isInsert k p) = 0 := by
        intro p
        rw [List.countP_eq_zero]
        intro pc hpc hi
        refine hpool pc hpc ?_
        cases pc <;> simp_all [Pc.isInsert, Pc.pool?]
      have hown' : ∀ p, s.heap.countP (Obj.is k p) = (s.table k).count p := fun p => by rw [I.owned k hown p, noins]; rfl
      let s1 : Pool.State K V := { s with threads := s.threads ++ [.idle] }
      let s2 : Pool.State K V := { (s1.setTable k []) with heap := (s.table k).foldl (fun h p => Pool.free h k p) s.heap, gone := k :: s.gone }
      have r1 : Pool.Reach cfg s1 := .step (a := .spawn) hr trivial rfl
      have hstep : Pool.step cfg s1 (.dropArena k) = .ok s2 := by
        simp only [Pool.step]
        rw [if_pos]
        · simp only [Bool.and_eq_true, Bool.not_eq_true', decide_eq_false_iff_not, List.all_eq_true, decide_eq_true_eq]
          refine ⟨⟨hown, by show k ∉ s.gone; rw [h.shared.gone]; exact hng⟩, fun pc hpc => ?_⟩
          rcases List.mem_append.mp hpc with hpc | hpc
          · exact hpool pc hpc
          · simp only [List.mem_singleton] at hpc
            subst hpc; simp [Pc.pool?]
      have r2 : Pool.Reach cfg s2 := .step (a := .dropArena k) r1 trivial hstep
      have hheap : s2.heap = S.mem.heap.filter fun o => decide (o.pool ∉ k :: S.gone) := by
        show (s.table k).foldl (fun h p => Pool.free h k p) s.heap = _
        have e1 := Pool.foldl_free_other k (s.table k) s.heap
        have e2 : (s.table k).foldl (fun h p => Pool.free h k p) s.heap =
            ((s.table k).foldl (fun h p => Pool.free h k p) s.heap).filter (fun o => decide (o.pool ≠ k)) := by
          refine (List.filter_eq_self.mpr fun o ho => ?_).symm
          simp only [decide_eq_true_eq]
          intro e
          have := Pool.foldl_free_count k (s.table k) s.heap hown' o.ptr
          rw [List.countP_eq_zero] at this
          exact this o ho (by simp [Obj.is, e])
        rw [e2, e1, h.shared.heap, List.filter_filter]
        apply List.filter_congr
        intro o _
        simp
      refine ⟨s2, ?_, r2, List.suffix_rfl⟩
      refine sim_push (s' := s2) (pc := .idle) (f := (lang cfg).enter [] (dropCode k (S.mem.table k))) h ht ⟨hheap, ?_, ?_⟩ rfl rfl
        (.drop (gs := []) .none) ?_ ?_ ?_ rfl rfl (fun _ hk => List.mem_cons_of_mem _ hk) ?_ hng ?_ (fun k hk => hk) (h.lin.idle rfl rfl rfl)
      · show (fun j => if j = k then [] else s.table j) = _
        rw [h.shared.table]
      · show k :: s.gone = _
        rw [h.shared.gone]
      · exact nested_stmts _ 0 [.close] trivial
      · have : owed ((lang cfg).enter [] (dropCode k (S.mem.table k))) = ([] : List (Glue K V)) := by
          simp only [owed, Lang.enter, List.filterMap_append, itGlue_stmts]
          rfl
        rw [this]
        exact ⟨h.acct.locks, h.acct.husks, h.acct.values⟩
      · intro i hi
        have : owed ((lang cfg).enter [] (dropCode k (S.mem.table k))) = ([] : List (Glue K V)) := by
          simp only [owed, Lang.enter, List.filterMap_append, itGlue_stmts]
          rfl
        rw [this] at hi; cases hi
      · intro j hj hj'
        rcases List.mem_cons.mp hj with rfl | hj
        · exact hcalls
        · exact absurd hj hj'
      · simp only [ArenaOk]
        refine ⟨List.mem_cons_self, fun _ p => ?_⟩
        rw [pend_drop]
        have e1 := hown' p
        rw [h.shared.table, h.shared.heap, List.countP_filter] at e1
        rw [← e1]
        apply List.countP_congr
        intro o _
        simp only [Obj.is, Bool.and_eq_true, decide_eq_true_eq]
        constructor
        · rintro ⟨rfl, rfl⟩; exact ⟨⟨rfl, rfl⟩, hng⟩
        · exact fun x => x.1
    · cases hs

omit [EquivBEq V] [LawfulHashable V] in
theorem sim_init : Sim cfg init (Pool.init : Pool.State K V) := by
  have e : (init : State K V).calls = [] := rfl
  refine ⟨⟨rfl, rfl, rfl⟩, rfl, ?_, ?_, ?_, ?_, ?_, ?_, ?_, ?_, ?_⟩
  · rw [e]; intro c hc; cases hc
  · rw [e]; exact List.nodup_nil
  · intro u pc hu; cases hu
  · rw [e]; exact ⟨fun i => rfl, .refl _, .refl _⟩
  · intro t cs ht; cases ht
  · rw [e]; intro c hc; cases hc
  · rw [e]; intro c hc; cases hc
  · intro k hk; cases hk
  · refine ⟨?_, ?_, ?_, ?_, ?_, ?_⟩
    · intro j o hj; cases hj
    · intro u pc o hu; cases hu
    · intro e he; cases he
    · intro u pc hu; cases hu
    · intro e he; cases he
    · intro h2 j o h1 e newer e' older hh
      exact absurd hh (by simp [init])

theorem sim_step (lay : cfg.Layout) (h : Sim cfg S s) (hr : Pool.Reach cfg s) {act : Act K V} (hl : act.Lawful) {S' : State K V}
    (hs : step cfg S act = .ok S') : ∃ s', Sim cfg S' s' ∧ Pool.Reach cfg s' ∧ s.log <:+ s'.log := by
  cases act with
  | spawn => cases hs; exact ⟨s, sim_spawn h, hr, List.suffix_rfl⟩
  | call t o byRef => exact sim_call h hr hl hs
  | dropArena t k => exact sim_drop lay h hr hs
  | run t a => exact (sim_run lay h hr t a).2 S' hs
  | panic t => exact (sim_panic h hr t).2 S' hs

/-- Every state of the program belongs to a state of the model. -/
theorem Reach.sim (lay : cfg.Layout) (h : Reach cfg S) : ∃ s, Sim cfg S s ∧ Pool.Reach cfg s := by
  induction h with
  | init => exact ⟨_, sim_init, .init⟩
  | step _ hl hs ih =>
    obtain ⟨s, h, hr⟩ := ih
    obtain ⟨s', h1, h2, _⟩ := sim_step lay h hr hl hs
    exact ⟨s', h1, h2⟩

theorem Later.sim (lay : cfg.Layout) {S' : State K V} (h : Later cfg S S') (h1 : Sim cfg S s) (hr : Pool.Reach cfg s) :
    ∃ s', Sim cfg S' s' ∧ Pool.Reach cfg s' ∧ s.log <:+ s'.log := by
  induction h with
  | refl => exact ⟨s, h1, hr, List.suffix_rfl⟩
  | step _ hl hs ih =>
    obtain ⟨s1, h1, h2, h3⟩ := ih
    obtain ⟨s', h4, h5, h6⟩ := sim_step lay h1 h2 hl hs
    exact ⟨s', h4, h5, h3.trans h6⟩

end Src.PoolCode
