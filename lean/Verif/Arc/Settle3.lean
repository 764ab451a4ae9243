import Verif.Arc.Settle2
/-! The simulation of `Settle.lean`, step by step. -/
namespace Arc
variable {V : Type} [BEq V]

omit [BEq V] in
theorem vac_of {th : Thread V} {pc : Pc V} (h : th.pc = pc) : th.pc.vac = pc.vac := by rw [h]

/-- The other side does nothing: the thread is inside its critical section. -/
theorem sim_stutters [EquivBEq V] {h2 : Hashable V} {cfg : Cfg V} {n : Nat} {f : UInt64 → Nat} {s s' u : State V} {l : List (Event V)}
    {t : Tid} {th th' : Thread V} {n0 : Addr} (S : Sim cfg s u) (ht : s.threads[t]? = some th)
    (hs : s'.threads = s.threads.set t th') (hi : th'.isIdle = false) (he : th'.settle cfg = th.settle cfg)
    (hh : s'.handles = s.handles) (hz : s'.zombies = s.zombies) (hheap : settleHeap s'.heap (U s') = settleHeap s.heap (U s))
    (htab : ∀ p, T s p + th.pc.vac.count p = T s' p + th'.pc.vac.count p) (H : @Witnessed V _ h2 (cfg.reshard n f) l u) :
    ∃ u', @Witnessed V _ h2 (cfg.reshard n f) (l ++ (begins cfg s (.run t n0) ++ ends s (.run t n0) s')) u' ∧ Sim cfg s' u' := by
  refine ⟨u, ?_, S.stutter ht hs he hh hz hheap htab⟩
  have h1 : begins cfg s (.run t n0) ++ ends s (.run t n0) s' = [] := by
    show [] ++ Arc.ending t s s' = []
    have : s'.threads[t]? = some th' := by rw [hs]; exact set_get ht _
    simp only [List.nil_append, Arc.ending, ht, this, hi]
    rfl
  rwa [h1, List.append_nil]

/-- The other side does several steps without visible effects. -/
theorem sim_several {h2 : Hashable V} {cfg : Cfg V} {n : Nat} {f : UInt64 → Nat} {s s' u' : State V} {l : List (Event V)}
    {t : Tid} {th th' : Thread V} {n0 : Addr} (ht : s.threads[t]? = some th) (hs : s'.threads = s.threads.set t th') (hi : th'.isIdle = false)
    (S : Sim cfg s' u') (H : @Witnessed V _ h2 (cfg.reshard n f) l u') :
    ∃ u', @Witnessed V _ h2 (cfg.reshard n f) (l ++ (begins cfg s (.run t n0) ++ ends s (.run t n0) s')) u' ∧ Sim cfg s' u' := by
  refine ⟨u', ?_, S⟩
  have h1 : begins cfg s (.run t n0) ++ ends s (.run t n0) s' = [] := by
    show [] ++ Arc.ending t s s' = []
    have : s'.threads[t]? = some th' := by rw [hs]; exact set_get ht _
    simp only [List.nil_append, Arc.ending, ht, this, hi]
    rfl
  rwa [h1, List.append_nil]

theorem sim_run (h2 : Hashable V) (l2 : @LawfulHashable V _ h2) [EquivBEq V] [Hashable V] [LawfulHashable V] {cfg : Cfg V} {n : Nat} {f : UInt64 → Nat}
    (hv : cfg.Valid) {s s' u : State V} {l : List (Event V)} {t : Tid} {th : Thread V} {a : Addr} (S : Sim cfg s u) (I : Inv cfg s) (I' : Inv cfg s')
    (hsc : th.pc.scans = false) (ht : s.threads[t]? = some th) (hr : RunR cfg s t th a s') (H : @Witnessed V _ h2 (cfg.reshard n f) l u) :
    ∃ u', @Witnessed V _ h2 (cfg.reshard n f) (l ++ (begins cfg s (.run t a) ++ ends s (.run t a) s')) u' ∧ Sim cfg s' u' := by
  have hu := S.thread ht
  have hok := S.tableOk I
  have hsm : Small (cfg.reshard n f) u := S.small I hv
  have TI := I.th t th ht
  -- one step on both sides
  have one : ∀ {u' : State V}, (th.settle cfg).ret = th.ret → @Arc.step V _ h2 (cfg.reshard n f) u (.run t a) = .ok u' → Sim cfg s' u' →
      ∃ u', @Witnessed V _ h2 (cfg.reshard n f) (l ++ (begins cfg s (.run t a) ++ ends s (.run t a) s')) u' ∧ Sim cfg s' u' := by
    intro u' hr e S'
    refine ⟨u', ?_, S'⟩
    have h := @Witnessed.step V _ h2 (cfg.reshard n f) l u u' (.run t a) H trivial (fun _ _ _ => ⟨by simp, by simp⟩) e (S'.small I' hv)
    have h1 : ends u (.run t a) u' = ends s (.run t a) s' := S.ending S' ht hr
    rwa [h1, S.begins I] at h
  have tab : ∀ {th' : Thread V} {s1 u1 : State V}, th.pc.vac = [] → th'.pc.vac = [] → s1.table = s.table → u1.table = u.table →
      ∀ p, T u1 p + T s p + th.pc.vac.count p = T u p + T s1 p + th'.pc.vac.count p := by
    intro th' s1 u1 h1 h2 h3 h4 p
    simp only [T, h1, h2, h3, h4]
  cases hr with
  | todo p ps hpc htodo =>
    have he : th.settle cfg = th := by simp [Thread.settle, hpc]
    rw [he] at hu
    refine one (by rw [he]) (u' := u.setThread t { th with pc := .dropSub p, todo := ps }) ?_ ?_
    · simp only [Arc.step, hu, Arc.run, hpc, htodo]
    · refine S.next ht rfl rfl S.locks S.handles S.zombies ?_ (tab (vac_of hpc) rfl rfl rfl)
      rw [U_set ht rfl (by rw [hpc]; rfl)]; exact S.heap
  | ret b hpc htodo hret =>
    have he : th.settle cfg = th := by simp [Thread.settle, hpc]
    rw [he] at hu
    refine one (by rw [he]) (u' := { u.setThread t {} with handles := b :: u.handles }) ?_ ?_
    · simp only [Arc.step, hu, Arc.run, hpc, htodo, hret]
    · refine S.next ht rfl rfl S.locks (congrArg (b :: ·) S.handles) S.zombies ?_ (tab (vac_of hpc) rfl rfl rfl)
      rw [U_set ht rfl (by rw [hpc])]; exact S.heap
  | found c b hpc hl hf =>
    refine sim_stutters S ht rfl rfl ?_ rfl rfl ?_ (fun p => ?_) H
    · simp only [Thread.settle, hpc]
      rcases th with ⟨pc, todo, ret, arg⟩
      simp only at hpc
      subst hpc
      rfl
    · rw [U_set ht rfl (by rw [hpc]; rfl)]; rfl
    · simp only [hpc, Pc.vac]; rfl
  | cached c b hpc hl hf hc =>
    have he : th.settle cfg = th := by simp [Thread.settle, hpc]
    rw [he] at hu
    have hf2 := @find_absent V _ h2 u c.val (S.absent I hf hl)
    refine one (by rw [he]) (u' := u.setThread t { th with pc := .newEntry { c with conv := none } b }) ?_ ?_
    · simp only [Arc.step, hu, Arc.run, hpc, S.locks, hok, hf2, hc, Option.isSome_none, Bool.not_true, Bool.false_eq_true, if_false]
    · refine S.next ht rfl rfl S.locks S.handles S.zombies ?_ (tab (vac_of hpc) rfl rfl rfl)
      rw [U_set ht rfl (by rw [hpc]; rfl)]; exact S.heap
  | missing c hpc hl hf hc =>
    have he : th.settle cfg = th := by simp [Thread.settle, hpc]
    rw [he] at hu
    have hf2 := @find_absent V _ h2 u c.val (S.absent I hf hl)
    refine one (by rw [he]) (u' := u.setThread t { th with pc := .newAlloc c }) ?_ ?_
    · simp only [Arc.step, hu, Arc.run, hpc, S.locks, hok, hf2, hc, Option.isSome_none, Bool.not_true, Bool.false_eq_true, if_false]
    · refine S.next ht rfl rfl S.locks S.handles S.zombies ?_ (tab (vac_of hpc) rfl rfl rfl)
      rw [U_set ht rfl (by rw [hpc]; rfl)]; exact S.heap
  | hit c sh b x hpc hx hc =>
    have hp := TI.pc
    rw [hpc] at hp
    obtain ⟨_, hsh, hm⟩ := hp
    have hm' := hm
    obtain ⟨hb, y, hy, hyv⟩ := hm'
    rw [hx] at hy; cases hy
    have h0 : U s b = 0 := I.no_undo ht hx (by rw [hpc, shardOf_congr hyv, ← hsh]; rfl) (by rw [hpc]; exact List.not_mem_nil)
    have hgx := S.get' hx h0
    have hf2 := @find_unique V _ h2 l2 u c.val b x (S.mem.mpr (Or.inl hb)) hgx hyv (S.uniq I hm)
    have he : th.settle cfg = { th with pc := .newLoop c } := by simp [Thread.settle, hpc]
    rw [he] at hu
    have htd := TI.empty (by rw [hpc]; rfl)
    have S' : Sim cfg ({ s with heap := setCount s.heap b (cfg.inc x.count) }.setThread t { th with pc := .newHit c sh b })
        ({ u with heap := setCount u.heap b (cfg.inc x.count) }.setThread t (unwindCall cfg c (some b) th.arg)) := by
      refine S.next ht rfl rfl S.locks S.handles S.zombies ?_ (tab (vac_of hpc) rfl rfl rfl)
      rw [U_set ht rfl (by rw [hpc]; rfl)]
      simp only [State.setThread, S.heap]
      exact (settle_setCount s.heap (U s) (U s) b _ _ (fun _ _ => rfl) (by rw [h0]; rfl)).symm
    exact sim_several ht rfl rfl S' (@Witnessed.hit V _ h2 (cfg.reshard n f) l u H t { th with pc := .newLoop c } c b x S.locks hok hsm hu rfl htd hf2 hgx hc (S'.small I' hv))
  | dying c sh b x hpc hx hc =>
    have hp := TI.pc
    rw [hpc] at hp
    obtain ⟨_, hsh, hb, y, hy, hyv⟩ := hp
    rw [hx] at hy; cases hy
    have h0 : U s b = 0 := I.no_undo ht hx (by rw [hpc, shardOf_congr hyv, ← hsh]; rfl) (by rw [hpc]; exact List.not_mem_nil)
    have hU := undoing_set s.threads { th with pc := .newUndo c sh b } ht
    refine sim_stutters S ht rfl rfl (by simp only [Thread.settle, hpc]) rfl rfl ?_ (fun p => by simp only [hpc, Pc.vac]; rfl) H
    refine settle_same s.heap I.nd _ _ b x _ hx (fun p hne => ?_) ?_
    · have := hU p
      rw [hpc] at this
      change _ + List.count p [] = _ + List.count p [b] at this
      rw [List.count_nil, List.count_singleton, beq_eq_false_iff_ne.mpr (Ne.symm hne)] at this
      exact this
    · have := hU b
      rw [hpc] at this
      change _ + List.count b [] = _ + List.count b [b] at this
      rw [List.count_nil, List.count_singleton_self] at this
      have h1 : cfg.inc x.count = 1 := by rw [hc]; exact Nat.mod_eq_of_lt hv.W_ge
      have h2 : U ({ s with heap := setCount s.heap b (cfg.inc x.count) }.setThread t { th with pc := .newUndo c sh b }) b = 1 := by
        simp only [U, State.setThread]
        simp only [U] at h0
        omega
      rw [h1] at h2 ⊢
      rw [h2, hc, Nat.zero_sub]
  | undo c sh b x hpc hx =>
    have hp := TI.pc
    rw [hpc] at hp
    obtain ⟨_, hsh, hb, y, hy, hyv⟩ := hp
    have h0 : U s b = 1 := I.one_undo ht hpc
    have hU := undoing_set s.threads { th with pc := .newRelease c sh } ht
    have h3 := I.undo b (by omega)
    have h4 := I.cnt b x h3.1 hx
    refine sim_stutters S ht rfl rfl (by simp only [Thread.settle, hpc]) rfl rfl ?_ (fun p => by simp only [hpc, Pc.vac]; rfl) H
    refine settle_same s.heap I.nd _ _ b x _ hx (fun p hne => ?_) ?_
    · have := hU p
      rw [hpc] at this
      change _ + List.count p [b] = _ + List.count p [] at this
      rw [List.count_nil, List.count_singleton, beq_eq_false_iff_ne.mpr (Ne.symm hne)] at this
      exact this
    · have h5 : cfg.dec x.count = 0 := by
        have := hv.W_ge
        rw [dec_eq (by omega) (by omega)]; omega
      rw [h5]; omega
  | release c sh hpc =>
    refine sim_stutters S ht rfl rfl (by simp only [Thread.settle, hpc]) rfl rfl ?_ (fun p => by simp only [hpc, Pc.vac]; rfl) H
    rw [U_set ht rfl (by rw [hpc]; rfl)]; rfl
  | hitRet c sh b hpc =>
    refine sim_stutters S ht rfl (by simp [unwindCall, Thread.isIdle]) ?_ rfl rfl ?_ (fun p => ?_) H
    · simp only [Thread.settle, hpc]
      cases hc : c.conv <;> simp [unwindCall, hc]
    · rw [U_set ht rfl (by rw [hpc]; cases hc : c.conv <;> simp [unwindCall, hc, Pc.undoing])]; rfl
    · simp only [hpc]
      cases hc : c.conv <;> simp only [unwindCall, hc, Pc.vac] <;> rfl
  | alloc c hpc h0 hk =>
    have he : th.settle cfg = th := by simp [Thread.settle, hpc]
    rw [he] at hu
    have hk2 : a ∉ keys u.heap := by rw [S.heap, keys_settle]; exact hk
    have hU : U s a = 0 := by
      rcases Nat.eq_zero_or_pos (U s a) with h | h
      · exact h
      · exact absurd (I.mem_keys (List.count_pos_iff.mp (I.undo a h).1)) hk
    refine one (by rw [he]) (u' := { u with heap := (a, { count := 1, data := c.val }) :: u.heap }.setThread t { th with pc := .newEntry c a }) ?_ ?_
    · simp only [Arc.step, hu, Arc.run, hpc, h0, hk2, or_self, if_false]
    · refine S.next ht rfl rfl S.locks S.handles S.zombies ?_ (tab (vac_of hpc) rfl rfl rfl)
      rw [U_set ht rfl (by rw [hpc]; rfl)]
      simp only [State.setThread, S.heap, settleHeap, List.map_cons, hU, Nat.sub_zero]
  | vacant c b x hpc hx hl hf =>
    have he : th.settle cfg = th := by simp [Thread.settle, hpc]
    rw [he] at hu
    have hgx := S.get' hx (I.calm_priv ht (p := b) (by rw [hpc]; exact List.mem_singleton.mpr rfl))
    have hf2 := @find_absent V _ h2 u x.data (S.absent I hf hl)
    have htd := TI.empty (by rw [hpc]; rfl)
    have S' : Sim cfg ((s.lock (cfg.shardOf x.data) t).setThread t { th with pc := .newVacant c (cfg.shardOf x.data) b })
        ({ u with table := b :: u.table }.setThread t { pc := .idle, todo := [], ret := some b, arg := th.arg }) := by
      refine S.next ht rfl rfl S.locks S.handles S.zombies ?_ fun p => ?_
      · rw [U_set ht rfl (by rw [hpc]; rfl)]; exact S.heap
      · simp only [hpc, Pc.vac, T, State.setThread, State.lock, List.count_cons, List.count_nil]; omega
    exact sim_several ht rfl rfl S' (@Witnessed.insert V _ h2 (cfg.reshard n f) l u H t _ c b x S.locks hok hsm hu hpc htd hf2 hgx (S'.small I' hv))
  | occupied c b r x hpc hx hl hf =>
    have he : th.settle cfg = th := by simp [Thread.settle, hpc]
    rw [he] at hu
    have hgx := S.get' hx (I.calm_priv ht (p := b) (by rw [hpc]; exact List.mem_singleton.mpr rfl))
    have hm := find_some hf
    obtain ⟨hr, y, hy, hyv⟩ := hm
    have hf2 := @find_unique V _ h2 l2 u x.data r _ (S.mem.mpr (Or.inl hr)) (S.get hy) hyv (S.uniq I (find_some hf))
    have S' : Sim cfg ((s.lock (cfg.shardOf x.data) t).setThread t { th with pc := .newOccupied c (cfg.shardOf x.data) b })
        (u.setThread t (if c.dst then { th with pc := .newLoop { c with conv := some b } } else { th with pc := .newUnbox c b })) := by
      refine S.next ht rfl rfl S.locks S.handles S.zombies ?_ (tab (vac_of hpc) rfl rfl rfl)
      rw [U_set ht rfl (by rw [hpc]; rfl)]; exact S.heap
    exact sim_several ht rfl rfl S' (@Witnessed.occupied V _ h2 (cfg.reshard n f) l u H t _ _ c b r x S.locks hok hsm hu hpc hf2 hgx rfl (S'.small I' hv))
  | insert c sh b hpc =>
    refine sim_stutters S ht rfl rfl (by simp only [Thread.settle, hpc]) rfl rfl ?_ (fun p => ?_) H
    · rw [U_set ht rfl (by rw [hpc]; rfl)]; rfl
    · simp only [hpc, Pc.vac, T, State.setThread, List.count_cons, List.count_nil]; omega
  | inserted c sh b hpc =>
    refine sim_stutters S ht rfl rfl (by simp only [Thread.settle, hpc]) rfl rfl ?_ (fun p => by simp only [hpc, Pc.vac]; rfl) H
    rw [U_set ht rfl (by rw [hpc]; rfl)]; rfl
  | cache c sh b hpc hd =>
    refine sim_stutters S ht rfl rfl (by simp only [Thread.settle, hpc, hd, if_true]) rfl rfl ?_ (fun p => by simp only [hpc, Pc.vac]; rfl) H
    rw [U_set ht rfl (by rw [hpc]; rfl)]; rfl
  | intoKey c sh b hpc hd =>
    refine sim_stutters S ht rfl rfl (by simp only [Thread.settle, hpc, hd, Bool.false_eq_true, if_false]) rfl rfl ?_
      (fun p => by simp only [hpc, Pc.vac]; rfl) H
    rw [U_set ht rfl (by rw [hpc]; rfl)]; rfl
  | unbox c b x hpc hx =>
    have he : th.settle cfg = th := by simp [Thread.settle, hpc]
    rw [he] at hu
    refine one (by rw [he]) (u' := { u with heap := Arc.free u.heap b }.setThread t { th with pc := .newLoop { c with val := x.data } }) ?_ ?_
    · simp only [Arc.step, hu, Arc.run, hpc, S.get hx]
    · refine S.next ht rfl rfl S.locks S.handles S.zombies ?_ (tab (vac_of hpc) rfl rfl rfl)
      rw [U_set ht rfl (by rw [hpc]; rfl)]
      simp only [State.setThread, S.heap]
      exact (settle_free _ _ _).symm
  | subLast b x hpc hx hc =>
    have he : th.settle cfg = th := by simp [Thread.settle, hpc]
    rw [he] at hu
    have h0 := I.calm_count (mem_owned_A ht (b := b) (by simp [Thread.owned, Pc.owned, hpc]))
    refine one (by rw [he]) (u' := { u with heap := setCount u.heap b (cfg.dec x.count) }.setThread t { th with pc := .dropRemove b }) ?_ ?_
    · simp only [Arc.step, hu, Arc.run, hpc, S.get' hx h0, hc, if_true]; rfl
    · refine S.next ht rfl rfl S.locks S.handles S.zombies ?_ (tab (vac_of hpc) rfl rfl rfl)
      rw [U_set ht rfl (by rw [hpc]; rfl)]
      simp only [State.setThread, S.heap]
      exact (settle_setCount s.heap (U s) (U s) b _ _ (fun _ _ => rfl) (by rw [h0]; rfl)).symm
  | sub b x hpc hx hc =>
    have he : th.settle cfg = th := by simp [Thread.settle, hpc]
    rw [he] at hu
    have h0 := I.calm_count (mem_owned_A ht (b := b) (by simp [Thread.owned, Pc.owned, hpc]))
    refine one (by rw [he]) (u' := { u with heap := setCount u.heap b (cfg.dec x.count) }.setThread t { th with pc := .idle }) ?_ ?_
    · simp only [Arc.step, hu, Arc.run, hpc, S.get' hx h0, hc, if_false]; rfl
    · refine S.next ht rfl rfl S.locks S.handles S.zombies ?_ (tab (vac_of hpc) rfl rfl rfl)
      rw [U_set ht rfl (by rw [hpc]; rfl)]
      simp only [State.setThread, S.heap]
      exact (settle_setCount s.heap (U s) (U s) b _ _ (fun _ _ => rfl) (by rw [h0]; rfl)).symm
  | remove b r x hpc hx hl hf =>
    have he : th.settle cfg = th := by simp [Thread.settle, hpc]
    rw [he] at hu
    obtain ⟨hr, y, hy, hyv⟩ := find_some hf
    have hf2 := @find_unique V _ h2 l2 u x.data r _ (S.mem.mpr (Or.inl hr)) (S.get hy) hyv (S.uniq I (find_some hf))
    refine one (by rw [he]) (u' := { u with table := u.table.erase r }.setThread t { th with pc := .dropFree r }) ?_ ?_
    · simp only [Arc.step, hu, Arc.run, hpc, S.get hx, S.locks, hok, hf2, Option.isSome_none, Bool.not_true, Bool.false_eq_true, if_false]
    · refine S.next ht rfl rfl S.locks S.handles S.zombies ?_ fun p => ?_
      · rw [U_set ht rfl (by rw [hpc]; rfl)]; exact S.heap
      · have h1 := S.table p
        have h3 : 0 < s.table.count r := List.count_pos_iff.mpr hr
        simp only [T] at h1
        simp only [hpc, Pc.vac, T, State.setThread, count_erase', List.count_nil]
        by_cases hp : r = p
        · subst hp
          simp only [if_true]; omega
        · simp only [hp, if_false]; omega
  | removeNone b x hpc hx hl hf =>
    have he : th.settle cfg = th := by simp [Thread.settle, hpc]
    rw [he] at hu
    have hf2 := @find_absent V _ h2 u x.data (S.absent I hf hl)
    refine one (by rw [he]) (u' := u.setThread t { th with pc := .idle }) ?_ ?_
    · simp only [Arc.step, hu, Arc.run, hpc, S.get hx, S.locks, hok, hf2, Option.isSome_none, Bool.not_true, Bool.false_eq_true, if_false]
    · refine S.next ht rfl rfl S.locks S.handles S.zombies ?_ (tab (vac_of hpc) rfl rfl rfl)
      rw [U_set ht rfl (by rw [hpc]; rfl)]; exact S.heap
  | free b x hpc hx =>
    have he : th.settle cfg = th := by simp [Thread.settle, hpc]
    rw [he] at hu
    refine one (by rw [he]) (u' := { u with heap := Arc.free u.heap b }.setThread t { th with pc := .idle, todo := cfg.kids x.data ++ th.todo }) ?_ ?_
    · simp only [Arc.step, hu, Arc.run, hpc, S.get hx]; rfl
    · refine S.next ht rfl rfl S.locks S.handles S.zombies ?_ (tab (vac_of hpc) rfl rfl rfl)
      rw [U_set ht rfl (by rw [hpc]; rfl)]
      simp only [State.setThread, S.heap]
      exact (settle_free _ _ _).symm
  | lenScan i m acc hpc => rw [hpc] at hsc; cases hsc
  | lenEnd i m acc hpc => rw [hpc] at hsc; cases hsc
  | lenDone k hpc => rw [hpc] at hsc; cases hsc
  | shrink i m hpc => rw [hpc] at hsc; cases hsc
  | shrinkEnd i m hpc => rw [hpc] at hsc; cases hsc
theorem sim_step (h2 : Hashable V) (l2 : @LawfulHashable V _ h2) [EquivBEq V] [Hashable V] [LawfulHashable V] {cfg : Cfg V} {n : Nat}
    {f : UInt64 → Nat} (hv : cfg.Valid) {s s' u : State V} {l : List (Event V)} {a : Act V} (S : Sim cfg s u) (I : Inv cfg s) (I' : Inv cfg s')
    (hsc : ∀ th ∈ s.threads, th.pc.scans = false) (hsane : a.Sane) (hns : ∀ t lo up, a ≠ .len t lo up ∧ a ≠ .shrink t lo up)
    (e : step cfg s a = .ok s') (H : @Witnessed V _ h2 (cfg.reshard n f) l u) :
    ∃ u', @Witnessed V _ h2 (cfg.reshard n f) (l ++ (begins cfg s a ++ ends s a s')) u' ∧ Sim cfg s' u' := by
  -- one step on both sides
  have one : ∀ {u' : State V}, ends u a u' = ends s a s' → @Arc.step V _ h2 (cfg.reshard n f) u a = .ok u' → Sim cfg s' u' →
      ∃ u', @Witnessed V _ h2 (cfg.reshard n f) (l ++ (begins cfg s a ++ ends s a s')) u' ∧ Sim cfg s' u' := by
    intro u' hr e S'
    refine ⟨u', ?_, S'⟩
    have h := @Witnessed.step V _ h2 (cfg.reshard n f) l u u' a H hsane hns e (S'.small I' hv)
    rwa [hr, S.begins I] at h
  have hR := step_R e
  have idle : ∀ {t : Tid} {th : Thread V}, s.threads[t]? = some th → th.isIdle = true → th.pc = .idle := by
    intro t th _ hi
    rcases th with ⟨pc, todo, ret, arg⟩
    cases pc <;> simp [Thread.isIdle] at hi ⊢
  have tab : ∀ {th th' : Thread V} {s1 u1 : State V}, th.pc.vac = [] → th'.pc.vac = [] → s1.table = s.table → u1.table = u.table →
      ∀ p, T u1 p + T s p + th.pc.vac.count p = T u p + T s1 p + th'.pc.vac.count p := by
    intro th th' s1 u1 h1 h2 h3 h4 p
    simp only [T, h1, h2, h3, h4]
  cases hR with
  | spawn =>
    refine one (u' := { u with threads := u.threads ++ [{}] }) rfl rfl ?_
    have h0 : U { s with threads := s.threads ++ [{}] } = U s := by
      funext p
      simp [U, Pc.undoing]
    refine ⟨?_, fun p => ?_, S.locks, S.handles, S.zombies, ?_⟩
    · rw [h0]; exact S.heap
    · have := S.table p
      simp only [T] at this ⊢
      rw [this]
      simp [Pc.vac]
    · simp only [S.threads, List.map_append]; rfl
  | new t v dst th ht hid hown hd =>
    have hpc := idle ht hid
    have hu := S.thread ht
    refine one (u' := { u.setThread t { pc := .newLoop { val := v, dst := dst, conv := none }, arg := some v } with
      handles := eraseAll u.handles (cfg.kids v) }) rfl ?_ ?_
    · have h1 : ownsAll u.handles (cfg.kids v) = true := by rw [S.handles, ownsAll_iff]; exact hown
      have h3 : (!dst || (cfg.kids v).isEmpty) = true := by
        cases dst with
        | false => rfl
        | true => rw [hd rfl]; rfl
      simp only [Arc.step, hu, settle_isIdle, hid, Cfg.reshard, h1, h3, Bool.and_self, if_true]
    · refine S.next ht rfl rfl S.locks (congrArg (eraseAll · (cfg.kids v)) S.handles) S.zombies ?_ (tab (vac_of hpc) rfl rfl rfl)
      rw [U_set ht rfl (by rw [hpc]; rfl)]; exact S.heap
  | clone t path th p x ht hid hp hx =>
    have hu := S.thread ht
    have h0 := I.calm_count ((borrow_ok I path).2 p hp)
    refine one (u' := { u with heap := setCount u.heap p (cfg.inc x.count), handles := p :: u.handles }) rfl ?_ ?_
    · simp only [Arc.step, hu, settle_isIdle, hid, if_true, S.borrow, hp, S.get' hx h0]; rfl
    · refine ⟨?_, S.table, S.locks, congrArg (p :: ·) S.handles, S.zombies, S.threads⟩
      show setCount u.heap p (cfg.inc x.count) = settleHeap (setCount s.heap p (cfg.inc x.count)) (U s)
      rw [S.heap]
      exact (settle_setCount s.heap (U s) (U s) p _ _ (fun _ _ => rfl) (by rw [h0]; rfl)).symm
  | read t path th p ht hid hp =>
    have hu := S.thread ht
    refine one (u' := u) rfl ?_ S
    simp only [Arc.step, hu, settle_isIdle, hid, if_true, S.borrow, hp]
  | drop t p th ht hid hp =>
    have hpc := idle ht hid
    have hu := S.thread ht
    refine one (u' := { u.setThread t { pc := .dropSub p } with handles := u.handles.erase p }) rfl ?_ ?_
    · have h1 : p ∈ u.handles := S.handles ▸ hp
      simp only [Arc.step, hu, settle_isIdle, hid, h1, decide_true, Bool.and_self, if_true]
    · refine S.next ht rfl rfl S.locks (congrArg (·.erase p) S.handles) S.zombies ?_ (tab (vac_of hpc) rfl rfl rfl)
      rw [U_set ht rfl (by rw [hpc]; rfl)]; exact S.heap
  | len t lo up => exact absurd rfl (hns t lo up).1
  | shrink t lo up => exact absurd rfl (hns t lo up).2
  | run t a th _ ht hr => exact sim_run h2 l2 hv S I I' (hsc th (mem_of_getElem? ht)) ht hr H
  | panicLoop t th c ht hpc =>
    have he : th.settle cfg = th := by simp [Thread.settle, hpc]
    have hu := S.thread ht
    rw [he] at hu
    have hpv : (unwindCall cfg c none none).pc.vac = [] ∧ (unwindCall cfg c none none).pc.undoing = [] ∧
        (unwindCall cfg c none none).settle cfg = unwindCall cfg c none none := by
      cases hc : c.conv <;> simp [unwindCall, hc, Pc.vac, Pc.undoing, Thread.settle]
    have S' : Sim cfg (s.setThread t (unwindCall cfg c none none)) (u.setThread t (unwindCall cfg c none none)) := by
      refine S.next ht rfl (by rw [hpv.2.2]; rfl) S.locks S.handles S.zombies ?_ (tab (vac_of hpc) hpv.1 rfl rfl)
      rw [U_set ht rfl (by rw [hpc]; exact hpv.2.1)]; exact S.heap
    refine one (S.ending S' ht (by rw [he])) ?_ S'
    simp only [Arc.step, hu, runPanic, hpc]; rfl
  | panicEntry t th c b ht hpc =>
    have he : th.settle cfg = th := by simp [Thread.settle, hpc]
    have hu := S.thread ht
    rw [he] at hu
    have S' : Sim cfg (s.setThread t { pc := .dropFree b }) (u.setThread t { pc := .dropFree b }) := by
      refine S.next ht rfl rfl S.locks S.handles S.zombies ?_ (tab (vac_of hpc) rfl rfl rfl)
      rw [U_set ht rfl (by rw [hpc]; rfl)]; exact S.heap
    refine one (S.ending S' ht (by rw [he])) ?_ S'
    simp only [Arc.step, hu, runPanic, hpc]
  | panicRemove t th b ht hpc =>
    have he : th.settle cfg = th := by simp [Thread.settle, hpc]
    have hu := S.thread ht
    rw [he] at hu
    have S' : Sim cfg { s.setThread t { th with pc := .idle } with zombies := b :: s.zombies }
        { u.setThread t { th with pc := .idle } with zombies := b :: u.zombies } := by
      refine S.next ht rfl rfl S.locks S.handles (congrArg (b :: ·) S.zombies) ?_ (tab (vac_of hpc) rfl rfl rfl)
      rw [U_set ht rfl (by rw [hpc]; rfl)]; exact S.heap
    refine one (S.ending S' ht (by rw [he])) ?_ S'
    simp only [Arc.step, hu, runPanic, hpc]
  | panicShrink t th i m ht hpc => have := hsc th (mem_of_getElem? ht); rw [hpc] at this; cases this
  | panicInsert t => exact absurd hsane (by simp [Act.Sane])

theorem Witnessed.acts [Hashable V] {cfg : Cfg V} {l : List (Event V)} {s : State V} (h : Witnessed cfg l s) : ∃ as, ActsRun cfg as s := by
  induction h with
  | init => exact ⟨[], .init⟩
  | step _ h1 h2 h3 h4 ih =>
    obtain ⟨as, ih⟩ := ih
    exact ⟨_, .step ih h1 h2 h3 h4⟩

theorem Witnessed.reach [Hashable V] {cfg : Cfg V} {l : List (Event V)} {s : State V} (h : Witnessed cfg l s) : Reach cfg s := by
  obtain ⟨as, h⟩ := h.acts
  exact h.reach

/-- Whatever clients can see with one hash function and sharding, they can see with every other. -/
theorem Witnessed.sim (h2 : Hashable V) (l2 : @LawfulHashable V _ h2) [EquivBEq V] [Hashable V] [LawfulHashable V] {cfg : Cfg V} {n : Nat}
    {f : UInt64 → Nat} (hv : cfg.Valid) {s : State V} {l : List (Event V)} (H : Witnessed cfg l s) :
    ∃ u, @Witnessed V _ h2 (cfg.reshard n f) l u ∧ Sim cfg s u := by
  induction H with
  | init => exact ⟨Arc.init, @Witnessed.init V _ h2 _, ⟨rfl, fun _ => rfl, fun _ => rfl, rfl, rfl, rfl⟩⟩
  | step H h1 h2 h3 h4 ih =>
    obtain ⟨u, Hu, S⟩ := ih
    obtain ⟨as, hacts⟩ := H.acts
    exact sim_step _ l2 hv S (reach_inv hv H.reach) (reach_inv hv (.step H.reach h1 h3 h4)) hacts.scans h1 h2 h3 Hu

end Arc
