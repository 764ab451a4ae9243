import Verif.Arc.Race3
/-! The invariant behind C17 holds in every traced execution. -/
namespace Arc
variable {V : Type} [BEq V] [Hashable V] {cfg : Cfg V} {s s' : State V} {lk : Nat → Option Tid} {obj : Addr → Nat}
  {own own' : List (Nat × Addr)} {tr : List Ev} {t : Tid} {th th' : Thread V}

omit [BEq V] [Hashable V] in
theorem deref_setCount (a : Addr) (n : Nat) (b : Addr) :
    deref { s with heap := setCount s.heap a n } b = deref s b := get_data_setCount s.heap a n b

omit [BEq V] [Hashable V] in
theorem deref_of_get {b : Addr} {x : Cell V} (h : get s.heap b = some x) : deref s b = some x.data := by
  simp [deref, h]

/-- Membership of the objects in the hands of a thread. -/
macro "roots" hpc:ident : tactic =>
  `(tactic| (intro b; simp [mem_roots, Thread.owned, Pc.owned, Pc.priv, Pc.removing, $hpc:ident]))

theorem run_J [LawfulHashable V] [EquivBEq V] {od : Orders} (hod : od.drop.acquires = true ∧ od.drop.releases = true)
    (hI : Inv cfg s) (hI' : Inv cfg s') (hown : ∀ h b, (h, b) ∈ own → b ∈ s.handles)
    (j : J cfg s s.locks obj own tr) (ht : s.threads[t]? = some th) {a : Addr} (hr : RunR cfg s t th a s')
    {ch : Choice} (hch : ReadsOk cfg s th ch) :
    J cfg s' s'.locks (newObj s obj tr.length (.run t a)) (newOwn cfg s own ch tr.length (.run t a))
      (tr ++ runEvents cfg od s obj ch tr.length t th) := by
  have hth := hI.th t th ht
  have hpi := hth.pc
  have hemp := hth.empty
  have hlkt : ∀ i, th.pc.holds = some i → s.locks i = some t := fun i h => (hI.lk i t).mpr ⟨th, ht, h⟩
  simp only [newObj, newOwn, ht]
  cases hr with
  | todo q qs hpc htodo =>
    simp only [hpc, htodo, runEvents, List.append_nil]
    exact j.same ht rfl (fun _ => rfl) rfl rfl (by intro b; simp [mem_roots, Thread.owned, Pc.owned, Pc.priv, Pc.removing, hpc, htodo])
      (by intro x; simp [Pc.priv]) rfl
  | ret b hpc htodo hret =>
    simp only [hpc, htodo, hret, runEvents]
    have j1 := j.plain hI (a := ⟨t, .got tr.length⟩) (fun _ => trivial)
    refine j1.thread (own' := (tr.length, b) :: own) ht rfl (fun _ => rfl) rfl (fun _ h => h)
      (fun h c i h1 h2 => .inl ⟨h, List.mem_cons_of_mem _ h1, h2⟩) ?_ ?_ ?_ ?_ ?_
    · intro h c hc
      rcases List.mem_cons.mp hc with e | hc
      · cases e
        refine Past.last (b := ⟨t, .got tr.length⟩) ?_ rfl
        exact (j1.pthr t th b ht (mem_roots.mpr (.inl (by simp [Thread.owned, hret]))))
      · exact j1.pown h c hc
    · intro c hc
      have : c = b := by
        simpa [mem_roots, Thread.owned, Pc.owned, Pc.priv, Pc.removing, hpc, htodo, hret] using hc
      subst this
      exact .inr (.inl fun i hi => .inr ⟨tr.length, List.mem_cons_self, Past.last (b := ⟨t, .got tr.length⟩) hi (.inl rfl)⟩)
    · intro c v hc; simp [Pc.removing] at hc
    · intro c hc; simp [Pc.priv] at hc
    · intro c hc; simp [mem_roots, Thread.owned, Pc.owned, Pc.priv, Pc.removing] at hc
  | found c b hpc hl hf =>
    simp only [hpc, runEvents, hf, List.append_nil]
    have j1 := j.lookup hI ht hl hch.1 (by have := hch.2; simpa only [hpc, Pc.shard, Pc.wants] using this)
    exact j1.same (s' := (s.lock (cfg.shardOf c.val) t).setThread t { th with pc := .newFound c (cfg.shardOf c.val) b })
      ht rfl (fun _ => rfl) rfl rfl (by roots hpc) (by intro x; simp [Pc.priv, hpc]) rfl
  | cached c b hpc hl hf hc =>
    simp only [hpc, runEvents, hf]
    rw [hpc] at hpi
    have hd : cfg.kids c.val = [] := by
      refine hpi.2.2.1 ?_
      cases hd : c.dst with
      | true => rfl
      | false => have := hpi.2.1 hd; rw [hc] at this; cases this
    have j1 := j.lookup hI ht hl hch.1 (by have := hch.2; simpa only [hpc, Pc.shard, Pc.wants] using this)
    have j2 := j1.unlockEv hI (t := t) (L := cfg.shardOf c.val) (by simp [lkSet])
    rw [lkClr_set hl, List.append_assoc] at j2
    exact j2.same (s' := s.setThread t { th with pc := .newEntry { c with conv := none } b })
      ht rfl (fun _ => rfl) rfl rfl
      (by intro x; simp [mem_roots, Thread.owned, Pc.owned, Pc.priv, Pc.removing, hpc, hc, hd])
      (by intro x; simp [Pc.priv, hpc, hc]) rfl
  | missing c hpc hl hf hc =>
    simp only [hpc, runEvents, hf]
    have j1 := j.lookup hI ht hl hch.1 (by have := hch.2; simpa only [hpc, Pc.shard, Pc.wants] using this)
    have j2 := j1.unlockEv hI (t := t) (L := cfg.shardOf c.val) (by simp [lkSet])
    rw [lkClr_set hl, List.append_assoc] at j2
    exact j2.same (s' := s.setThread t { th with pc := .newAlloc c })
      ht rfl (fun _ => rfl) rfl rfl
      (by intro x; simp [mem_roots, Thread.owned, Pc.owned, Pc.priv, Pc.removing, hpc, hc])
      (by intro x; simp [Pc.priv]) rfl
  | hit c sh b x hpc hx hc =>
    simp only [hpc, runEvents]
    rw [hpc] at hpi
    obtain ⟨_, hsh, hm, y, hy, hyv⟩ := hpi
    have hmay : May cfg s s.locks t b := .inr ⟨hm, x.data, deref_of_get hx, by
      rw [hx] at hy; cases hy
      rw [shardOf_congr hyv, ← hsh]
      exact hlkt sh (by rw [hpc]; rfl)⟩
    have j1 := j.rmw hI (ord := od.find) hmay
    refine j1.thread (s' := { s with heap := setCount s.heap b (cfg.inc x.count) }.setThread t { th with pc := .newHit c sh b })
      ht rfl (fun c => deref_setCount _ _ _) rfl (fun _ h => h)
      (fun h c i h1 h2 => .inl ⟨h, h1, h2⟩) j1.pown ?_ ?_ ?_ ?_
    · intro d hd
      refine .inl ?_
      revert hd
      simp only [mem_roots, Thread.owned, Pc.owned, Pc.priv, Pc.removing, hpc, List.mem_append, List.mem_cons]
      intro hd
      rcases hd with (h | h) | h | h
      · rcases h with h | h
        · exact .inl (.inl (.inl (.inr h)))
        · exact .inl (.inl (.inr h))
      · exact .inl (.inr h)
      · exact .inr (.inl h)
      · cases h
    · intro d v hd; simp [Pc.removing] at hd
    · intro d hd; simpa [Pc.priv, hpc] using hd
    · intro d hd
      by_cases hdb : d = b
      · subst hdb; exact (hmay.seen j).append _
      · refine j1.pthr t th d ht ?_
        revert hd
        simp only [mem_roots, Thread.owned, Pc.owned, Pc.priv, Pc.removing, hpc, List.mem_append, List.mem_cons, hdb, false_or]
        exact id
  | dying c sh b x hpc hx hc =>
    simp only [hpc, runEvents]
    rw [hpc] at hpi
    obtain ⟨_, hsh, hm, y, hy, hyv⟩ := hpi
    have hmay : May cfg s s.locks t b := .inr ⟨hm, x.data, deref_of_get hx, by
      rw [hx] at hy; cases hy
      rw [shardOf_congr hyv, ← hsh]
      exact hlkt sh (by rw [hpc]; rfl)⟩
    have j1 := j.rmw hI (ord := od.find) hmay
    exact j1.same (s' := { s with heap := setCount s.heap b (cfg.inc x.count) }.setThread t { th with pc := .newUndo c sh b })
      ht rfl (fun c => deref_setCount _ _ _) rfl rfl (by roots hpc) (by intro x; simp [Pc.priv, hpc]) rfl
  | undo c sh b x hpc hx =>
    simp only [hpc, runEvents]
    rw [hpc] at hpi
    obtain ⟨_, hsh, hm, y, hy, hyv⟩ := hpi
    have hmay : May cfg s s.locks t b := .inr ⟨hm, x.data, deref_of_get hx, by
      rw [hx] at hy; cases hy
      rw [shardOf_congr hyv, ← hsh]
      exact hlkt sh (by rw [hpc]; rfl)⟩
    have j1 := j.rmw hI (ord := od.undo) hmay
    exact j1.same (s' := { s with heap := setCount s.heap b (cfg.dec x.count) }.setThread t { th with pc := .newRelease c sh })
      ht rfl (fun c => deref_setCount _ _ _) rfl rfl (by roots hpc) (by intro x; simp [Pc.priv, hpc]) rfl
  | release c sh hpc =>
    simp only [hpc, runEvents]
    have j1 := j.unlockEv hI (t := t) (L := sh) (hlkt sh (by rw [hpc]; rfl))
    exact j1.same (s' := (s.unlock sh).setThread t { th with pc := .newLoop c })
      ht rfl (fun _ => rfl) rfl rfl (by roots hpc) (by intro x; simp [Pc.priv, hpc]) rfl
  | hitRet c sh b hpc =>
    simp only [hpc, runEvents]
    rw [hpc] at hemp
    have hnr := hemp rfl
    have j1 := j.unlockEv hI (t := t) (L := sh) (hlkt sh (by rw [hpc]; rfl))
    refine j1.same (s' := (s.unlock sh).setThread t (unwindCall cfg c (some b) th.arg))
      ht rfl (fun _ => rfl) rfl rfl ?_ ?_ ?_
    · intro d
      simp only [mem_roots, Thread.owned, hpc, hnr, unwindCall]
      cases hcv : c.conv <;> simp [Pc.owned, Pc.priv, Pc.removing, hcv]
      · exact or_comm
      · rw [or_right_comm, or_comm (a := d = b), or_right_comm (b := d = b)]; grind
    · intro d; simp only [unwindCall]; cases hcv : c.conv <;> simp [Pc.priv, hpc, hcv]
    · simp only [unwindCall]; cases c.conv <;> rfl
  | alloc c hpc h0 hk =>
    simp only [hpc, runEvents]
    rw [hpc] at hemp
    have hnr := hemp rfl
    have hfr : deref s a = none := by
      simp only [deref]; rw [(get_none _ _).mpr hk]; rfl
    refine j.alloc (s' := { s with heap := (a, { count := 1, data := c.val }) :: s.heap }.setThread t { th with pc := .newEntry c a })
      (v := c.val) hI hown ht rfl hfr ?_ rfl rfl ?_ ?_ ?_ ?_ rfl
    · intro d
      simp only [deref, State.setThread, get]
      by_cases hd : a = d
      · rw [if_pos hd, if_pos hd.symm]; rfl
      · rw [if_neg hd, if_neg (Ne.symm hd)]
    · intro d; simp [mem_roots, Thread.owned, Pc.owned, Pc.priv, Pc.removing, hpc, hnr]
    · intro d; simp [mem_roots, Thread.owned, Pc.owned, Pc.priv, Pc.removing, hpc, hnr]
    · intro d; simp [mem_roots, Thread.owned, Pc.owned, Pc.priv, Pc.removing, hnr]
    · simp [Pc.priv]
  | vacant c b x hpc hx hl hf =>
    simp only [hpc, runEvents, deref_of_get hx]
    have j1 := j.lookup hI ht hl hch.1
      (by have := hch.2; simpa only [hpc, Pc.shard, Pc.wants, deref_of_get hx, Option.map_some] using this)
    exact j1.same (s' := (s.lock (cfg.shardOf x.data) t).setThread t { th with pc := .newVacant c (cfg.shardOf x.data) b })
      ht rfl (fun _ => rfl) rfl rfl (by roots hpc) (by intro x; simp [Pc.priv, hpc]) rfl
  | occupied c b r x hpc hx hl hf =>
    simp only [hpc, runEvents, deref_of_get hx]
    have j1 := j.lookup hI ht hl hch.1
      (by have := hch.2; simpa only [hpc, Pc.shard, Pc.wants, deref_of_get hx, Option.map_some] using this)
    exact j1.same (s' := (s.lock (cfg.shardOf x.data) t).setThread t { th with pc := .newOccupied c (cfg.shardOf x.data) b })
      ht rfl (fun _ => rfl) rfl rfl (by roots hpc) (by intro x; simp [Pc.priv, hpc]) rfl
  | insert c sh b hpc =>
    simp only [hpc, runEvents]
    rw [hpc] at hpi
    obtain ⟨_, _, hg, hsh, _⟩ := hpi
    have hlk : s.locks sh = some t := hlkt sh (by rw [hpc]; rfl)
    have j1 := j.plain hI (a := ⟨t, .table sh⟩) (fun _ => hlk)
    have j2 := j1.looks hI (t := t) (xs := ch.under) (fun x hx => by
      obtain ⟨r, h1, h2⟩ := hch.2 x hx
      refine ⟨r, h1, ?_⟩
      rcases h2 with h2 | ⟨h2, v, h3, h4⟩
      · exact .inl ⟨th, ht, h2⟩
      · simp only [hpc, Pc.shard] at h4
        cases h4
        exact .inr ⟨h2, v, h3, hlk⟩)
    rw [List.append_assoc] at j2
    exact j2.insert (s' := { s with table := b :: s.table }.setThread t { th with pc := .newInserted c sh b })
      (b := b) (v := c.val) ht rfl (fun _ => rfl) (by simp [hpc, Pc.priv]) (deref_of_get hg) (by rw [← hsh]; exact hlk) rfl rfl
      (by intro d; simp [mem_roots, Thread.owned, Pc.owned, Pc.priv, Pc.removing, hpc]; grind) rfl rfl
  | inserted c sh b hpc =>
    simp only [hpc, runEvents]
    rw [hpc] at hemp
    have hnr := hemp rfl
    have j1 := j.unlockEv hI (t := t) (L := sh) (hlkt sh (by rw [hpc]; rfl))
    exact j1.same (s' := (s.unlock sh).setThread t { pc := .idle, todo := [], ret := some b, arg := th.arg })
      ht rfl (fun _ => rfl) rfl rfl
      (by intro d; simp [mem_roots, Thread.owned, Pc.owned, Pc.priv, Pc.removing, hpc, hnr])
      (by intro x; simp [Pc.priv]) rfl
  | cache c sh b hpc hd =>
    simp only [hpc, runEvents]
    rw [hpc] at hpi
    have hkd : cfg.kids c.val = [] := hpi.1.2.2.1 hd
    have j1 := j.unlockEv hI (t := t) (L := sh) (hlkt sh (by rw [hpc]; rfl))
    exact j1.same (s' := (s.unlock sh).setThread t { th with pc := .newLoop { c with conv := some b } })
      ht rfl (fun _ => rfl) rfl rfl
      (by intro d; simp [mem_roots, Thread.owned, Pc.owned, Pc.priv, Pc.removing, hpc, hkd])
      (by intro x; simp [Pc.priv, hpc]) rfl
  | intoKey c sh b hpc hd =>
    simp only [hpc, runEvents]
    have j1 := j.unlockEv hI (t := t) (L := sh) (hlkt sh (by rw [hpc]; rfl))
    exact j1.same (s' := (s.unlock sh).setThread t { th with pc := .newUnbox c b })
      ht rfl (fun _ => rfl) rfl rfl (by roots hpc) (by intro x; simp [Pc.priv, hpc]) rfl
  | unbox c b x hpc hx =>
    simp only [hpc, runEvents]
    rw [hpc] at hpi
    have hcv := hpi.2.1
    refine j.free (s' := { s with heap := Arc.free s.heap b }.setThread t { th with pc := .newLoop { c with val := x.data } })
      hI hown ht rfl (b := b) (v := x.data) (by simp [hpc, Pc.priv]) (deref_of_get hx) ?_ rfl rfl ?_ ?_ ?_ ?_ rfl
    · intro d
      simp only [deref, State.setThread, get_free]
      split <;> rfl
    · intro d
      simp only [mem_roots, Thread.owned, Pc.owned, Pc.priv, Pc.removing, hpc, hcv, List.mem_append, List.mem_singleton]
      grind
    · intro d hd
      simp only [mem_roots, Thread.owned, Pc.owned, List.mem_append]
      exact .inl (.inl (.inl hd))
    · intro d
      simp only [mem_roots, Thread.owned, Pc.owned, Pc.priv, Pc.removing, hpc, hcv, List.mem_append, Option.toList_none]
      grind
    · intro d hd; simp [Pc.priv, hcv] at hd
  | subLast b x hpc hx hc =>
    simp only [hpc, runEvents]
    have hbo : b ∈ th.owned cfg := by simp [Thread.owned, Pc.owned, hpc]
    have hA1 : A cfg s b = 1 := by
      have h1 := mem_owned_A ht hbo
      have h2 := hI.cnt b x (hI.live b h1) hx
      omega
    have hmay : May cfg s s.locks t b := .inl ⟨th, ht, mem_roots.mpr (.inl hbo)⟩
    have j1 := j.rmw hI (ord := od.drop) hmay
    refine j1.thread (s' := { s with heap := setCount s.heap b (cfg.dec x.count) }.setThread t { th with pc := .dropRemove b })
      ht rfl (fun c => deref_setCount _ _ _) rfl (fun _ h => h)
      (fun h c i h1 h2 => .inl ⟨h, h1, h2⟩) j1.pown ?_ ?_ ?_ ?_
    · intro d hd
      refine .inl ?_
      revert hd
      simp only [mem_roots, Thread.owned, Pc.owned, Pc.priv, Pc.removing, hpc, List.mem_append, List.mem_singleton]
      grind
    · intro d v hd hv i e he hte
      cases List.mem_singleton.mp hd
      exact j.last hI hown ht hbo hv hA1 hod.1 he hte
    · intro d hd; simp [Pc.priv] at hd
    · intro d hd
      refine j1.pthr t th d ht ?_
      revert hd
      simp only [mem_roots, Thread.owned, Pc.owned, Pc.priv, Pc.removing, hpc, List.mem_append, List.mem_singleton]
      grind
  | sub b x hpc hx hc =>
    simp only [hpc, runEvents]
    have hbo : b ∈ th.owned cfg := by simp [Thread.owned, Pc.owned, hpc]
    have hmay : May cfg s s.locks t b := .inl ⟨th, ht, mem_roots.mpr (.inl hbo)⟩
    have j1 := j.rmw hI (ord := od.drop) hmay
    refine j1.thread (s' := { s with heap := setCount s.heap b (cfg.dec x.count) }.setThread t { th with pc := .idle })
      (th' := { th with pc := .idle }) (own' := own)
      ht rfl (fun c => deref_setCount _ _ _) rfl (fun _ h => h)
      (fun h c i h1 h2 => .inl ⟨h, h1, h2⟩) j1.pown ?_ ?_ ?_ ?_
    · intro d hd
      by_cases hdb : d = b
      · subst hdb
        exact .inr (.inl fun i hi => .inl (Past.last (b := ⟨t, .rmw (obj d) od.drop⟩) hi ⟨_, rfl, hod.2⟩))
      · refine .inl ?_
        revert hd
        simp only [mem_roots, Thread.owned, Pc.owned, Pc.priv, Pc.removing, hpc, List.mem_append, List.mem_singleton]
        grind
    · intro d v hd; simp [Pc.removing] at hd
    · intro d hd; simp [Pc.priv] at hd
    · intro d hd
      refine j1.pthr t th d ht ?_
      revert hd
      simp only [mem_roots, Thread.owned, Pc.owned, Pc.priv, Pc.removing, hpc, List.mem_append, List.mem_singleton]
      grind
  | remove b r x hpc hx hl hf =>
    simp only [hpc, runEvents, deref_of_get hx]
    have hbr : b ∈ th.pc.removing := by simp [hpc, Pc.removing]
    have hbt : b ∈ s.table := List.count_pos_iff.mp (rem_facts hI ht hbr).1
    obtain ⟨hrt, y, hy, hyv⟩ := find_some hf
    have hrb : r = b := hI.uniq r b y x hrt hbt hy hx hyv
    subst hrb
    have j1 := j.lookup hI ht hl hch.1
      (by have := hch.2; simpa only [hpc, Pc.shard, Pc.wants, deref_of_get hx, Option.map_some] using this)
    have j2 := j1.remove (s' := { s with table := s.table.erase r }.setThread t { th with pc := .dropFree r })
      hI ht rfl (fun _ => rfl) hbr (deref_of_get hx) (by simp [lkSet]) rfl rfl
      (by intro d; simp [mem_roots, Thread.owned, Pc.owned, Pc.priv, Pc.removing, hpc]) rfl rfl
    have j3 := j2.unlockEv hI' (t := t) (L := cfg.shardOf x.data) (by simp [lkSet])
    rw [lkClr_set hl, List.append_assoc] at j3
    exact j3
  | removeNone b x hpc hx hl hf =>
    exfalso
    have hbr : b ∈ th.pc.removing := by simp [hpc, Pc.removing]
    have hbt : b ∈ s.table := List.count_pos_iff.mp (rem_facts hI ht hbr).1
    have := find_none hf b x hbt hx
    simp at this
  | free b x hpc hx =>
    simp only [hpc, runEvents]
    have hbp : b ∈ th.pc.priv := by simp [hpc, Pc.priv]
    have j1 := j.looks hI (t := t) (xs := ch.before) (fun y hy => by
      obtain ⟨r, h1, h2⟩ := hch.1 y hy
      exact ⟨r, h2, .inl ⟨th, ht, h1⟩⟩)
    rw [← List.append_assoc]
    refine j1.free (s' := { s with heap := Arc.free s.heap b }.setThread t { th with pc := .idle, todo := cfg.kids x.data ++ th.todo })
      hI hown ht rfl (b := b) (v := x.data) hbp (deref_of_get hx) ?_ rfl rfl ?_ ?_ ?_ ?_ rfl
    · intro d
      simp only [deref, State.setThread, get_free]
      split <;> rfl
    · intro d
      simp only [mem_roots, Thread.owned, Pc.owned, Pc.priv, Pc.removing, hpc, List.mem_append, List.mem_singleton]
      grind
    · intro d hd
      simp only [mem_roots, Thread.owned, Pc.owned, List.mem_append]
      exact .inl (.inl (.inr (.inl hd)))
    · intro d
      simp only [mem_roots, Thread.owned, Pc.owned, Pc.priv, Pc.removing, hpc, List.mem_append]
      grind
    · intro d hd; simp [Pc.priv] at hd
  | lenScan i m acc hpc hi hl =>
    simp only [hpc, runEvents, if_pos hi]
    exact (j.len hI (t := t) hl).same (s' := s.setThread t { th with pc := .lenScan (i + 1) m (acc + shardLen cfg s i) })
      ht rfl (fun _ => rfl) rfl rfl (by roots hpc) (by intro x; simp [Pc.priv]) rfl
  | lenEnd i m acc hpc hi =>
    simp only [hpc, runEvents, if_neg hi, List.append_nil]
    exact j.same (s' := s.setThread t { th with pc := .lenDone acc })
      ht rfl (fun _ => rfl) rfl rfl (by roots hpc) (by intro x; simp [Pc.priv]) rfl
  | lenDone n hpc =>
    simp only [hpc, runEvents, List.append_nil]
    exact j.same (s' := s.setThread t { th with pc := .idle })
      ht rfl (fun _ => rfl) rfl rfl (by roots hpc) (by intro x; simp [Pc.priv]) rfl
  | shrink i m hpc hi hl =>
    simp only [hpc, runEvents, if_pos hi]
    have j1 := j.lookup (ch := { ch with before := [] }) hI ht hl (fun x hx => nomatch hx)
      (by have := hch.2; simpa only [hpc, Pc.shard, Pc.wants, if_pos hi] using this)
    have j2 := j1.unlockEv hI (t := t) (L := i) (by simp [lkSet])
    rw [lkClr_set hl, List.append_assoc] at j2
    exact j2.same (s' := s.setThread t { th with pc := .shrinkScan (i + 1) m })
      ht rfl (fun _ => rfl) rfl rfl (by roots hpc) (by intro x; simp [Pc.priv]) rfl
  | shrinkEnd i m hpc hi =>
    simp only [hpc, runEvents, if_neg hi, List.append_nil]
    exact j.same (s' := s.setThread t { th with pc := .idle })
      ht rfl (fun _ => rfl) rfl rfl (by roots hpc) (by intro x; simp [Pc.priv]) rfl

omit [BEq V] [Hashable V] in
theorem points_trans {p q r : Addr} (h1 : Points cfg s p q) (h2 : Points cfg s q r) : Points cfg s p r := by
  induction h2 with
  | refl => exact h1
  | step _ hd hk ih => exact ih.step hd hk

omit [BEq V] [Hashable V] in
theorem follow_points {path : List Addr} {p q : Addr} (h : follow cfg s p path = .ok q) : Points cfg s p q := by
  induction path generalizing p with
  | nil =>
    simp only [follow] at h
    cases hg : get s.heap p with
    | none => rw [hg] at h; cases h
    | some x => rw [hg] at h; cases h; exact .refl _
  | cons k path ih =>
    simp only [follow] at h
    cases hg : get s.heap p with
    | none => rw [hg] at h; cases h
    | some x =>
      rw [hg] at h
      by_cases hk : k ∈ cfg.kids x.data
      · simp only [if_pos hk] at h
        exact points_trans ((Points.refl p).step (deref_of_get hg) hk) (ih h)
      · simp only [if_neg hk] at h; cases h

omit [BEq V] [Hashable V] in
theorem borrow_points {p q : Addr} {path : List Addr} (h : borrow cfg s (p :: path) = .ok q) :
    p ∈ s.handles ∧ Points cfg s p q := by
  simp only [borrow] at h
  by_cases hp : p ∈ s.handles
  · rw [if_pos hp] at h; exact ⟨hp, follow_points h⟩
  · rw [if_neg hp] at h; cases h

omit [BEq V] [Hashable V] in
theorem handles_A {p : Addr} (h : p ∈ s.handles) : 0 < A cfg s p := by
  rw [A_eq]
  have : 0 < s.handles.count p := List.count_pos_iff.mpr h
  omega

/-- A thread outside any call has nothing in its hands. -/
theorem idle_roots (h : th.isIdle = true) : th.roots cfg = [] := by
  obtain ⟨h1, h2, h3⟩ := isIdle_iff.mp h
  simp [Thread.roots, Thread.owned, Pc.owned, Pc.priv, h1, h2, h3]

/-- A panic in a table operation: the lock is free again, and the state changed only in the panicking thread. -/
theorem J.unwind (hI : Inv cfg s) (j : J cfg s s.locks obj own tr) (ht : s.threads[t]? = some th) {ch : Choice}
    (hch : ReadsOk cfg s th ch) (hlk : ch.early = true ∨ ∀ i, th.pc.shard cfg s = some i → s.locks i = none)
    (hsh : th.pc.shard cfg s = th.pc.wants cfg s) :
    J cfg s s.locks obj own (tr ++ panicEvents cfg s obj ch t th) := by
  simp only [panicEvents]
  by_cases he : ch.early = true
  · rw [if_pos he]
    exact j.looks hI (t := t) (xs := ch.before) (fun y hy => by
      obtain ⟨r, h1, h2⟩ := hch.1 y hy
      exact ⟨r, h2, .inl ⟨th, ht, h1⟩⟩)
  · rw [if_neg he]
    cases hw : th.pc.wants cfg s with
    | none => simp only [List.append_nil]; exact j
    | some i =>
      have hn : s.locks i = none := (hlk.resolve_left he) i (hsh.trans hw)
      have j1 := j.lookup hI ht hn hch.1 (by have := hch.2; rw [hsh, hw] at this; exact this)
      have j2 := j1.unlockEv hI (t := t) (L := i) (by simp [lkSet])
      rw [lkClr_set hn, List.append_assoc] at j2
      exact j2

theorem step_J [LawfulHashable V] [EquivBEq V] {od : Orders} (hod : od.drop.acquires = true ∧ od.drop.releases = true)
    (hI : Inv cfg s) (hI' : Inv cfg s') (hown : ∀ h b, (h, b) ∈ own → b ∈ s.handles)
    (j : J cfg s s.locks obj own tr) {act : Act V} (hsane : act.Sane) (hr : StepR cfg s act s')
    {ch : Choice} (hch : ch.Ok cfg s own act) :
    J cfg s' s'.locks (newObj s obj tr.length act) (newOwn cfg s own ch tr.length act)
      (tr ++ events cfg od s obj ch tr.length act) := by
  cases hr with
  | run t a th s' ht hr =>
    simp only [events, ht]
    exact run_J hod hI hI' hown j ht hr (hch th ht)
  | spawn =>
    simp only [events, newObj, newOwn, List.append_nil]
    have hold : ∀ (t : Tid) th, (s.threads ++ [({} : Thread V)])[t]? = some th → s.threads[t]? = some th ∨ th = {} := by
      intro t th h
      rcases tget_cases h with h | ⟨_, h⟩
      · exact .inl h
      · exact .inr (List.mem_singleton.mp h)
    refine j.change (s' := { s with threads := s.threads ++ [{}] }) (fun _ _ h => h) ?_ ?_ ?_ j.pown ?_ j.ptab
    · intro b hb i a h1 h2
      have hcov := j.acc b hb i a h1 h2
      clear hb h1 h2
      induction hcov with
      | client h1 h2 => exact .client h1 h2
      | thread h1 h2 h3 => exact .thread (tget_append h1) h2 h3
      | count h => exact .count h
      | lock h1 h2 h3 => exact .lock h1 h2 h3
      | stored h1 h2 _ ih => exact .stored h1 h2 ih
      | zombie h => exact .zombie h
    · intro t th b v h1 h2
      rcases hold t th h1 with h1 | rfl
      · exact j.rem t th b v h1 h2
      · simp [Pc.removing] at h2
    · intro t th b h1 h2
      rcases hold t th h1 with h1 | rfl
      · exact j.prv t th b h1 h2
      · simp [Pc.priv] at h2
    · intro t th b h1 h2
      rcases hold t th h1 with h1 | rfl
      · exact j.pthr t th b h1 h2
      · simp [mem_roots, Thread.owned, Pc.owned, Pc.priv, Pc.removing] at h2
  | new t v dst th ht hid hown' hd =>
    simp only [events, newObj, newOwn]
    obtain ⟨hperm, hkids⟩ := hch
    have hgive : ∀ a ∈ ch.hs.map (fun h => (⟨t, .give h.1⟩ : Ev)), ∃ h ∈ ch.hs, a = ⟨t, .give h.1⟩ := by
      intro a ha
      obtain ⟨h, h1, h2⟩ := List.mem_map.mp ha
      exact ⟨h, h1, h2.symm⟩
    have j1 := j.extend hI (t := t) (ch.hs.map (fun h => (⟨t, .give h.1⟩ : Ev)))
      (fun a ha => by obtain ⟨h, _, rfl⟩ := hgive a ha; rfl)
      (fun i a hi ha => by
        rcases tget_cases ha with h | ⟨_, h⟩
        · exact absurd (tget_lt h) (Nat.not_lt.mpr hi)
        · obtain ⟨h, _, rfl⟩ := hgive a h; exact trivial)
    have hk : ∀ h b, (h, b) ∈ ch.hs → b ∈ cfg.kids v := by
      intro h b hb; rw [← hkids]; exact List.mem_map_of_mem (f := (·.2)) hb
    have hseen : ∀ h b i, (h, b) ∈ ch.hs → Past tr (fun a => a.what = .got h ∨ a.what = .use h) i →
        Seen (tr ++ ch.hs.map (fun h => (⟨t, .give h.1⟩ : Ev))) t i := by
      intro h b i hb hp
      obtain ⟨k, hk1, hk2⟩ := List.getElem_of_mem (List.mem_map_of_mem (f := fun h => (⟨t, .give h.1⟩ : Ev)) hb)
      have hget : (tr ++ ch.hs.map (fun h => (⟨t, .give h.1⟩ : Ev)))[tr.length + k]? = some ⟨t, .give h⟩ := by
        rw [List.getElem?_append_right (Nat.le_add_right _ _), Nat.add_sub_cancel_left, List.getElem?_eq_getElem hk1, hk2]
      refine ⟨_, _, hget, rfl, .inr (hp.hb hget (Nat.le_add_right _ _) fun a ha => .inr ?_)⟩
      rcases ha with ha | ha <;> rw [ha] <;> simp [Sync]
    refine j1.thread (s' := { s.setThread t { pc := .newLoop { val := v, dst := dst, conv := none }, arg := some v } with
          handles := eraseAll s.handles (cfg.kids v) }) (own' := ch.rest) ht rfl (fun _ => rfl) rfl (fun _ h => h) ?_ ?_ ?_ ?_ ?_ ?_
    · intro h b i h1 h2
      have h3 : Hd tr h i := h2.pre (fun a ha => by obtain ⟨k, _, rfl⟩ := hgive a ha; simp)
      rcases List.mem_append.mp (hperm.mem_iff.mp h1) with h4 | h4
      · refine .inr ⟨?_, hseen h b i h4 h3⟩
        simp [mem_roots, Thread.owned, Pc.owned, hk h b h4]
      · exact .inl ⟨h, h4, h2⟩
    · intro h b hb
      exact j1.pown h b (hperm.mem_iff.mpr (List.mem_append_right _ hb))
    · intro b hb; rw [idle_roots hid] at hb; cases hb
    · intro b w hb; simp [Pc.removing] at hb
    · intro b hb; simp [Pc.priv] at hb
    · intro b hb
      have hb : b ∈ cfg.kids v := by
        simpa [mem_roots, Thread.owned, Pc.owned, Pc.priv, Pc.removing] using hb
      rw [← hkids] at hb
      obtain ⟨⟨h, c⟩, h1, h2⟩ := List.mem_map.mp hb
      cases h2
      exact hseen h c _ h1 ((j.pown h c (hperm.mem_iff.mpr (List.mem_append_left _ h1))).mono fun a ha => .inl ha)
  | drop t p th ht hid hp =>
    simp only [events, newObj, newOwn]
    have hm : (ch.h, p) ∈ own := hch
    have j1 := j.plain hI (a := ⟨t, .give ch.h⟩) (fun _ => trivial)
    have hseen : ∀ i, Hd tr ch.h i → Seen (tr ++ [⟨t, .give ch.h⟩]) t i := by
      intro i h
      refine h.snoc (fun a ha => .inr ?_) rfl
      rcases ha with ha | ha <;> rw [ha] <;> simp [Sync]
    refine j1.thread (s' := { s.setThread t { pc := .dropSub p } with handles := s.handles.erase p })
      (own' := own.erase (ch.h, p)) ht rfl (fun _ => rfl) rfl (fun _ h => h) ?_ ?_ ?_ ?_ ?_ ?_
    · intro h b i h1 h2
      have h3 : Hd tr h i := h2.pre (fun a ha => by rw [List.mem_singleton.mp ha]; simp)
      by_cases he : (h, b) = (ch.h, p)
      · cases he
        refine .inr ⟨?_, hseen i h3⟩
        simp [mem_roots, Thread.owned, Pc.owned]
      · exact .inl ⟨h, (List.mem_erase_of_ne he).mpr h1, h2⟩
    · intro h b hb
      exact j1.pown h b (List.mem_of_mem_erase hb)
    · intro b hb; rw [idle_roots hid] at hb; cases hb
    · intro b w hb; simp [Pc.removing] at hb
    · intro b hb; simp [Pc.priv] at hb
    · intro b hb
      have hb : b = p := by
        simpa [mem_roots, Thread.owned, Pc.owned, Pc.priv, Pc.removing] using hb
      subst hb
      exact hseen _ ((j.pown _ _ hm).mono fun a ha => .inl ha)
  | clone t path th q x ht hid hp hx =>
    cases path with
    | nil => cases hp
    | cons p path =>
      obtain ⟨hm, hbef⟩ := hch
      obtain ⟨hh, hpq⟩ := borrow_points hp
      simp only [events, newObj, newOwn, hp]
      obtain ⟨j1, hs1⟩ := j.borrow hI (t := t) hm (handles_A hh) (es := looks t obj ch.before ++ [⟨t, .rmw (obj q) od.clone⟩]) (by
        intro a ha
        rcases List.mem_append.mp ha with ha | ha
        · obtain ⟨y, h1, h2⟩ := List.mem_map.mp ha
          rw [← h2]; exact ⟨rfl, y, hbef y h1, .inl rfl⟩
        · rw [List.mem_singleton.mp ha]; exact ⟨rfl, q, hpq, .inr ⟨_, rfl⟩⟩)
      have hsq := hs1 q hpq
      have e : tr ++ ([(⟨t, .use ch.h⟩ : Ev)] ++ looks t obj ch.before ++ [⟨t, .rmw (obj q) od.clone⟩, ⟨t, .use ch.h⟩, ⟨t, .got tr.length⟩]) =
          tr ++ [⟨t, .use ch.h⟩] ++ (looks t obj ch.before ++ [⟨t, .rmw (obj q) od.clone⟩] ++ [⟨t, .use ch.h⟩]) ++ [⟨t, .got tr.length⟩] := by
        simp
      rw [e]
      generalize tr ++ [(⟨t, .use ch.h⟩ : Ev)] ++ (looks t obj ch.before ++ [⟨t, .rmw (obj q) od.clone⟩] ++ [⟨t, .use ch.h⟩]) = tr1 at j1 hsq
      have j2 := j1.plain hI (a := ⟨t, .got tr.length⟩) (fun _ => trivial)
      refine j2.change (s' := { s with heap := setCount s.heap q (cfg.inc x.count), handles := q :: s.handles })
        (own' := (tr.length, q) :: own) ?_ ?_ j2.rem j2.prv ?_ j2.pthr j2.ptab
      · intro b v h
        exact (deref_setCount (s := s) q (cfg.inc x.count) b).symm.trans h
      · intro b hb i a h1 h2
        have hcov := j2.acc b hb i a h1 h2
        clear hb h1 h2
        induction hcov with
        | client h1 h2 => exact .client (List.mem_cons_of_mem _ h1) h2
        | thread h1 h2 h3 => exact .thread h1 h2 h3
        | count h => exact .count h
        | lock h1 h2 h3 => exact .lock h1 ((deref_setCount q (cfg.inc x.count) _).trans h2) h3
        | stored h1 h2 _ ih => exact .stored ((deref_setCount q (cfg.inc x.count) _).trans h1) h2 ih
        | zombie h => exact .zombie h
      · intro h b hb
        rcases List.mem_cons.mp hb with e | hb
        · cases e
          exact hsq.snoc (fun a ha => .inl ha) rfl
        · exact j2.pown h b hb
  | read t path th q ht hid hp =>
    cases path with
    | nil => cases hp
    | cons p path =>
      obtain ⟨hm, hbef⟩ := hch
      obtain ⟨hh, hpq⟩ := borrow_points hp
      simp only [events, newObj, newOwn]
      obtain ⟨j1, _⟩ := j.borrow hI (t := t) hm (handles_A hh) (es := looks t obj ch.before) (by
        intro a ha
        obtain ⟨y, h1, h2⟩ := List.mem_map.mp ha
        rw [← h2]; exact ⟨rfl, y, hbef y h1, .inl rfl⟩)
      have e : tr ++ ([(⟨t, .use ch.h⟩ : Ev)] ++ looks t obj ch.before ++ [⟨t, .use ch.h⟩]) =
          tr ++ [⟨t, .use ch.h⟩] ++ (looks t obj ch.before ++ [⟨t, .use ch.h⟩]) := by simp
      rw [e]
      exact j1
  | len t lo up th ht hid =>
    simp only [events, newObj, newOwn, List.append_nil]
    exact j.same ht rfl (fun _ => rfl) rfl rfl
      (by intro b; rw [idle_roots hid]; simp [mem_roots, Thread.owned, Pc.owned, Pc.priv, Pc.removing])
      (by intro x; simp [Pc.priv]) rfl
  | shrink t lo up th ht hid =>
    simp only [events, newObj, newOwn, List.append_nil]
    exact j.same ht rfl (fun _ => rfl) rfl rfl
      (by intro b; rw [idle_roots hid]; simp [mem_roots, Thread.owned, Pc.owned, Pc.priv, Pc.removing])
      (by intro x; simp [Pc.priv]) rfl
  | panicLoop t th c ht hpc =>
    simp only [events, newObj, newOwn, ht]
    obtain ⟨h1, h2⟩ := hch th ht
    have hnr := (hI.th t th ht).empty (by rw [hpc]; rfl)
    have j1 := j.unwind hI ht h1 h2 (by rw [hpc]; rfl)
    refine j1.same (s' := s.setThread t (unwindCall cfg c none none)) ht rfl (fun _ => rfl) rfl rfl ?_ ?_ ?_
    · intro d
      simp only [mem_roots, Thread.owned, hpc, hnr, unwindCall]
      cases hcv : c.conv <;> simp [Pc.owned, Pc.priv, Pc.removing, hcv]
    · intro d; simp only [unwindCall]; cases hcv : c.conv <;> simp [Pc.priv, hpc, hcv]
    · simp only [unwindCall]; cases c.conv <;> rfl
  | panicEntry t th c b ht hpc =>
    simp only [events, newObj, newOwn, ht]
    obtain ⟨h1, h2⟩ := hch th ht
    have hnr := (hI.th t th ht).empty (by rw [hpc]; rfl)
    have j1 := j.unwind hI ht h1 h2 (by rw [hpc]; rfl)
    refine j1.same (s' := s.setThread t { pc := .dropFree b }) ht rfl (fun _ => rfl) rfl rfl ?_ ?_ rfl
    · intro d
      simp [mem_roots, Thread.owned, hpc, hnr, Pc.owned, Pc.priv, Pc.removing]
    · intro d; simp [Pc.priv, hpc]
  | panicShrink t th i m ht hpc hi hl =>
    simp only [events, newObj, newOwn, ht]
    obtain ⟨h1, h2⟩ := hch th ht
    have j1 := j.unwind hI ht h1 h2 (by rw [hpc]; rfl)
    exact j1.same (s' := s.setThread t { th with pc := .idle })
      ht rfl (fun _ => rfl) rfl rfl (by roots hpc) (by intro x; simp [Pc.priv]) rfl
  | panicRemove t th b ht hpc =>
    simp only [events, newObj, newOwn, ht]
    obtain ⟨h1, h2⟩ := hch th ht
    have j1 := j.unwind hI ht h1 h2 (by rw [hpc]; rfl)
    refine j1.thread (s' := { s.setThread t { th with pc := .idle } with zombies := b :: s.zombies })
      (own' := own) ht rfl (fun _ => rfl) rfl (fun _ h => List.mem_cons_of_mem _ h)
      (fun h c i h1 h2 => .inl ⟨h, h1, h2⟩) j1.pown ?_ ?_ ?_ ?_
    · intro d hd
      by_cases hdb : d = b
      · subst hdb; exact .inr (.inr List.mem_cons_self)
      · refine .inl ?_
        revert hd
        simp only [mem_roots, Thread.owned, Pc.owned, Pc.priv, Pc.removing, hpc, List.mem_append, List.mem_singleton]
        grind
    · intro d v hd; simp [Pc.removing] at hd
    · intro d hd; simp [Pc.priv] at hd
    · intro d hd
      refine j1.pthr t th d ht ?_
      revert hd
      simp only [mem_roots, Thread.owned, Pc.owned, Pc.priv, Pc.removing, hpc, List.mem_append, List.mem_singleton]
      grind
  | panicInsert => exact absurd hsane (by simp [Act.Sane])

/-! ### Traced executions -/

omit [Hashable V] [BEq V] in
theorem perm_of_count {l m : List Addr} (h : ∀ p, l.count p = m.count p) : l.Perm m := List.perm_iff_count.mpr h

theorem traced_reach {od : Orders} (h : Traced cfg od s obj own tr) : Reach cfg s := by
  induction h with
  | init => exact .init
  | step _ hs he hS _ ih => exact ih.step hs he hS

omit [Hashable V] [BEq V] in
/-- The numbered handles are the handles of the model. -/
theorem own_step {ch : Choice} {act : Act V} [BEq V] [Hashable V] {n : Nat} (hp : (own.map (·.2)).Perm s.handles) (hr : StepR cfg s act s')
    (hsane : act.Sane) (hch : ch.Ok cfg s own act) : ((newOwn cfg s own ch n act).map (·.2)).Perm s'.handles := by
  cases hr with
  | spawn => exact hp
  | new t v dst th ht hid hown' hd =>
    obtain ⟨hperm, hkids⟩ := hch
    refine perm_of_count fun p => ?_
    simp only [newOwn, count_eraseAll]
    have h1 := (hperm.map (·.2)).count_eq p
    rw [List.map_append, List.count_append, hkids, hp.count_eq] at h1
    omega
  | clone t path th q x ht hid hq hx =>
    simp only [newOwn, hq, List.map_cons]
    exact hp.cons q
  | read => exact hp
  | drop t p th ht hid hp' =>
    have hm : (ch.h, p) ∈ own := hch
    simp only [newOwn]
    have h1 := (List.perm_cons_erase hm).map (·.2)
    rw [List.map_cons] at h1
    exact (List.perm_cons p).mp (h1.symm.trans (hp.trans (List.perm_cons_erase hp')))
  | len => exact hp
  | shrink => exact hp
  | run t a th s' ht hr =>
    simp only [newOwn, ht]
    cases hr with
    | ret b hpc htodo hret => simp only [hpc, htodo, hret, List.map_cons]; exact hp.cons b
    | todo q qs hpc htodo => simp only [hpc, htodo]; exact hp
    | _ => simp only [*]; exact hp
  | panicLoop => exact hp
  | panicEntry => exact hp
  | panicRemove => exact hp
  | panicShrink => exact hp
  | panicInsert => exact absurd hsane (by simp [Act.Sane])

theorem own_perm {od : Orders} (h : Traced cfg od s obj own tr) : (own.map (·.2)).Perm s.handles := by
  induction h with
  | init => exact .nil
  | step _ hs he _ hch ih => exact own_step ih (step_R he) hs hch

theorem own_mem {od : Orders} (h : Traced cfg od s obj own tr) (k : Nat) (b : Addr) (hb : (k, b) ∈ own) : b ∈ s.handles :=
  (own_perm h).mem_iff.mp (List.mem_map_of_mem (f := (·.2)) hb)

omit [BEq V] in
theorem init_J : J cfg (init : State V) (init : State V).locks (fun _ => 0) [] [] where
  acc := fun b hb => by cases hb
  rem := fun t th b v h => by cases h
  prv := fun t th b h => by cases h
  pown := fun h b hb => by cases hb
  pthr := fun t th b h => by cases h
  ptab := fun b v hb => by cases hb
  psto := fun b c y h => by cases h
  inj := fun b c v w h => by cases h
  mks := fun i t o h => by cases h
  born := fun i a o h => by cases h
  alive := fun b v h => by cases h
  fin := fun i j t a o h => by cases h
  dead := fun j t o b v h => by cases h
  once := fun i j t u o h => by cases h
  held := fun L t i h => by cases h
  tab := fun i t L h => by cases h
  siz := fun i t L h => by cases h
  tabs := fun i j a b L _ h => by cases h

/-- The invariant holds in every execution in which `drop` acquires and releases. -/
theorem traced_J [LawfulHashable V] [EquivBEq V] {od : Orders} (hod : od.drop.acquires = true ∧ od.drop.releases = true)
    (hv : cfg.Valid) (h : Traced cfg od s obj own tr) : J cfg s s.locks obj own tr := by
  induction h with
  | init => exact init_J
  | step h hs he hS hch ih =>
    have hI := reach_inv hv (traced_reach h)
    exact step_J hod hI ((step_kept hv hI hs).2 _ he hS) (own_mem h) ih hs (step_R he) hch

end Arc
