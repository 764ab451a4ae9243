import Verif.Arc.Race
/-! Preservation of the invariant behind C17, change by change. -/
namespace Arc
variable {V : Type} [BEq V] [Hashable V] {cfg : Cfg V} {s s' : State V} {lk : Nat → Option Tid} {obj : Addr → Nat}
  {own own' : List (Nat × Addr)} {tr : List Ev} {t : Tid} {th th' : Thread V}

omit [BEq V] in
/-- A change of state without allocation; the clauses that mention the state are given. -/
theorem J.change (j : J cfg s lk obj own tr) (hd : ∀ b v, deref s' b = some v → deref s b = some v)
    (hacc : ∀ b, b ∈ s'.table → ∀ (i : Nat) a, tr[i]? = some a → a.what.touch = some (obj b) → Cov cfg s' lk obj own' tr i b)
    (hrem : ∀ (t : Tid) th b v, s'.threads[t]? = some th → b ∈ th.pc.removing → deref s b = some v → ∀ (i : Nat) a,
      tr[i]? = some a → a.what.touch = some (obj b) → Seen tr t i ∨ LkH tr lk (cfg.shardOf v) i)
    (hprv : ∀ (t : Tid) th b, s'.threads[t]? = some th → b ∈ th.pc.priv → ∀ (i : Nat) a,
      tr[i]? = some a → a.what.touch = some (obj b) → Seen tr t i)
    (hpown : ∀ h b, (h, b) ∈ own' → Gt tr h (obj b))
    (hpthr : ∀ (t : Tid) th b, s'.threads[t]? = some th → b ∈ th.roots cfg → Seen tr t (obj b))
    (hptab : ∀ b v, b ∈ s'.table → deref s b = some v → LkH tr lk (cfg.shardOf v) (obj b)) :
    J cfg s' lk obj own' tr where
  acc := hacc
  rem := fun t th b v h1 h2 h3 => hrem t th b v h1 h2 (hd _ _ h3)
  prv := hprv
  pown := hpown
  pthr := hpthr
  ptab := fun b v h1 h2 => hptab b v h1 (hd _ _ h2)
  psto := fun b c y h1 h2 => j.psto b c y (hd _ _ h1) h2
  inj := fun b c v w h1 h2 => j.inj b c v w (hd _ _ h1) (hd _ _ h2)
  mks := j.mks
  born := j.born
  alive := fun b v h => j.alive b v (hd _ _ h)
  fin := j.fin
  dead := fun k t o b v h1 h2 => j.dead k t o b v h1 (hd _ _ h2)
  once := j.once
  held := j.held
  tab := j.tab
  siz := j.siz
  tabs := j.tabs

/-- A thread moves on. -/
theorem J.thread (j : J cfg s lk obj own tr) (ht : s.threads[t]? = some th) (hs : s'.threads = s.threads.set t th')
    (hd : ∀ b, deref s' b = deref s b) (htab : s'.table = s.table) (hz : ∀ b, b ∈ s.zombies → b ∈ s'.zombies)
    (hC : ∀ h b i, (h, b) ∈ own → Hd tr h i →
      (∃ h', (h', b) ∈ own' ∧ Hd tr h' i) ∨ (b ∈ th'.roots cfg ∧ Seen tr t i))
    (hG : ∀ h b, (h, b) ∈ own' → Gt tr h (obj b))
    (hA : ∀ b, b ∈ th.roots cfg → b ∈ th'.roots cfg ∨
      (∀ i, Seen tr t i → Ct tr (obj b) i ∨ ∃ h, (h, b) ∈ own' ∧ Hd tr h i) ∨ b ∈ s'.zombies)
    (hR : ∀ b v, b ∈ th'.pc.removing → deref s b = some v → ∀ (i : Nat) a, tr[i]? = some a →
      a.what.touch = some (obj b) → Seen tr t i ∨ LkH tr lk (cfg.shardOf v) i)
    (hP : ∀ b, b ∈ th'.pc.priv → b ∈ th.pc.priv)
    (hO : ∀ b, b ∈ th'.roots cfg → Seen tr t (obj b)) : J cfg s' lk obj own' tr := by
  have hset : ∀ (u : Tid) thu, s'.threads[u]? = some thu → (u = t ∧ thu = th') ∨ (u ≠ t ∧ s.threads[u]? = some thu) := by
    intro u thu h
    rw [hs, set_getElem? _ _ _ _ _ ht] at h
    by_cases hu : u = t
    · rw [if_pos hu] at h; cases h; exact .inl ⟨hu, rfl⟩
    · rw [if_neg hu] at h; exact .inr ⟨hu, h⟩
  have ht' : s'.threads[t]? = some th' := by rw [hs, set_getElem? _ _ _ _ _ ht, if_pos rfl]
  have hcov : ∀ i b, Cov cfg s lk obj own tr i b → Cov cfg s' lk obj own' tr i b := by
    intro i b h
    induction h with
    | client h1 h2 =>
      rcases hC _ _ _ h1 h2 with ⟨h', h3, h4⟩ | ⟨h3, h4⟩
      · exact .client h3 h4
      · exact .thread ht' h3 h4
    | @thread u thu b h1 h2 h3 =>
      by_cases hu : u = t
      · subst hu
        rw [ht] at h1
        cases h1
        rcases hA b h2 with h | h | h
        · exact .thread ht' h h3
        · rcases h i h3 with h | ⟨h', h4, h5⟩
          · exact .count h
          · exact .client h4 h5
        · exact .zombie h
      · exact .thread (t := u) (th := thu) (by rw [hs, set_getElem? _ _ _ _ _ ht, if_neg hu]; exact h1) h2 h3
    | count h => exact .count h
    | lock h1 h2 h3 => exact .lock (htab ▸ h1) (by rw [hd]; exact h2) h3
    | stored h1 h2 _ ih => exact .stored (by rw [hd]; exact h1) h2 ih
    | zombie h => exact .zombie (hz _ h)
  refine j.change (fun b v h => by rw [← hd]; exact h) ?_ ?_ ?_ hG ?_ ?_
  · intro b hb i a ha hta
    exact hcov i b (j.acc b (htab ▸ hb) i a ha hta)
  · intro u thu b v hu hb hv i a ha hta
    rcases hset u thu hu with ⟨rfl, rfl⟩ | ⟨_, hu⟩
    · exact hR b v hb hv i a ha hta
    · exact j.rem u thu b v hu hb hv i a ha hta
  · intro u thu b hu hb i a ha hta
    rcases hset u thu hu with ⟨rfl, rfl⟩ | ⟨_, hu⟩
    · exact j.prv u th b ht (hP b hb) i a ha hta
    · exact j.prv u thu b hu hb i a ha hta
  · intro u thu b hu hb
    rcases hset u thu hu with ⟨rfl, rfl⟩ | ⟨_, hu⟩
    · exact hO b hb
    · exact j.pthr u thu b hu hb
  · intro b v hb hv; exact j.ptab b v (htab ▸ hb) hv

/-- A thread moves on with the same objects in its hands. -/
theorem J.same (j : J cfg s lk obj own tr) (ht : s.threads[t]? = some th) (hs : s'.threads = s.threads.set t th')
    (hd : ∀ b, deref s' b = deref s b) (htab : s'.table = s.table) (hz : s'.zombies = s.zombies)
    (hA : ∀ b, b ∈ th.roots cfg ↔ b ∈ th'.roots cfg) (hP : ∀ b, b ∈ th'.pc.priv → b ∈ th.pc.priv)
    (hR : th'.pc.removing = []) : J cfg s' lk obj own tr :=
  j.thread ht hs hd htab (fun b hb => hz ▸ hb) (fun h b i h1 h2 => .inl ⟨h, h1, h2⟩) j.pown
    (fun b hb => .inl ((hA b).mp hb)) (fun b v hb => by rw [hR] at hb; cases hb) hP
    (fun b hb => j.pthr t th b ht ((hA b).mpr hb))

/-- Inserting a box into the table. -/
theorem J.insert (j : J cfg s lk obj own tr) (ht : s.threads[t]? = some th) (hs : s'.threads = s.threads.set t th')
    (hd : ∀ b, deref s' b = deref s b) {b : Addr} {v : V} (hb : b ∈ th.pc.priv) (hv : deref s b = some v)
    (hl : lk (cfg.shardOf v) = some t) (htab : s'.table = b :: s.table) (hz : s'.zombies = s.zombies)
    (hA : ∀ b, b ∈ th.roots cfg ↔ b ∈ th'.roots cfg) (hP : th'.pc.priv = [])
    (hR : th'.pc.removing = []) : J cfg s' lk obj own tr := by
  have hset : ∀ (u : Tid) thu, s'.threads[u]? = some thu → (u = t ∧ thu = th') ∨ (u ≠ t ∧ s.threads[u]? = some thu) := by
    intro u thu h
    rw [hs, set_getElem? _ _ _ _ _ ht] at h
    by_cases hu : u = t
    · rw [if_pos hu] at h; cases h; exact .inl ⟨hu, rfl⟩
    · rw [if_neg hu] at h; exact .inr ⟨hu, h⟩
  have ht' : s'.threads[t]? = some th' := by rw [hs, set_getElem? _ _ _ _ _ ht, if_pos rfl]
  have hroot : b ∈ th.roots cfg := mem_roots.mpr (.inr (.inl hb))
  have hcov : ∀ i c, Cov cfg s lk obj own tr i c → Cov cfg s' lk obj own tr i c := by
    intro i c h
    induction h with
    | client h1 h2 => exact .client h1 h2
    | @thread u thu c h1 h2 h3 =>
      by_cases hu : u = t
      · subst hu
        rw [ht] at h1
        cases h1
        exact .thread ht' ((hA c).mp h2) h3
      · exact .thread (t := u) (th := thu) (by rw [hs, set_getElem? _ _ _ _ _ ht, if_neg hu]; exact h1) h2 h3
    | count h => exact .count h
    | lock h1 h2 h3 => exact .lock (htab ▸ List.mem_cons_of_mem _ h1) (by rw [hd]; exact h2) h3
    | stored h1 h2 _ ih => exact .stored (by rw [hd]; exact h1) h2 ih
    | zombie h => exact .zombie (hz ▸ h)
  refine j.change (fun b v h => by rw [← hd]; exact h) ?_ ?_ ?_ j.pown ?_ ?_
  · intro c hc i a ha hta
    rw [htab] at hc
    rcases List.mem_cons.mp hc with rfl | hc
    · exact .thread ht' ((hA c).mp hroot) (j.prv t th c ht hb i a ha hta)
    · exact hcov i c (j.acc c hc i a ha hta)
  · intro u thu c w hu hc hw i a ha hta
    rcases hset u thu hu with ⟨rfl, rfl⟩ | ⟨_, hu⟩
    · rw [hR] at hc; cases hc
    · exact j.rem u thu c w hu hc hw i a ha hta
  · intro u thu c hu hc i a ha hta
    rcases hset u thu hu with ⟨rfl, rfl⟩ | ⟨_, hu⟩
    · rw [hP] at hc; cases hc
    · exact j.prv u thu c hu hc i a ha hta
  · intro u thu c hu hc
    rcases hset u thu hu with ⟨rfl, rfl⟩ | ⟨_, hu⟩
    · exact j.pthr u th c ht ((hA c).mpr hc)
    · exact j.pthr u thu c hu hc
  · intro c w hc hw
    rw [htab] at hc
    rcases List.mem_cons.mp hc with rfl | hc
    · rw [hv] at hw
      cases hw
      exact .inr ⟨t, hl, j.pthr t th c ht hroot⟩
    · exact j.ptab c w hc hw

/-- Removing a box from the table. -/
theorem J.remove (hI : Inv cfg s) (j : J cfg s lk obj own tr) (ht : s.threads[t]? = some th)
    (hs : s'.threads = s.threads.set t th')
    (hd : ∀ b, deref s' b = deref s b) {b : Addr} {v : V} (hb : b ∈ th.pc.removing) (hv : deref s b = some v)
    (hl : lk (cfg.shardOf v) = some t) (htab : s'.table = s.table.erase b) (hz : s'.zombies = s.zombies)
    (hA : ∀ b, b ∈ th.roots cfg ↔ b ∈ th'.roots cfg) (hP : th'.pc.priv = [b])
    (hR : th'.pc.removing = []) : J cfg s' lk obj own tr := by
  have hset : ∀ (u : Tid) thu, s'.threads[u]? = some thu → (u = t ∧ thu = th') ∨ (u ≠ t ∧ s.threads[u]? = some thu) := by
    intro u thu h
    rw [hs, set_getElem? _ _ _ _ _ ht] at h
    by_cases hu : u = t
    · rw [if_pos hu] at h; cases h; exact .inl ⟨hu, rfl⟩
    · rw [if_neg hu] at h; exact .inr ⟨hu, h⟩
  have ht' : s'.threads[t]? = some th' := by rw [hs, set_getElem? _ _ _ _ _ ht, if_pos rfl]
  have hroot : b ∈ th.roots cfg := mem_roots.mpr (.inr (.inr hb))
  have hlk : ∀ i, LkH tr lk (cfg.shardOf v) i → Seen tr t i := by
    intro i h
    rcases h with h | ⟨u, hu, h⟩
    · exact j.held _ _ _ hl h
    · rw [hl] at hu; cases hu; exact h
  have hcov : ∀ i c, Cov cfg s lk obj own tr i c → Cov cfg s' lk obj own tr i c := by
    intro i c h
    induction h with
    | client h1 h2 => exact .client h1 h2
    | @thread u thu c h1 h2 h3 =>
      by_cases hu : u = t
      · subst hu
        rw [ht] at h1
        cases h1
        exact .thread ht' ((hA c).mp h2) h3
      · exact .thread (t := u) (th := thu) (by rw [hs, set_getElem? _ _ _ _ _ ht, if_neg hu]; exact h1) h2 h3
    | count h => exact .count h
    | @lock c w h1 h2 h3 =>
      by_cases hcb : c = b
      · subst hcb
        rw [hv] at h2
        cases h2
        exact .thread ht' ((hA c).mp hroot) (hlk i h3)
      · exact .lock (htab ▸ (List.mem_erase_of_ne hcb).mpr h1) (by rw [hd]; exact h2) h3
    | stored h1 h2 _ ih => exact .stored (by rw [hd]; exact h1) h2 ih
    | zombie h => exact .zombie (hz ▸ h)
  refine j.change (fun b v h => by rw [← hd]; exact h) ?_ ?_ ?_ j.pown ?_ ?_
  · intro c hc i a ha hta
    rw [htab] at hc
    exact hcov i c (j.acc c (List.mem_of_mem_erase hc) i a ha hta)
  · intro u thu c w hu hc hw i a ha hta
    rcases hset u thu hu with ⟨rfl, rfl⟩ | ⟨_, hu⟩
    · rw [hR] at hc; cases hc
    · exact j.rem u thu c w hu hc hw i a ha hta
  · intro u thu c hu hc i a ha hta
    rcases hset u thu hu with ⟨rfl, rfl⟩ | ⟨_, hu⟩
    · rw [hP] at hc
      cases List.mem_singleton.mp hc
      exact (j.rem _ th _ v ht hb hv i a ha hta).elim id (hlk i)
    · exact j.prv u thu c hu hc i a ha hta
  · intro u thu c hu hc
    rcases hset u thu hu with ⟨rfl, rfl⟩ | ⟨_, hu⟩
    · exact j.pthr u th c ht ((hA c).mpr hc)
    · exact j.pthr u thu c hu hc
  · intro c w hc hw
    rw [htab] at hc
    exact j.ptab c w (List.mem_of_mem_erase hc) hw

/-- Freeing a box. -/
theorem J.free (hI : Inv cfg s) (j : J cfg s lk obj own tr) (hown : ∀ h b, (h, b) ∈ own → b ∈ s.handles)
    (ht : s.threads[t]? = some th) (hs : s'.threads = s.threads.set t th')
    {b : Addr} {v : V} (hb : b ∈ th.pc.priv) (hv : deref s b = some v)
    (hd : ∀ c, deref s' c = if c = b then none else deref s c) (htab : s'.table = s.table) (hz : s'.zombies = s.zombies)
    (hA : ∀ c, c ∈ th.roots cfg → c ≠ b → c ∈ th'.roots cfg) (hK : ∀ c, c ∈ cfg.kids v → c ∈ th'.roots cfg)
    (hA' : ∀ c, c ∈ th'.roots cfg → c ∈ th.roots cfg ∨ c ∈ cfg.kids v)
    (hP : ∀ c, c ∈ th'.pc.priv → c ∈ th.pc.priv)
    (hR : th'.pc.removing = []) : J cfg s' lk obj own (tr ++ [⟨t, .free (obj b)⟩]) := by
  have hset : ∀ (u : Tid) thu, s'.threads[u]? = some thu → (u = t ∧ thu = th') ∨ (u ≠ t ∧ s.threads[u]? = some thu) := by
    intro u thu h
    rw [hs, set_getElem? _ _ _ _ _ ht] at h
    by_cases hu : u = t
    · rw [if_pos hu] at h; cases h; exact .inl ⟨hu, rfl⟩
    · rw [if_neg hu] at h; exact .inr ⟨hu, h⟩
  have ht' : s'.threads[t]? = some th' := by rw [hs, set_getElem? _ _ _ _ _ ht, if_pos rfl]
  have hroot : b ∈ th.roots cfg := mem_roots.mpr (.inr (.inl hb))
  have hds : ∀ c w, deref s' c = some w → c ≠ b ∧ deref s c = some w := by
    intro c w h
    rw [hd] at h
    by_cases hc : c = b
    · rw [if_pos hc] at h; cases h
    · rw [if_neg hc] at h; exact ⟨hc, h⟩
  have hntab : b ∉ s.table := fun h => hI.not_priv h ht hb
  have hnA : ¬ 0 < A cfg s b := fun h => hntab (A_facts hI h).1
  have hcov : ∀ i c, Cov cfg s lk obj own tr i c →
      (c ≠ b → Cov cfg s' lk obj own (tr ++ [⟨t, .free (obj b)⟩]) i c) ∧ (c = b → Seen tr t i) := by
    intro i c h
    induction h with
    | @client h c h1 h2 =>
      refine ⟨fun _ => .client h1 (h2.append _), fun e => ?_⟩
      subst e
      refine absurd ?_ hnA
      have : 0 < s.handles.count c := List.count_pos_iff.mpr (hown h c h1)
      rw [A_eq]; omega
    | @thread u thu c h1 h2 h3 =>
      by_cases hu : u = t
      · subst hu
        rw [ht] at h1
        cases h1
        exact ⟨fun hc => .thread ht' (hA c h2 hc) (h3.append _), fun _ => h3⟩
      · refine ⟨fun _ => .thread (t := u) (th := thu) (by rw [hs, set_getElem? _ _ _ _ _ ht, if_neg hu]; exact h1) h2
          (h3.append _), fun e => ?_⟩
        subst e
        rcases mem_roots.mp h2 with h2 | h2 | h2
        · exact absurd (mem_owned_A h1 h2) hnA
        · have := P_two ht h1 hu hb h2
          have h5 := hI.split c
          have h6 := hI.nd c
          omega
        · exact absurd (List.count_pos_iff.mp (rem_facts hI h1 h2).1) hntab
    | @count c h =>
      refine ⟨fun _ => .count (h.append _), fun e => ?_⟩
      subst e
      obtain ⟨e, a, h1, ⟨ord, h2, _⟩, h3⟩ := h
      exact (j.prv t th c ht hb e a h1 (by rw [h2]; rfl)).before h3
    | @lock c w h1 h2 h3 =>
      refine ⟨fun hc => .lock (htab ▸ h1) (by rw [hd, if_neg hc]; exact h2) (h3.append _), fun e => ?_⟩
      subst e
      exact absurd h1 hntab
    | @stored c' c y h1 h2 _ ih =>
      refine ⟨fun hc => ?_, fun e => ?_⟩
      · by_cases hc' : c' = b
        · subst hc'
          rw [hv] at h1
          cases h1
          exact .thread ht' (hK c h2) ((ih.2 rfl).append _)
        · exact .stored (by rw [hd, if_neg hc']; exact h1) h2 (ih.1 hc')
      · subst e
        exact absurd (deref_A h1 h2) hnA
    | @zombie c h =>
      refine ⟨fun _ => .zombie (hz ▸ h), fun e => ?_⟩
      subst e
      have h1 : 0 < Z s c := List.count_pos_iff.mpr h
      have h2 := hI.pend c
      split at h2
      · rename_i h3; exact absurd (List.count_pos_iff.mp h3.1) hntab
      · omega
  have notTouch : ∀ a : Ev, a ∈ [(⟨t, .free (obj b)⟩ : Ev)] → a.what.touch = none := by
    intro a ha; rw [List.mem_singleton.mp ha]; rfl
  have old : ∀ (i : Nat) a o, (tr ++ [(⟨t, .free (obj b)⟩ : Ev)])[i]? = some a → a.what.touch = some o → tr[i]? = some a := by
    intro i a o ha hta
    rcases tget_cases ha with h | ⟨_, h⟩
    · exact h
    · rw [notTouch a h] at hta; cases hta
  have hnb : ∀ c, c ∈ s.table → c ≠ b := fun c hc e => hntab (e ▸ hc)
  constructor
  · intro c hc i a ha hta
    rw [htab] at hc
    exact (hcov i c (j.acc c hc i a (old i a _ ha hta) hta)).1 (hnb c hc)
  · intro u thu c w hu hc hw i a ha hta
    rcases hset u thu hu with ⟨rfl, rfl⟩ | ⟨_, hu⟩
    · rw [hR] at hc; cases hc
    · exact (j.rem u thu c w hu hc (hds c w hw).2 i a (old i a _ ha hta) hta).imp (fun x => x.append _) (fun x => x.append _)
  · intro u thu c hu hc i a ha hta
    rcases hset u thu hu with ⟨rfl, rfl⟩ | ⟨_, hu⟩
    · exact (j.prv u th c ht (hP c hc) i a (old i a _ ha hta) hta).append _
    · exact (j.prv u thu c hu hc i a (old i a _ ha hta) hta).append _
  · intro h c hc; exact (j.pown h c hc).append _
  · intro u thu c hu hc
    rcases hset u thu hu with ⟨rfl, rfl⟩ | ⟨_, hu⟩
    · rcases hA' c hc with hc | hc
      · exact (j.pthr u th c ht hc).append _
      · exact ((j.pthr u th b ht hroot).before (.inr (j.psto c b v hv hc))).append _
    · exact (j.pthr u thu c hu hc).append _
  · intro c w hc hw; exact (j.ptab c w (htab ▸ hc) (hds c w hw).2).append _
  · intro c d y hy hc; exact (j.psto c d y (hds d y hy).2 hc).append _
  · intro c d x y hx hy; exact j.inj c d x y (hds c x hx).2 (hds d y hy).2
  · intro i u o h; exact j.mks i u o (old i _ o h rfl)
  · intro i a o ha hta
    rcases tget_cases ha with h | ⟨hle, hm⟩
    · obtain ⟨⟨u, h1⟩, h2⟩ := j.born i a o h hta
      exact ⟨⟨u, tget_append h1⟩, h2.imp id (HB.append _)⟩
    · have := List.mem_singleton.mp hm
      subst this
      rcases hta with hta | hta
      · cases hta
      · cases hta
        obtain ⟨u, hu⟩ := j.alive b v hv
        exact ⟨⟨u, tget_append hu⟩, .inr ((j.pthr t th b ht hroot).hb ha hle (fun x hx => .inl hx))⟩
  · intro c w hw
    obtain ⟨u, hu⟩ := j.alive c w (hds c w hw).2
    exact ⟨u, tget_append hu⟩
  · intro i k u a o hk ha hta
    have ha' := old i a o ha hta
    rcases tget_cases hk with hk' | ⟨hle, hm⟩
    · exact (j.fin i k u a o hk' ha' hta).append _
    · have := List.mem_singleton.mp hm
      cases this
      exact (j.prv _ th b ht hb i a ha' hta).hb hk hle (fun x hx => .inl hx)
  · intro k u o c w hk hw
    rcases tget_cases hk with hk' | ⟨hle, hm⟩
    · exact j.dead k u o c w hk' (hds c w hw).2
    · have := List.mem_singleton.mp hm
      cases this
      intro e
      exact (hds c w hw).1 (j.inj c b w v (hds c w hw).2 hv e)
  · intro i k u u' o hi hk
    rcases tget_cases hi with hi' | ⟨hlei, hmi⟩
    · rcases tget_cases hk with hk' | ⟨hlek, hmk⟩
      · exact j.once i k u u' o hi' hk'
      · cases List.mem_singleton.mp hmk
        exact absurd rfl (j.dead i u _ b v hi' hv)
    · rcases tget_cases hk with hk' | ⟨hlek, hmk⟩
      · cases List.mem_singleton.mp hmi
        exact absurd rfl (j.dead k u' _ b v hk' hv)
      · have h1 := tget_lt hi
        have h2 := tget_lt hk
        simp only [List.length_append, List.length_cons, List.length_nil] at h1 h2
        omega
  · intro L u i hu hl
    exact (j.held L u i hu (hl.pre (fun a ha => by rw [List.mem_singleton.mp ha]; simp))).append _
  · intro i u L h
    rcases tget_cases h with h | ⟨_, h⟩
    · exact (j.tab i u L h).imp (fun x => x.append _) (fun ⟨w, h1, h2⟩ => ⟨w, h1, h2.append _⟩)
    · cases List.mem_singleton.mp h
  · intro i u L h
    rcases tget_cases h with h | ⟨_, h⟩
    · exact (j.siz i u L h).append _
    · cases List.mem_singleton.mp h
  · intro i k a c L hlt ha hc hw
    rcases tget_cases hc with hc' | ⟨_, hm⟩
    · exact (j.tabs i k a c L hlt (tget_pre ha (Nat.lt_trans hlt (tget_lt hc'))) hc' hw).append _
    · have := List.mem_singleton.mp hm
      subst this
      rcases hw with ⟨_, hw | hw⟩ | ⟨_, hw⟩ <;> cases hw

/-- Allocating a box. -/
theorem J.alloc (hI : Inv cfg s) (j : J cfg s lk obj own tr) (hown : ∀ h b, (h, b) ∈ own → b ∈ s.handles)
    (ht : s.threads[t]? = some th) (hs : s'.threads = s.threads.set t th') {a : Addr} {v : V}
    (hfr : deref s a = none) (hd : ∀ c, deref s' c = if c = a then some v else deref s c)
    (htab : s'.table = s.table) (hz : s'.zombies = s.zombies)
    (hA : ∀ c, c ∈ th.roots cfg → c ∈ cfg.kids v) (hK : ∀ c, c ∈ cfg.kids v → c ∈ th.roots cfg)
    (hA' : ∀ c, c ∈ th'.roots cfg → c = a) (hP : a ∈ th'.pc.priv)
    (hR : th'.pc.removing = []) :
    J cfg s' lk (fun b => if b = a then tr.length else obj b) own (tr ++ [⟨t, .make tr.length⟩]) := by
  have hset : ∀ (u : Tid) thu, s'.threads[u]? = some thu → (u = t ∧ thu = th') ∨ (u ≠ t ∧ s.threads[u]? = some thu) := by
    intro u thu h
    rw [hs, set_getElem? _ _ _ _ _ ht] at h
    by_cases hu : u = t
    · rw [if_pos hu] at h; cases h; exact .inl ⟨hu, rfl⟩
    · rw [if_neg hu] at h; exact .inr ⟨hu, h⟩
  have ht' : s'.threads[t]? = some th' := by rw [hs, set_getElem? _ _ _ _ _ ht, if_pos rfl]
  have hroot : a ∈ th'.roots cfg := mem_roots.mpr (.inr (.inl hP))
  have hne : ∀ c w, deref s c = some w → c ≠ a := fun c w h e => by rw [e, hfr] at h; cases h
  have hds : ∀ c w, deref s' c = some w → (c = a ∧ w = v) ∨ (c ≠ a ∧ deref s c = some w) := by
    intro c w h
    rw [hd] at h
    by_cases hc : c = a
    · rw [if_pos hc] at h; cases h; exact .inl ⟨hc, rfl⟩
    · rw [if_neg hc] at h; exact .inr ⟨hc, h⟩
  have htn : ∀ c, c ∈ s.table → c ≠ a := fun c hc => by
    obtain ⟨w, hw⟩ := table_deref hI hc; exact hne c w hw
  have hrn : ∀ (u : Tid) thu c, s.threads[u]? = some thu → c ∈ thu.roots cfg → c ≠ a := fun u thu c hu hc => by
    obtain ⟨w, hw⟩ := root_deref hI hu hc; exact hne c w hw
  have hon : ∀ h c, (h, c) ∈ own → c ≠ a := fun h c hc => by
    refine htn c (A_facts hI ?_).1
    have : 0 < s.handles.count c := List.count_pos_iff.mpr (hown h c hc)
    rw [A_eq]; omega
  have hkn : ∀ c y d, deref s c = some y → d ∈ cfg.kids y → d ≠ a := fun c y d h1 h2 =>
    htn d (A_facts hI (deref_A h1 h2)).1
  have hcov : ∀ i c, Cov cfg s lk obj own tr i c → c ≠ a →
      Cov cfg s' lk (fun b => if b = a then tr.length else obj b) own (tr ++ [⟨t, .make tr.length⟩]) i c := by
    intro i c h
    induction h with
    | client h1 h2 => exact fun _ => .client h1 (h2.append _)
    | @thread u thu c h1 h2 h3 =>
      intro hc
      by_cases hu : u = t
      · subst hu
        rw [ht] at h1
        cases h1
        exact .stored (c := a) (by rw [hd, if_pos rfl]) (hA c h2) (.thread ht' hroot (h3.append _))
      · exact .thread (t := u) (th := thu) (by rw [hs, set_getElem? _ _ _ _ _ ht, if_neg hu]; exact h1) h2 (h3.append _)
    | count h => exact fun hc => .count (by simp only [if_neg hc]; exact h.append _)
    | lock h1 h2 h3 => exact fun hc => .lock (htab ▸ h1) (by rw [hd, if_neg hc]; exact h2) (h3.append _)
    | @stored c' c y h1 h2 _ ih =>
      have hc' := hne c' y h1
      exact fun _ => .stored (by rw [hd, if_neg hc']; exact h1) h2 (ih hc')
    | zombie h => exact fun _ => .zombie (hz ▸ h)
  have fresh : ∀ (i : Nat) e, tr[i]? = some e → e.what.touch = some tr.length → False := by
    intro i e he hte
    obtain ⟨⟨u, hu⟩, _⟩ := j.born i e _ he (.inl hte)
    exact absurd (tget_lt hu) (Nat.lt_irrefl _)
  have old : ∀ (i : Nat) e o, o < tr.length → (tr ++ [(⟨t, .make tr.length⟩ : Ev)])[i]? = some e →
      e.what.touch = some o → tr[i]? = some e := by
    intro i e o ho he hte
    rcases tget_cases he with h | ⟨_, h⟩
    · exact h
    · rw [List.mem_singleton.mp h] at hte
      cases hte
      exact absurd ho (Nat.lt_irrefl _)
  have olt : ∀ c w, deref s c = some w → obj c < tr.length := fun c w h => by
    obtain ⟨u, hu⟩ := j.alive c w h; exact tget_lt hu
  constructor
  · intro c hc i e he hte
    rw [htab] at hc
    have hca := htn c hc
    obtain ⟨w, hw⟩ := table_deref hI hc
    simp only [if_neg hca] at hte
    exact hcov i c (j.acc c hc i e (old i e _ (olt c w hw) he hte) hte) hca
  · intro u thu c w hu hc hw i e he hte
    rcases hset u thu hu with ⟨rfl, rfl⟩ | ⟨_, hu⟩
    · rw [hR] at hc; cases hc
    · have hca := hrn u thu c hu (mem_roots.mpr (.inr (.inr hc)))
      rw [hd, if_neg hca] at hw
      simp only [if_neg hca] at hte
      exact (j.rem u thu c w hu hc hw i e (old i e _ (olt c w hw) he hte) hte).imp (fun x => x.append _) (fun x => x.append _)
  · intro u thu c hu hc i e he hte
    rcases hset u thu hu with ⟨rfl, rfl⟩ | ⟨_, hu⟩
    · cases hA' c (mem_roots.mpr (.inr (.inl hc)))
      simp only [if_true] at hte
      rcases tget_cases he with h | ⟨_, h⟩
      · exact (fresh i e h hte).elim
      · exact .self he (by rw [List.mem_singleton.mp h])
    · have hca := hrn u thu c hu (mem_roots.mpr (.inr (.inl hc)))
      obtain ⟨w, hw⟩ := priv_deref hI hu hc
      simp only [if_neg hca] at hte
      exact (j.prv u thu c hu hc i e (old i e _ (olt c w hw) he hte) hte).append _
  · intro h c hc
    simp only [if_neg (hon h c hc)]
    exact (j.pown h c hc).append _
  · intro u thu c hu hc
    rcases hset u thu hu with ⟨rfl, rfl⟩ | ⟨_, hu⟩
    · cases hA' c hc
      simp only [if_true]
      exact .self (tget_last _ _) rfl
    · simp only [if_neg (hrn u thu c hu hc)]
      exact (j.pthr u thu c hu hc).append _
  · intro c w hc hw
    rw [htab] at hc
    have hca := htn c hc
    rw [hd, if_neg hca] at hw
    simp only [if_neg hca]
    exact (j.ptab c w hc hw).append _
  · intro c d y hy hc
    rcases hds d y hy with ⟨rfl, rfl⟩ | ⟨hda, hy⟩
    · have hr := hK c hc
      have hca := hrn t th c ht hr
      simp only [if_neg hca, if_true]
      exact (j.pthr t th c ht hr).hb (tget_last _ _) (Nat.le_refl _) (fun x hx => .inl hx)
    · simp only [if_neg hda, if_neg (hkn d y c hy hc)]
      exact (j.psto c d y hy hc).append _
  · intro c d x y hx hy e
    rcases hds c x hx with ⟨rfl, rfl⟩ | ⟨hca, hx⟩ <;> rcases hds d y hy with ⟨rfl, rfl⟩ | ⟨hda, hy⟩
    · rfl
    · simp only [if_true, if_neg hda] at e
      have := olt d y hy; omega
    · simp only [if_true, if_neg hca] at e
      have := olt c x hx; omega
    · simp only [if_neg hca, if_neg hda] at e
      exact j.inj c d x y hx hy e
  · intro i u o h
    rcases tget_cases h with h' | ⟨hle, hm⟩
    · exact j.mks i u o h'
    · cases List.mem_singleton.mp hm
      have := tget_lt h
      simp only [List.length_append, List.length_cons, List.length_nil] at this
      omega
  · intro i e o he hte
    rcases tget_cases he with h | ⟨hle, hm⟩
    · obtain ⟨⟨u, h1⟩, h2⟩ := j.born i e o h hte
      exact ⟨⟨u, tget_append h1⟩, h2.imp id (HB.append _)⟩
    · have := List.mem_singleton.mp hm
      subst this
      rcases hte with hte | hte
      · cases hte
        refine ⟨⟨t, tget_last _ _⟩, .inl ?_⟩
        have := tget_lt he
        simp only [List.length_append, List.length_cons, List.length_nil] at this
        omega
      · cases hte
  · intro c w hw
    rcases hds c w hw with ⟨rfl, rfl⟩ | ⟨hca, hw⟩
    · simp only [if_true]; exact ⟨t, tget_last _ _⟩
    · simp only [if_neg hca]
      obtain ⟨u, hu⟩ := j.alive c w hw
      exact ⟨u, tget_append hu⟩
  · intro i k u e o hk he hte
    rcases tget_cases hk with hk' | ⟨hle, hm⟩
    · obtain ⟨⟨w, hw⟩, _⟩ := j.born k _ o hk' (.inr rfl)
      exact (j.fin i k u e o hk' (old i e o (tget_lt hw) he hte) hte).append _
    · cases List.mem_singleton.mp hm
  · intro k u o c w hk hw
    rcases tget_cases hk with hk' | ⟨hle, hm⟩
    · rcases hds c w hw with ⟨rfl, rfl⟩ | ⟨hca, hw⟩
      · simp only [if_true]
        obtain ⟨⟨x, hx⟩, _⟩ := j.born k _ o hk' (.inr rfl)
        have := tget_lt hx
        omega
      · simp only [if_neg hca]
        exact j.dead k u o c w hk' hw
    · cases List.mem_singleton.mp hm
  · intro i k u u' o hi hk
    rcases tget_cases hi with hi' | ⟨_, hm⟩
    · rcases tget_cases hk with hk' | ⟨_, hm⟩
      · exact j.once i k u u' o hi' hk'
      · cases List.mem_singleton.mp hm
    · cases List.mem_singleton.mp hm
  · intro L u i hu hl
    exact (j.held L u i hu (hl.pre (fun a ha => by rw [List.mem_singleton.mp ha]; simp))).append _
  · intro i u L h
    rcases tget_cases h with h | ⟨_, h⟩
    · exact (j.tab i u L h).imp (fun x => x.append _) (fun ⟨w, h1, h2⟩ => ⟨w, h1, h2.append _⟩)
    · cases List.mem_singleton.mp h
  · intro i u L h
    rcases tget_cases h with h | ⟨_, h⟩
    · exact (j.siz i u L h).append _
    · cases List.mem_singleton.mp h
  · intro i k e c L hlt ha hc hw
    rcases tget_cases hc with hc' | ⟨_, hm⟩
    · exact (j.tabs i k e c L hlt (tget_pre ha (Nat.lt_trans hlt (tget_lt hc'))) hc' hw).append _
    · have := List.mem_singleton.mp hm
      subst this
      rcases hw with ⟨_, hw | hw⟩ | ⟨_, hw⟩ <;> cases hw

end Arc
