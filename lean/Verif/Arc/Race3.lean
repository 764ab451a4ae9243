import Verif.Arc.Race2
/-! Preservation of the invariant behind C17 by every step. -/
namespace Arc
variable {V : Type} [BEq V] [Hashable V] {cfg : Cfg V} {s s' : State V} {lk : Nat → Option Tid} {obj : Addr → Nat}
  {own own' : List (Nat × Addr)} {tr : List Ev} {t : Tid} {th th' : Thread V}

/-- Client code using a handle `h` to `p`: reads and counter updates of objects reachable from it. -/
theorem J.borrow (hI : Inv cfg s) (j : J cfg s lk obj own tr) {h : Nat} {p : Addr} (hp : (h, p) ∈ own)
    (hA : 0 < A cfg s p) {es : List Ev}
    (hes : ∀ a ∈ es, a.tid = t ∧ ∃ x, Points cfg s p x ∧ (a.what = .look (obj x) ∨ ∃ ord, a.what = .rmw (obj x) ord)) :
    J cfg s lk obj own (tr ++ [⟨t, .use h⟩] ++ (es ++ [⟨t, .use h⟩])) ∧
    ∀ x, Points cfg s p x → Seen (tr ++ [⟨t, .use h⟩] ++ (es ++ [⟨t, .use h⟩])) t (obj x) := by
  have j1 := j.plain hI (a := ⟨t, .use h⟩) (fun _ => trivial)
  have hseen : ∀ x, Points cfg s p x → Seen (tr ++ [⟨t, .use h⟩]) t (obj x) := by
    intro x hx
    refine Past.before ?_ (points_le j1 hx)
    refine (j.pown h p hp).snoc (fun a ha => .inr ?_) rfl
    rw [ha]; simp [Sync]
  refine ⟨j1.extend hI (t := t) _ ?_ ?_, fun x hx => (hseen x hx).append _⟩
  · intro a ha
    rcases List.mem_append.mp ha with ha | ha
    · exact (hes a ha).1
    · rw [List.mem_singleton.mp ha]
  · intro i a hi ha
    rcases tget_cases ha with h' | ⟨_, hm⟩
    · exact absurd (tget_lt h') (Nat.not_lt.mpr hi)
    rcases List.mem_append.mp hm with hm | hm
    · obtain ⟨hat, x, hx, hw⟩ := hes a hm
      have hAx : 0 < A cfg s x := by
        rcases points_cases hx with rfl | hAx
        · exact hA
        · exact hAx
      have hF := A_facts hI hAx
      obtain ⟨v, hv⟩ := table_deref hI hF.1
      have key : ∃ b v, deref s b = some v ∧ obj b = obj x ∧ HB (tr ++ [⟨t, .use h⟩] ++ (es ++ [⟨t, .use h⟩])) (obj x) i ∧
          (b ∈ s.table → Cov cfg s lk obj own (tr ++ [⟨t, .use h⟩] ++ (es ++ [⟨t, .use h⟩])) i b) ∧
          (∀ (u : Tid) thu, s.threads[u]? = some thu → b ∈ thu.pc.removing →
            Seen (tr ++ [⟨t, .use h⟩] ++ (es ++ [⟨t, .use h⟩])) u i ∨
            LkH (tr ++ [⟨t, .use h⟩] ++ (es ++ [⟨t, .use h⟩])) lk (cfg.shardOf v) i) ∧
          (∀ (u : Tid) thu, s.threads[u]? = some thu → b ∈ thu.pc.priv →
            Seen (tr ++ [⟨t, .use h⟩] ++ (es ++ [⟨t, .use h⟩])) u i) := by
        refine ⟨x, v, hv, rfl, ?_, ?_, ?_, ?_⟩
        · exact (hseen x hx).hb ha hi (fun b hb => .inl (hb.trans hat.symm))
        · intro _
          refine Cov.points hx (.client hp ?_)
          rw [← List.append_assoc] at ha ⊢
          exact Past.last (b := ⟨t, .use h⟩) (.self ha hat) (.inr rfl)
        · intro u thu hu hr; exact absurd hr (hF.2 u thu hu).2
        · intro u thu hu hr; exact absurd hr (hF.2 u thu hu).1
      rcases hw with hw | ⟨ord, hw⟩ <;> simpa only [NewOk, hw] using key
    · rw [List.mem_singleton.mp hm]; trivial

/-- Reading the size of a shard. -/
theorem J.len (hI : Inv cfg s) (j : J cfg s lk obj own tr) {L : Nat} (hn : lk L = none) :
    J cfg s lk obj own (tr ++ [⟨t, .rlock L⟩, ⟨t, .size L⟩, ⟨t, .runlock L⟩]) := by
  have j1 := j.plain hI (a := ⟨t, .rlock L⟩) (fun _ => trivial)
  have hw : ∀ i, Wk (tr ++ [⟨t, .rlock L⟩]) L i → Seen (tr ++ [⟨t, .rlock L⟩]) t i := by
    intro i h
    have h1 : Wk tr L i := h.pre (fun a ha => by rw [List.mem_singleton.mp ha]; simp)
    refine h1.snoc (fun a ha => .inr ?_) rfl
    rw [ha]; simp [Sync]
  have e : tr ++ [(⟨t, .rlock L⟩ : Ev), ⟨t, .size L⟩, ⟨t, .runlock L⟩] =
      (tr ++ [⟨t, .rlock L⟩]) ++ [⟨t, .size L⟩, ⟨t, .runlock L⟩] := by simp
  rw [e]
  generalize tr ++ [(⟨t, .rlock L⟩ : Ev)] = tr1 at j1 hw ⊢
  have notTouch : ∀ a : Ev, a ∈ [(⟨t, .size L⟩ : Ev), ⟨t, .runlock L⟩] → a.what.touch = none ∧
      (∀ o, a.what ≠ .free o ∧ a.what ≠ .make o) ∧ (∀ M, a.what ≠ .table M ∧ a.what ≠ .unlock M) ∧ a.tid = t := by
    intro a ha
    simp only [List.mem_cons, List.mem_nil_iff, or_false] at ha
    rcases ha with rfl | rfl <;> refine ⟨rfl, fun _ => ⟨?_, ?_⟩, fun _ => ⟨?_, ?_⟩, rfl⟩ <;> simp
  have old : ∀ (i : Nat) a o, (tr1 ++ [(⟨t, .size L⟩ : Ev), ⟨t, .runlock L⟩])[i]? = some a → a.what.touch = some o →
      tr1[i]? = some a := by
    intro i a o ha hta
    rcases tget_cases ha with h | ⟨_, h⟩
    · exact h
    · rw [(notTouch a h).1] at hta; cases hta
  have oldF : ∀ (i : Nat) u o, (tr1 ++ [(⟨t, .size L⟩ : Ev), ⟨t, .runlock L⟩])[i]? = some ⟨u, .free o⟩ →
      tr1[i]? = some ⟨u, .free o⟩ := by
    intro i u o ha
    rcases tget_cases ha with h | ⟨_, h⟩
    · exact h
    · exact absurd rfl ((notTouch _ h).2.1 o).1
  constructor
  · intro b hb i a ha hta; exact (j1.acc b hb i a (old i a _ ha hta) hta).append _
  · intro u thu b v hu hb hv i a ha hta
    exact (j1.rem u thu b v hu hb hv i a (old i a _ ha hta) hta).imp (fun x => x.append _) (fun x => x.append _)
  · intro u thu b hu hb i a ha hta; exact (j1.prv u thu b hu hb i a (old i a _ ha hta) hta).append _
  · intro h b hb; exact (j1.pown h b hb).append _
  · intro u thu b hu hb; exact (j1.pthr u thu b hu hb).append _
  · intro b v hb hv; exact (j1.ptab b v hb hv).append _
  · intro b c y hc hb; exact (j1.psto b c y hc hb).append _
  · exact j1.inj
  · intro i u o h; exact j1.mks i u o (old i _ o h rfl)
  · intro i a o ha hta
    have ha' : tr1[i]? = some a := by
      rcases hta with h | h
      · exact old i a o ha h
      · obtain ⟨tid, w⟩ := a
        cases h
        exact oldF i _ o ha
    obtain ⟨⟨u, h1⟩, h2⟩ := j1.born i a o ha' hta
    exact ⟨⟨u, tget_append h1⟩, h2.imp id (HB.append _)⟩
  · intro b v hv
    obtain ⟨u, hu⟩ := j1.alive b v hv
    exact ⟨u, tget_append hu⟩
  · intro i k u a o hk ha hta
    exact (j1.fin i k u a o (oldF k u o hk) (old i a o ha hta) hta).append _
  · intro k u o b v hk hv; exact j1.dead k u o b v (oldF k u o hk) hv
  · intro i k u u' o hi hk; exact j1.once i k u u' o (oldF i u o hi) (oldF k u' o hk)
  · intro M u i hu hl
    obtain ⟨e, a, h1, h2, h3⟩ := hl
    rcases tget_cases h1 with h | ⟨hle, hm⟩
    · exact (j1.held M u i hu ⟨e, a, h, h2, h3.imp id (fun x => x.pre (tget_lt h))⟩).append _
    · simp only [List.mem_cons, List.mem_nil_iff, or_false] at hm
      rcases hm with rfl | rfl
      · simp at h2
      · simp only [reduceCtorEq, What.runlock.injEq, false_or] at h2
        subst h2
        rw [hn] at hu; cases hu
  · intro i u M h
    rcases tget_cases h with h' | ⟨_, hm⟩
    · exact (j1.tab i u M h').imp (fun x => x.append _) (fun ⟨w, h1, h2⟩ => ⟨w, h1, h2.append _⟩)
    · exact absurd rfl ((notTouch _ hm).2.2.1 M).1
  · intro i u M h
    rcases tget_cases h with h' | ⟨_, hm⟩
    · exact (j1.siz i u M h').append _
    · have hm' := hm
      simp only [List.mem_cons, List.mem_nil_iff, or_false, Ev.mk.injEq, What.size.injEq, reduceCtorEq, and_false] at hm'
      obtain ⟨rfl, rfl⟩ := hm'
      have e2 : tr1 ++ [(⟨u, .size M⟩ : Ev), ⟨u, .runlock M⟩] = tr1 ++ [⟨u, .size M⟩] ++ [⟨u, .runlock M⟩] := by simp
      rw [e2] at h ⊢
      exact Past.last (b := ⟨u, .runlock M⟩) (.self h rfl) (.inr rfl)
  · intro i k a b M hlt ha hb hw'
    rcases tget_cases hb with hb' | ⟨hle, hm⟩
    · exact (j1.tabs i k a b M hlt (tget_pre ha (Nat.lt_trans hlt (tget_lt hb'))) hb' hw').append _
    · have hbt : b.what = .size M ∧ a.what = .table M := by
        rcases hw' with ⟨hw1, hw2 | hw2⟩ | ⟨hw1, hw2⟩
        · exact absurd hw2 ((notTouch _ hm).2.2.1 M).1
        · exact ⟨hw2, hw1⟩
        · exact absurd hw2 ((notTouch _ hm).2.2.1 M).1
      have hML : M = L := by
        simp only [List.mem_cons, List.mem_nil_iff, or_false] at hm
        rcases hm with rfl | rfl
        · simpa using hbt.1.symm
        · simp at hbt
      subst hML
      have hbtid := (notTouch _ hm).2.2.2
      rcases tget_cases ha with ha' | ⟨_, hma⟩
      · have hs : Seen tr1 t i := by
          rcases j1.tab i a.tid M (by rw [ha', ← hbt.2]) with h | ⟨u, hu, h⟩
          · exact hw i h
          · rw [hn] at hu; cases hu
        exact hs.hb hb hle (fun x hx => .inl (hx.trans hbtid.symm))
      · exact absurd hbt.2 ((notTouch _ hma).2.2.1 M).1

omit [BEq V] [Hashable V] in
theorem O_two {u : Tid} {thu : Thread V} (h : s.threads[t]? = some th) (h' : s.threads[u]? = some thu) (hne : u ≠ t)
    {b : Addr} (hb : b ∈ th.owned cfg) (hb' : b ∈ thu.owned cfg) :
    2 ≤ (s.threads.flatMap (Thread.owned cfg)).count b := by
  have h1 := owned_set cfg s.threads ({} : Thread V) h b
  have h2 : (s.threads.set t {})[u]? = some thu := by
    rw [set_getElem? _ _ _ _ _ h, if_neg hne]; exact h'
  have h3 : 0 < ((s.threads.set t {}).flatMap (Thread.owned cfg)).count b :=
    (count_flatMap_pos _ b _).mpr ⟨u, thu, h2, hb'⟩
  have h4 : 0 < (th.owned cfg).count b := List.count_pos_iff.mpr hb
  have h5 : (({} : Thread V).owned cfg).count b = 0 := by simp [Thread.owned, Pc.owned]
  omega

/-- When the last handle is dropped, its thread knows about all accesses, except those recorded at the lock. -/
theorem J.last (hI : Inv cfg s) (j : J cfg s lk obj own tr) (hown : ∀ h b, (h, b) ∈ own → b ∈ s.handles)
    (ht : s.threads[t]? = some th) {b : Addr} {v : V} (hb : b ∈ th.owned cfg) (hv : deref s b = some v)
    (hA : A cfg s b = 1) {ord : Order} (ho : ord.acquires = true) {i : Nat} {a : Ev}
    (ha : (tr ++ [⟨t, .rmw (obj b) ord⟩])[i]? = some a) (hta : a.what.touch = some (obj b)) :
    Seen (tr ++ [⟨t, .rmw (obj b) ord⟩]) t i ∨ LkH (tr ++ [⟨t, .rmw (obj b) ord⟩]) lk (cfg.shardOf v) i := by
  rcases tget_cases ha with ha' | ⟨_, hm⟩
  · have hF := A_facts hI (mem_owned_A ht hb)
    have hO : 0 < (s.threads.flatMap (Thread.owned cfg)).count b :=
      (count_flatMap_pos _ b s.threads).mpr ⟨t, th, ht, hb⟩
    have hE := A_eq cfg s b
    cases j.acc b hF.1 i a ha' hta with
    | @client h b h1 h2 =>
      have : 0 < s.handles.count b := List.count_pos_iff.mpr (hown h b h1)
      omega
    | @thread u thu b h1 h2 h3 =>
      by_cases hu : u = t
      · subst hu; exact .inl (h3.append _)
      · rcases mem_roots.mp h2 with h2 | h2 | h2
        · have := O_two ht h1 hu hb h2; omega
        · exact absurd h2 (hF.2 u thu h1).1
        · exact absurd h2 (hF.2 u thu h1).2
    | count h =>
      refine .inl (h.snoc (fun e he => .inr ?_) rfl)
      obtain ⟨o, h1, h2⟩ := he
      rw [h1]
      exact ⟨rfl, h2, ho⟩
    | lock h1 h2 h3 =>
      rw [hv] at h2
      cases h2
      exact .inr (h3.append _)
    | @stored c b y h1 h2 _ =>
      obtain ⟨x, hx, rfl⟩ := deref_get h1
      have : 0 < (storedHandles cfg s.heap).count b :=
        List.count_pos_iff.mpr (List.mem_flatMap.mpr ⟨(c, x), mem_of_get hx, h2⟩)
      omega
    | @zombie b h =>
      have h1 : 0 < Z s b := List.count_pos_iff.mpr h
      have h2 := hI.pend b
      split at h2 <;> omega
  · exact .inl (.self ha (by rw [List.mem_singleton.mp hm]))

end Arc
