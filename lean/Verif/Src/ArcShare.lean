import Verif.Src.ArcTerm
/-
Which nodes exist (C94): the words, and the proofs.
-/
namespace Src.ArcNest
open Arc (Addr Tid Cell Cfg Node Tree Unfolds UnfoldsAll)

/-- `t` is `u`, or part of it. -/
inductive Sub {L : Type} : Tree L → Tree L → Prop
  | refl (t : Tree L) : Sub t t
  | kid {t u : Tree L} {l : L} {us : List (Tree L)} : u ∈ us → Sub t u → Sub t (.node l us)

/-- `t` is part of a term to which clients have a handle. -/
def Has {L : Type} (N : State (Node L)) (t : Tree L) : Prop := ∃ p ∈ N.handles, ∃ u, Unfolds N.view p u ∧ Sub t u

/-- Children of a term. -/
def children {L : Type} : Tree L → List (Tree L)
  | .node _ ts => ts

open Classical in
/-- How often `t` is a child of `u`. -/
noncomputable def occurs {L : Type} (t u : Tree L) : Nat := (children u).countP fun x => decide (x = t)

theorem Sub.trans {L : Type} {t u v : Tree L} (h : Sub t u) (h' : Sub u v) : Sub t v := by
  induction h' with
  | refl => exact h
  | kid hm _ ih => exact .kid hm ih

section
variable {L : Type}

theorem unfoldsAll_mem {s : Arc.State (Node L)} : ∀ {ps : List Addr} {ts : List (Tree L)}, UnfoldsAll s ps ts →
    (∀ p ∈ ps, ∃ t ∈ ts, Unfolds s p t) ∧ ∀ t ∈ ts, ∃ p ∈ ps, Unfolds s p t
  | _, _, .nil => ⟨by simp, by simp⟩
  | _, _, .cons u a => by
    obtain ⟨h1, h2⟩ := unfoldsAll_mem a
    refine ⟨fun p hp => ?_, fun t ht => ?_⟩
    · rcases List.mem_cons.mp hp with rfl | hp
      · exact ⟨_, List.mem_cons_self, u⟩
      · obtain ⟨t, ht, h⟩ := h1 p hp
        exact ⟨t, List.mem_cons_of_mem _ ht, h⟩
    · rcases List.mem_cons.mp ht with rfl | ht
      · exact ⟨_, List.mem_cons_self, u⟩
      · obtain ⟨p, hp, h⟩ := h2 t ht
        exact ⟨p, List.mem_cons_of_mem _ hp, h⟩

variable [BEq L] [LawfulBEq L] [Hashable (Node L)] [LawfulHashable (Node L)] {cfg : Cfg (Node L)} {N : State (Node L)} {l : List (Mark (Node L))}
  {S : ArcCode.State (Node L)} {s : Arc.State (Node L)}

/-! ### At any time -/

theorem Good.entry_tree (hk : ∀ n, cfg.kids n = n.kids) (h : Good cfg N l S s) {b : Addr} (hb : b ∈ s.table) :
    ∃ t, Unfolds s b t ∧ Unfolds N.view b t := by
  obtain ⟨c, hc⟩ := Arc.exists_get (h.inv.mem_keys hb)
  obtain ⟨t, ht⟩ := Arc.unfolds_exists hk h.inv s.heap [] rfl _ (Arc.mem_of_get hc)
  exact ⟨t, ht, unfolds_mono h.view_mono ht⟩

theorem Good.entry_inj (hk : ∀ n, cfg.kids n = n.kids) (h : Good cfg N l S s) {b c : Addr} (hb : b ∈ s.table) (hc : c ∈ s.table) {t : Tree L}
    (ht : Unfolds N.view b t) (hu : Unfolds N.view c t) : b = c := by
  obtain ⟨t1, h1, h2⟩ := h.entry_tree hk hb
  obtain ⟨t2, h3, h4⟩ := h.entry_tree hk hc
  rw [Arc.unfolds_fun h2 ht] at h1
  rw [Arc.unfolds_fun h4 hu] at h3
  cases h1 with
  | @node _ lb ks ts d1 a1 =>
    cases h3 with
    | @node _ _ ks' _ d2 a2 =>
      obtain ⟨x, g1, e1⟩ := Arc.deref_get d1
      obtain ⟨y, g2, e2⟩ := Arc.deref_get d2
      have kid : ∀ {r : Addr} {c : Cell (Node L)} {ks : List Addr}, Arc.get s.heap r = some c → c.data = ⟨lb, ks⟩ →
          ∀ k ∈ ks, k ∈ Arc.allHandles cfg s := by
        intro r c ks hg he k hkk
        exact stored hg (by rw [hk, he]; exact hkk)
      have := Arc.unfoldsAll_inj hk h.inv (kid g1 e1) (kid g2 e2) a1 a2
      subst this
      exact h.inv.uniq b c x y hb hc g1 g2 (by rw [e1, e2]; exact BEq.rfl)

/-- Parts of a term are in the table. -/
theorem Good.part (hk : ∀ n, cfg.kids n = n.kids) (h : Good cfg N l S s) {t u : Tree L} (hs : Sub t u) : ∀ {p : Addr}, p ∈ Arc.allHandles cfg s →
    Unfolds N.view p u → ∃ b ∈ Arc.allHandles cfg s, Unfolds N.view b t := by
  induction hs with
  | refl => exact fun hp hu => ⟨_, hp, hu⟩
  | @kid u lb us hm _ ih =>
    intro p hp hu
    obtain ⟨t1, h1, h2⟩ := h.tree hk hp
    rw [Arc.unfolds_fun h2 hu] at h1
    cases h1 with
    | @node _ _ ks _ d a =>
      obtain ⟨k, hkm, hk'⟩ := (unfoldsAll_mem a).2 _ hm
      obtain ⟨x, g, e⟩ := Arc.deref_get d
      exact ih (stored g (by rw [hk, e]; exact hkm)) (unfolds_mono h.view_mono hk')

/-- **Parts of the terms of clients are in the table, once.** -/
theorem Good.shared (hk : ∀ n, cfg.kids n = n.kids) (h : Good cfg N l S s) {t : Tree L} (ht : Has N t) :
    ∃ b ∈ N.mem.table, Unfolds N.view b t ∧ ∀ b' ∈ N.mem.table, Unfolds N.view b' t → b' = b := by
  obtain ⟨p, hp, u, hu, hs⟩ := ht
  obtain ⟨b, hb, hbt⟩ := h.part hk hs (h.handle_all hp) hu
  rw [← h.flat.mem, ← h.sim.shared.table]
  exact ⟨b, h.inv.in_table hb, hbt, fun b' hb' ht' => h.entry_inj hk hb' (h.inv.in_table hb) ht' hbt⟩

/-! ### When no call is running -/

/-- What is known about a quiet state. -/
structure Calm (cfg : Cfg (Node L)) (N : State (Node L)) : Prop where
  nd : (Arc.keys N.mem.heap).Nodup
  perm : (Arc.keys N.mem.heap).Perm N.mem.table
  all : ∀ p, p ∈ N.mem.table ↔ p ∈ allHandles cfg N
  ord : N.mem.heap.Pairwise (fun x y => x.1 ∉ cfg.kids y.2.data)
  self : ∀ e ∈ N.mem.heap, e.1 ∉ cfg.kids e.2.data
  tree : ∀ p ∈ N.mem.table, ∃ t, Unfolds N.view p t
  inj : ∀ p ∈ N.mem.table, ∀ q ∈ N.mem.table, ∀ t, Unfolds N.view p t → Unfolds N.view q t → p = q
  count : ∀ p ∈ N.mem.table, refcount N p = some ((allHandles cfg N).count p)
  has : ∀ t, Has N t → ∃ b ∈ N.mem.table, Unfolds N.view b t

theorem Good.calm (hk : ∀ n, cfg.kids n = n.kids) (h : Good cfg N l S s) (hz : s.zombies = []) (hq : Quiet N) : Calm cfg N := by
  have hqS := h.flat.quiet hq
  have hqs := h.sim.quiet hqS
  have ht : N.mem.table = s.table := by rw [← h.flat.mem, ← h.sim.shared.table]
  have hh : N.mem.heap = s.heap := by rw [← h.flat.mem, ← h.sim.quiet_heap hqS]
  have hall : ∀ p, p ∈ N.mem.table ↔ p ∈ allHandles cfg N := by
    intro p
    rw [ht, Arc.inv_table_exact h.inv hz hqs p, ← List.count_pos_iff, h.sim.quiet_handles hqS, List.count_pos_iff]
    simp [ArcCode.allHandles, allHandles, h.flat.handles, h.flat.mem]
  refine ⟨?_, ?_, hall, hh ▸ h.inv.ord, hh ▸ h.inv.self, fun p hp => ?_, fun p hp q hq t h1 h2 => ?_, fun p hp => ?_,
    fun t ht => (h.shared hk ht).imp fun _ h => ⟨h.1, h.2.1⟩⟩
  · rw [hh]; exact List.nodup_iff_count.mpr h.inv.nd
  · rw [hh, ht]
    refine List.perm_iff_count.mpr fun p => ?_
    obtain ⟨_, q2, _⟩ := Arc.quiescent_counts (cfg := cfg) hqs p
    have := h.inv.split p
    simp only [Arc.K, Arc.T] at this
    omega
  · rw [ht] at hp
    exact (h.entry_tree hk hp).imp fun _ h => h.2
  · rw [ht] at hp hq
    exact h.entry_inj hk hp hq h1 h2
  · exact ((h.quiet_exact hq).1 p ((hall p).mp hp)).2

omit [BEq L] [LawfulBEq L] [Hashable (Node L)] [LawfulHashable (Node L)] in
/-- A node that exists is part of a term of a client. -/
theorem Calm.rooted (hk : ∀ n, cfg.kids n = n.kids) (h : Calm cfg N) : ∀ (n : Nat) {l1 l2 : List (Addr × Cell (Node L))} {e : Addr × Cell (Node L)},
    l1.length ≤ n → N.mem.heap = l1 ++ e :: l2 → ∀ t, Unfolds N.view e.1 t → Has N t := by
  intro n
  induction n with
  | zero => ?_
  | succ n ih => ?_
  all_goals
    intro l1 l2 e hl he t ht
    have hin : e ∈ N.mem.heap := by rw [he]; simp
    have htab : e.1 ∈ N.mem.table := h.perm.mem_iff.mp (List.mem_map.mpr ⟨e, hin, rfl⟩)
    have hm := (h.all _).mp htab
    rw [allHandles, List.mem_append] at hm
    rcases hm with hm | hm
    · exact ⟨e.1, hm, t, ht, .refl t⟩
    obtain ⟨e', hin', hkid⟩ := List.mem_flatMap.mp hm
    have hord := h.ord
    rw [he, List.pairwise_append, List.pairwise_cons] at hord
    have hl1 : e' ∈ l1 := by
      have : e' ∈ l1 ++ e :: l2 := he ▸ hin'
      rcases List.mem_append.mp this with h1 | h1
      · exact h1
      · rcases List.mem_cons.mp h1 with rfl | h1
        · exact absurd hkid (h.self _ hin)
        · exact absurd hkid (hord.2.1.1 _ h1)
  · cases l1 with
    | nil => cases hl1
    | cons => simp at hl
  · obtain ⟨m1, m2, rfl⟩ := List.append_of_mem hl1
    have he' : N.mem.heap = m1 ++ e' :: (m2 ++ e :: l2) := by rw [he]; simp
    have htab' : e'.1 ∈ N.mem.table := h.perm.mem_iff.mp (List.mem_map.mpr ⟨e', hin', rfl⟩)
    obtain ⟨u, hu⟩ := h.tree _ htab'
    have hlen : m1.length ≤ n := by simp at hl; omega
    obtain ⟨p, hp, w, hw, hs⟩ := ih hlen he' u hu
    have hu' := hu
    cases hu' with
    | @node _ lb ks us d a =>
      have hd : (Arc.get N.mem.heap e'.1).map (·.data) = some ⟨lb, ks⟩ := d
      rw [Arc.get_of_mem_nodup hin' (List.nodup_iff_count.mp h.nd)] at hd
      have hd' : e'.2.data = ⟨lb, ks⟩ := Option.some.inj hd
      rw [hk, hd'] at hkid
      obtain ⟨t', ht', hut'⟩ := (unfoldsAll_mem a).1 _ hkid
      rw [Arc.unfolds_fun hut' ht] at ht'
      exact ⟨p, hp, w, hw, (Sub.kid ht' (.refl t)).trans hs⟩

omit [BEq L] [LawfulBEq L] [Hashable (Node L)] [LawfulHashable (Node L)] in
theorem unfoldsAll_len {s : Arc.State (Node L)} : ∀ {ps : List Addr} {ts : List (Tree L)}, UnfoldsAll s ps ts → ps.length = ts.length
  | _, _, .nil => rfl
  | _, _, .cons _ a => by rw [List.length_cons, List.length_cons, unfoldsAll_len a]

omit [BEq L] [LawfulBEq L] [Hashable (Node L)] [LawfulHashable (Node L)] in
theorem unfoldsAll_nodup {s : Arc.State (Node L)} : ∀ {ps : List Addr} {ts : List (Tree L)}, UnfoldsAll s ps ts → ps.Nodup →
    (∀ p ∈ ps, ∀ q ∈ ps, ∀ t, Unfolds s p t → Unfolds s q t → p = q) → ts.Nodup
  | _, _, .nil, _, _ => List.nodup_nil
  | _, _, .cons u a, hn, hi => by
    rw [List.nodup_cons] at hn ⊢
    refine ⟨fun hm => ?_, unfoldsAll_nodup a hn.2 fun p hp q hq => hi p (by simp [hp]) q (by simp [hq])⟩
    obtain ⟨q, hq, hqt⟩ := (unfoldsAll_mem a).2 _ hm
    have := hi _ (by simp) q (by simp [hq]) _ u hqt
    subst this
    exact hn.1 hq

omit [BEq L] [LawfulBEq L] [Hashable (Node L)] [LawfulHashable (Node L)] in
theorem Calm.occurs_all (h : Calm cfg N) {b : Addr} (hb : b ∈ N.mem.table) {t : Tree L} (ht : Unfolds N.view b t) : ∀ {ks : List Addr}
    {us : List (Tree L)}, UnfoldsAll N.view ks us → (∀ k ∈ ks, k ∈ N.mem.table) → ∀ l, ks.count b = occurs t (.node l us)
  | _, _, .nil, _, _ => rfl
  | _, _, .cons (k := k) (t := u) hu a, hk, l => by
    have ih := h.occurs_all hb ht a (fun k hm => hk k (by simp [hm])) l
    simp only [occurs, children] at ih ⊢
    rw [List.count_cons, List.countP_cons, ih]
    congr 1
    by_cases hkb : k = b
    · subst hkb
      simp [Arc.unfolds_fun hu ht]
    · have : u ≠ t := by
        rintro rfl
        exact hkb (h.inj k (hk k (by simp)) b hb _ hu ht)
      simp [hkb, this]

omit [BEq L] [LawfulBEq L] [Hashable (Node L)] [LawfulHashable (Node L)] in
theorem Calm.occurs_heap (hk : ∀ n, cfg.kids n = n.kids) (h : Calm cfg N) {b : Addr} (hb : b ∈ N.mem.table) {t : Tree L} (ht : Unfolds N.view b t) :
    ∀ {l : List (Addr × Cell (Node L))} {us : List (Tree L)}, (∀ e ∈ l, e ∈ N.mem.heap) → UnfoldsAll N.view (Arc.keys l) us →
      (Arc.storedHandles cfg l).count b = (us.map (occurs t)).sum := by
  intro l
  induction l with
  | nil => intro us _ a; cases a; rfl
  | cons e l ih =>
    intro us hin a
    cases a with
    | cons hu a =>
      have h1 := ih (fun e he => hin e (by simp [he])) a
      have he := hin e (by simp)
      rw [List.map_cons, List.sum_cons, ← h1]
      simp only [Arc.storedHandles, List.flatMap_cons, List.count_append]
      congr 1
      cases hu with
      | @node _ lb ks us' d a' =>
        have hd : (Arc.get N.mem.heap e.1).map (·.data) = some ⟨lb, ks⟩ := d
        rw [Arc.get_of_mem_nodup he (List.nodup_iff_count.mp h.nd)] at hd
        have hd' : e.2.data = ⟨lb, ks⟩ := Option.some.inj hd
        rw [hk, hd']
        refine h.occurs_all hb ht a' (fun k hm => ?_) lb
        rw [h.all, allHandles, List.mem_append]
        exact .inr (List.mem_flatMap.mpr ⟨e, he, by rw [hk, hd']; exact hm⟩)

omit [BEq L] [LawfulBEq L] [Hashable (Node L)] [LawfulHashable (Node L)] in
/-- **The nodes that exist are the parts of the terms of clients**, and the counts of a node are what they should be. -/
theorem Calm.exact (hk : ∀ n, cfg.kids n = n.kids) (h : Calm cfg N) :
    ∃ ts : List (Tree L), ts.Nodup ∧ (∀ t, t ∈ ts ↔ Has N t) ∧ N.mem.table.length = ts.length ∧ N.mem.heap.length = ts.length ∧
      ∀ b ∈ N.mem.table, ∀ t, Unfolds N.view b t → refcount N b = some (N.handles.count b + (ts.map (occurs t)).sum) := by
  obtain ⟨ts, hts⟩ := Arc.unfoldsAll_exists (s := N.view) (Arc.keys N.mem.heap) fun p hp => h.tree p (h.perm.mem_iff.mp hp)
  have hlen : N.mem.heap.length = ts.length := by rw [← unfoldsAll_len hts, Arc.keys, List.length_map]
  refine ⟨ts, unfoldsAll_nodup hts h.nd fun p hp q hq => h.inj p (h.perm.mem_iff.mp hp) q (h.perm.mem_iff.mp hq), fun t => ⟨fun ht => ?_, fun ht => ?_⟩,
    by rw [← h.perm.length_eq, ← unfoldsAll_len hts], hlen, fun b hb t ht => ?_⟩
  · obtain ⟨p, hp, hpt⟩ := (unfoldsAll_mem hts).2 t ht
    obtain ⟨e, he, rfl⟩ := List.mem_map.mp hp
    obtain ⟨l1, l2, hh⟩ := List.append_of_mem he
    exact h.rooted hk _ (Nat.le_refl _) hh t hpt
  · obtain ⟨b, hb, hbt⟩ := h.has t ht
    obtain ⟨t', ht', h'⟩ := (unfoldsAll_mem hts).1 b (h.perm.mem_iff.mpr hb)
    rw [← Arc.unfolds_fun h' hbt]; exact ht'
  · rw [h.count b hb, allHandles, List.count_append, h.occurs_heap hk hb ht (fun _ h => h) hts]

end
end Src.ArcNest
