import Verif.Arc.DeepScan
import Verif.DeepCtx
/-!
C74: `deep_size_of_arc_interned` under concurrency.
-/
namespace Arc
variable {V : Type} [BEq V] [Hashable V] {cfg : Cfg V} {word : Nat} {size : V → Nat} {lo up : Nat} {P : State V → Prop} {s0 : State V}

/-- Is an object counted already? -/
def ScanOk (cfg : Cfg V) (lo up : Nat) (L : List (Addr × V)) (S : Addr → V → Prop) (s : State V) (objs : List (Addr × V)) : ScanPc → Prop
  | .between i => lo ≤ i ∧ (∀ o ∈ objs, cfg.shardOf o.2 < i) ∧ ∀ o ∈ L, cfg.shardOf o.2 < i → o ∈ objs
  | .inside i todo => lo ≤ i ∧ i < up ∧ s.locks i = none ∧ todo.Nodup ∧
      (∀ b ∈ todo, b ∈ s.table ∧ ∃ v, deref s b = some v ∧ cfg.shardOf v = i ∧ S b v) ∧
      (∀ o ∈ objs, cfg.shardOf o.2 < i ∨ cfg.shardOf o.2 = i ∧ o.1 ∉ todo) ∧
      ∀ o ∈ L, cfg.shardOf o.2 < i + 1 → o ∈ objs ∨ o.1 ∈ todo
  | .done => ∀ o ∈ L, o ∈ objs

theorem sum_le_of_sub {α : Type} (w : α → Nat) : ∀ {L M : List α}, L.Nodup → (∀ x ∈ L, x ∈ M) → (L.map w).sum ≤ (M.map w).sum
  | [], _, _, _ => Nat.zero_le _
  | a :: L, M, hn, h => by
    rw [List.nodup_cons] at hn
    obtain ⟨A, B, rfl⟩ := List.append_of_mem (h a (by simp))
    have := sum_le_of_sub w (L := L) (M := A ++ B) hn.2 (by
      intro x hx
      have hne : x ≠ a := fun e => hn.1 (e ▸ hx)
      have := h x (by simp [hx])
      simp only [List.mem_append, List.mem_cons] at this ⊢
      rcases this with h | h | h
      · exact .inl h
      · exact absurd h hne
      · exact .inr h)
    simp only [List.map_append, List.map_cons, List.sum_append, List.sum_cons] at this ⊢
    omega

variable [EquivBEq V] [LawfulHashable V]

theorem scan_main (hv : cfg.Valid) (h0 : Reach cfg s0) {L : List (Addr × V)} {S : Addr → V → Prop}
    (hP : ∀ u, P u → (∀ o ∈ L, o.1 ∈ u.table ∧ deref u o.1 = some o.2 ∧ lo ≤ cfg.shardOf o.2 ∧ cfg.shardOf o.2 < up) ∧
      ∀ p v, p ∈ u.table → deref u p = some v → S p v)
    {s : State V} {pc : ScanPc} {acc : Nat} (h : Scan cfg word size lo up P s0 s pc acc) :
    ∃ objs : List (Addr × V), acc = (objs.map fun o => word + size o.2).sum ∧
      objs.Pairwise (fun a b => a.1 ≠ b.1 ∨ (a.2 == b.2) = false) ∧
      (∀ o ∈ objs, S o.1 o.2 ∧ lo ≤ cfg.shardOf o.2 ∧ cfg.shardOf o.2 < up) ∧
      ScanOk cfg lo up L S s objs pc := by
  induction h with
  | start h =>
    refine ⟨[], rfl, .nil, by simp, Nat.le_refl _, by simp, fun o ho hlt => ?_⟩
    have := ((hP _ h).1 o ho).2.2.1
    omega
  | @enter s i acc ord hs hi hl hperm ih =>
    obtain ⟨objs, h1, h2, h3, h4, h5, h6⟩ := ih
    obtain ⟨hr, hp⟩ := hs.reach h0
    have hI := reach_inv hv hr
    have hnd : s.table.Nodup := by
      rw [List.nodup_iff_count]
      intro a
      have h1 := hI.split a
      have h2 := hI.nd a
      simp only [T] at h1; omega
    have hmem : ∀ b, b ∈ ord ↔ b ∈ s.table ∧ ∃ v, deref s b = some v ∧ cfg.shardOf v = i := by
      intro b
      rw [hperm.mem_iff, shardEntries, List.mem_filter]
      constructor
      · rintro ⟨ha, hb⟩
        cases hd : deref s b with
        | none => simp [hd] at hb
        | some v => exact ⟨ha, v, rfl, by simpa [hd] using hb⟩
      · rintro ⟨ha, v, hd, hb⟩
        exact ⟨ha, by simp [hd, hb]⟩
    refine ⟨objs, h1, h2, h3, h4, hi, hl, hperm.nodup_iff.mpr (hnd.filter _), ?_, fun o ho => .inl (h5 o ho), ?_⟩
    · intro b hb
      obtain ⟨ha, v, hd, hs'⟩ := (hmem b).mp hb
      exact ⟨ha, v, hd, hs', (hP _ hp).2 b v ha hd⟩
    · intro o ho hlt
      by_cases hlt' : cfg.shardOf o.2 < i
      · exact .inl (h6 o ho hlt')
      · obtain ⟨a1, a2, _⟩ := (hP _ hp).1 o ho
        exact .inr ((hmem _).mpr ⟨a1, o.2, a2, by omega⟩)
  | @visit s i acc b todo x hs hx ih =>
    obtain ⟨objs, h1, h2, h3, h4, h5, h6, h7, h8, h9, h10⟩ := ih
    obtain ⟨hr, hp⟩ := hs.reach h0
    obtain ⟨hb1, v, hb2, hb3, hb4⟩ := h8 b (by simp)
    have hxv : x.data = v := by simpa [deref, hx] using hb2
    rw [List.nodup_cons] at h7
    refine ⟨(b, v) :: objs, ?_, ?_, ?_, h4, h5, h6, h7.2, fun c hc => h8 c (by simp [hc]), ?_, ?_⟩
    · simp only [List.map_cons, List.sum_cons, hxv, h1]; omega
    · refine List.pairwise_cons.mpr ⟨fun o ho => ?_, h2⟩
      rcases h9 o ho with hlt | ⟨_, hn⟩
      · right
        cases hc : (v == o.2)
        · rfl
        · have := shardOf_congr (cfg := cfg) hc; omega
      · left
        exact fun e => hn (by simp [← e])
    · intro o ho
      rcases List.mem_cons.mp ho with rfl | ho
      · exact ⟨hb4, hb3.symm ▸ h4, hb3.symm ▸ h5⟩
      · exact h3 o ho
    · intro o ho
      rcases List.mem_cons.mp ho with rfl | ho
      · exact .inr ⟨hb3, h7.1⟩
      · rcases h9 o ho with h | ⟨h, hn⟩
        · exact .inl h
        · exact .inr ⟨h, fun hm => hn (by simp [hm])⟩
    · intro o ho hlt
      rcases h10 o ho hlt with h | h
      · exact .inl (by simp [h])
      · rcases List.mem_cons.mp h with h | h
        · left
          obtain ⟨_, a2, _⟩ := (hP _ hp).1 o ho
          rw [h, hb2] at a2
          cases a2
          obtain ⟨o1, o2⟩ := o
          simp only at h
          simp [h]
        · exact .inr h
  | @leave s i acc hs ih =>
    obtain ⟨objs, h1, h2, h3, h4, h5, h6, h7, h8, h9, h10⟩ := ih
    refine ⟨objs, h1, h2, h3, by omega, fun o ho => ?_, fun o ho hlt => ?_⟩
    · rcases h9 o ho with h | h <;> omega
    · rcases h10 o ho hlt with h | h
      · exact h
      · cases h
  | @finish s i acc hs hi ih =>
    obtain ⟨objs, h1, h2, h3, h4, h5, h6⟩ := ih
    obtain ⟨hr, hp⟩ := hs.reach h0
    refine ⟨objs, h1, h2, h3, fun o ho => h6 o ho ?_⟩
    have := ((hP _ hp).1 o ho).2.2.2
    omega
  | @other s s' pc acc a hs hsane hw hst hsm hp' ih =>
    obtain ⟨objs, h1, h2, h3, h4⟩ := ih
    obtain ⟨hr, hp⟩ := hs.reach h0
    have hI := reach_inv hv hr
    refine ⟨objs, h1, h2, h3, ?_⟩
    cases pc with
    | between i => exact h4
    | done => exact h4
    | inside i todo =>
      obtain ⟨h4, h5, h6, h7, h8, h9, h10⟩ := h4
      obtain ⟨k1, k2⟩ := step_read hI hsane h6 (hw i rfl) hst
      refine ⟨h4, h5, k1, h7, fun b hb => ?_, h9, h10⟩
      obtain ⟨hb1, v, hb2, hb3, hb4⟩ := h8 b hb
      exact ⟨k2 b v hb1 hb2 hb3, v, by rw [step_data hI hsane hst hb1]; exact hb2, hb3, hb4⟩

/-- C74. Whatever other threads do while `deep_size_of_arc_interned` looks at the entries of a shard: the next entry is still in memory, is still registered and
belongs to that shard. -/
theorem C74_scan_safe (hv : cfg.Valid) (h0 : Reach cfg s0) {s : State V} {i acc : Nat} {b : Addr} {todo : List Addr}
    (h : Scan cfg word size lo up P s0 s (.inside i (b :: todo)) acc) :
    b ∈ s.table ∧ ∃ v, deref s b = some v ∧ cfg.shardOf v = i := by
  obtain ⟨_, _, _, _, _, _, _, _, h8, _⟩ := scan_main (L := []) (S := fun _ _ => True) hv h0 (fun u _ => ⟨by simp, fun _ _ _ _ => trivial⟩) h
  obtain ⟨h1, v, h2, h3, _⟩ := h8 b (by simp)
  exact ⟨h1, v, h2, h3⟩

/-- C74. If the (distinct) objects `L` (address and value) are registered in the shards of the type throughout the call, then the sum computed is at least that of the
objects in `L`; if every object registered at some instant of the call is in `S`, then the sum is that of a list of pairwise different objects of `S`. -/
theorem C74_scan_bounds (hv : cfg.Valid) (h0 : Reach cfg s0) {L : List (Addr × V)} (hL : L.Nodup) {S : Addr → V → Prop} {s : State V} {n : Nat}
    (h : Scan cfg word size lo up (fun u =>
      (∀ o ∈ L, o.1 ∈ u.table ∧ deref u o.1 = some o.2 ∧ lo ≤ cfg.shardOf o.2 ∧ cfg.shardOf o.2 < up) ∧
      ∀ p v, p ∈ u.table → deref u p = some v → S p v) s0 s .done n) :
    (L.map fun o => word + size o.2).sum ≤ n ∧
    ∃ objs : List (Addr × V), n = (objs.map fun o => word + size o.2).sum ∧
      objs.Pairwise (fun a b => a.1 ≠ b.1 ∨ (a.2 == b.2) = false) ∧
      ∀ o ∈ objs, S o.1 o.2 ∧ lo ≤ cfg.shardOf o.2 ∧ cfg.shardOf o.2 < up := by
  obtain ⟨objs, h1, h2, h3, h4⟩ := scan_main hv h0 (fun _ h => h) h
  exact ⟨h1 ▸ sum_le_of_sub _ hL h4, objs, h1, h2, h3⟩

omit [EquivBEq V] [LawfulHashable V] in
theorem mapM_sum (s : State V) (w : V → Nat) : ∀ (l : List Addr) {vs : List V}, l.mapM (deref s) = some vs →
    ((l.filterMap fun b => (deref s b).map fun v => (b, v)).map fun o => w o.2).sum = (vs.map w).sum
  | [], vs, h => by simp at h; subst h; rfl
  | b :: l, vs, h => by
    rw [List.mapM_cons] at h
    cases hd : deref s b with
    | none => simp [hd] at h
    | some v =>
      cases hl : l.mapM (deref s) with
      | none => simp [hd, hl] at h
      | some ws =>
        simp [hd, hl] at h
        subst h
        simp [hd, mapM_sum s w l hl]

theorem scan_calm (hv : cfg.Valid) (h0 : Reach cfg s0) {s : State V} {n : Nat} {vs : List V} (hvs : s0.table.mapM (deref s0) = some vs)
    (h : Scan cfg word size 0 cfg.shards (fun u => u.table = s0.table) s0 s .done n) : n = (vs.map fun v => word + size v).sum := by
  have conv : ∀ {s pc acc}, Scan cfg word size 0 cfg.shards (fun u => u.table = s0.table) s0 s pc acc →
      Scan cfg word size 0 cfg.shards (fun u => u.table = s0.table ∧ ∀ b ∈ s0.table, deref u b = deref s0 b) s0 s pc acc := by
    intro s pc acc h
    induction h with
    | start h => exact .start ⟨h, fun _ _ => rfl⟩
    | enter _ h1 h2 h3 ih => exact .enter ih h1 h2 h3
    | visit _ h1 ih => exact .visit ih h1
    | leave _ ih => exact .leave ih
    | finish _ h1 ih => exact .finish ih h1
    | other h h1 h2 h3 h4 h5 ih =>
      obtain ⟨hr, hp1, hp2⟩ := ih.reach h0
      exact .other ih h1 h2 h3 h4 ⟨h5, fun b hb => (step_data (reach_inv hv hr) h1 h3 (hp1 ▸ hb)).trans (hp2 b hb)⟩
  have hI := reach_inv hv h0
  have hmem : ∀ o, o ∈ (s0.table.filterMap fun b => (deref s0 b).map fun v => (b, v)) ↔ o.1 ∈ s0.table ∧ deref s0 o.1 = some o.2 := by
    rintro ⟨p, v⟩
    rw [List.mem_filterMap]
    constructor
    · rintro ⟨b, hb, he⟩
      obtain ⟨w, hw, he⟩ := Option.map_eq_some_iff.mp he
      cases he
      exact ⟨hb, hw⟩
    · rintro ⟨hb, hd⟩
      exact ⟨p, hb, by simp [hd]⟩
  have hnd : s0.table.Nodup := by
    rw [List.nodup_iff_count]
    intro a
    have h1 := hI.split a
    have h2 := hI.nd a
    simp only [T] at h1; omega
  have hndL : (s0.table.filterMap fun b => (deref s0 b).map fun v => (b, v)).Nodup := by
    rw [List.nodup_iff_pairwise_ne, List.pairwise_filterMap]
    refine List.Pairwise.imp ?_ (List.nodup_iff_pairwise_ne.mp hnd)
    intro p q hne x hx y hy
    obtain ⟨v, hv', rfl⟩ := Option.map_eq_some_iff.mp hx
    obtain ⟨w, hw', rfl⟩ := Option.map_eq_some_iff.mp hy
    exact fun e => hne (congrArg Prod.fst e)
  obtain ⟨objs, h1, h2, h3, h4⟩ := scan_main (L := s0.table.filterMap fun b => (deref s0 b).map fun v => (b, v))
    (S := fun p v => p ∈ s0.table ∧ deref s0 p = some v) hv h0 (by
      rintro u ⟨hu1, hu2⟩
      refine ⟨fun o ho => ?_, fun p v hp hd => ?_⟩
      · obtain ⟨ha, hb⟩ := (hmem o).mp ho
        exact ⟨hu1 ▸ ha, (hu2 _ ha).trans hb, Nat.zero_le _, hv.pick_lt _⟩
      · rw [hu1] at hp
        exact ⟨hp, (hu2 p hp) ▸ hd⟩) (conv h)
  have hobj : objs.Nodup := by
    rw [List.nodup_iff_pairwise_ne]
    refine List.Pairwise.imp ?_ h2
    rintro a b hab rfl
    rcases hab with h | h
    · exact h rfl
    · simp at h
  have e1 := sum_le_of_sub (fun o : Addr × V => word + size o.2) hndL h4
  have e2 := sum_le_of_sub (fun o : Addr × V => word + size o.2) hobj (fun o ho => (hmem o).mpr (h3 o ho).1)
  rw [mapM_sum s0 (fun v => word + size v) s0.table hvs] at e1 e2
  omega

/-- C74. If the table does not change during the call, each registered object is counted once: the function returns what C48 and C72 say about it when
nothing else runs (`arcDeep`; `cap` is the capacity that the table reports). -/
theorem C74_scan_calm (hv : cfg.Valid) (h0 : Reach cfg s0) (D : DeepSize.Deep V) (H : DeepSize.Shared) (cap : Nat) {s : State V} {n : Nat}
    (h : Scan cfg word (fun v => D.own v + (D.children H v []).1) 0 cfg.shards (fun u => u.table = s0.table) s0 s .done n) :
    DeepSize.arcDeep D H word cap s0 s0.table = some (cap * D.ptr + n) := by
  have hI := reach_inv hv h0
  have : ∀ l : List Addr, (∀ b ∈ l, b ∈ s0.table) → ∃ vs, l.mapM (deref s0) = some vs := by
    intro l
    induction l with
    | nil => intro _; exact ⟨[], rfl⟩
    | cons b l ih =>
      intro hl
      obtain ⟨x, hx⟩ := exists_get (hI.mem_keys (hl b (by simp)))
      obtain ⟨vs, hvs⟩ := ih (fun c hc => hl c (by simp [hc]))
      exact ⟨x.data :: vs, by rw [List.mapM_cons, hvs]; simp [deref, hx]⟩
  obtain ⟨vs, hvs⟩ := this _ (fun _ h => h)
  simp only [DeepSize.arcDeep, hvs, Option.map_some, scan_calm hv h0 hvs h]

/-! ### Examples

Thread 0 owns a handle of object 10 (shard 1, value `5`) throughout. -/

/-- One action of the scan or of another thread. -/
inductive ScanAct where
  | enter
  | visit
  | leave
  | finish
  | other (a : Act Val)

/-- The states of an example, computed. -/
def scanStep (up : Nat) (P : State Val → Bool) : State Val × ScanPc × Nat → ScanAct → Option (State Val × ScanPc × Nat)
  | (s, .between i, acc), .enter => if i < up ∧ s.locks i = none then some (s, .inside i (shardEntries demoCfg s i), acc) else none
  | (s, .inside i (b :: todo), acc), .visit => (get s.heap b).map fun x => (s, .inside i todo, acc + (8 + x.data.tag))
  | (s, .inside i [], acc), .leave => some (s, .between (i + 1), acc)
  | (s, .between i, acc), .finish => if i < up then none else some (s, .done, acc)
  | (s, pc, acc), .other a => match step demoCfg s a with
    | .ok s' => if a.sane && decide ((allHandles demoCfg s').length < demoCfg.W) && P s' &&
        (pc.reads.isNone || decide (writeLocks demoCfg s a ≠ pc.reads)) then some (s', pc, acc) else none
    | _ => none
  | _, _ => none

def scanAll (up : Nat) (P : State Val → Bool) (x : State Val × ScanPc × Nat) : List ScanAct → Option (State Val × ScanPc × Nat)
  | [] => some x
  | a :: as => match scanStep up P x a with
    | some y => scanAll up P y as
    | none => none

theorem scanStep_ok {up : Nat} {P : State Val → Bool} {Q : State Val → Prop} (hPQ : ∀ u, P u = true → Q u) {s0 : State Val}
    {x y : State Val × ScanPc × Nat} {a : ScanAct} (h : Scan demoCfg 8 Val.tag 0 up Q s0 x.1 x.2.1 x.2.2) (e : scanStep up P x a = some y) :
    Scan demoCfg 8 Val.tag 0 up Q s0 y.1 y.2.1 y.2.2 := by
  obtain ⟨s, pc, acc⟩ := x
  cases a with
  | enter =>
    cases pc with
    | between i =>
      simp only [scanStep] at e
      split at e
      · rename_i hc; cases e; exact .enter h hc.1 hc.2 (.refl _)
      · cases e
    | _ => simp [scanStep] at e
  | visit =>
    cases pc with
    | inside i todo =>
      cases todo with
      | nil => simp [scanStep] at e
      | cons b todo =>
        simp only [scanStep, Option.map_eq_some_iff] at e
        obtain ⟨c, hc, rfl⟩ := e
        exact .visit h hc
    | _ => simp [scanStep] at e
  | leave =>
    cases pc with
    | inside i todo =>
      cases todo with
      | nil => simp only [scanStep] at e; cases e; exact .leave h
      | cons b todo => simp [scanStep] at e
    | _ => simp [scanStep] at e
  | finish =>
    cases pc with
    | between i =>
      simp only [scanStep] at e
      split at e
      · cases e
      · rename_i hc; cases e; exact .finish h hc
    | _ => simp [scanStep] at e
  | other a =>
    have e' : (match step demoCfg s a with
      | .ok s' => if a.sane && decide ((allHandles demoCfg s').length < demoCfg.W) && P s' &&
          (pc.reads.isNone || decide (writeLocks demoCfg s a ≠ pc.reads)) then some (s', pc, acc) else none
      | _ => none) = some y := by
      cases pc with
      | inside i todo => cases todo <;> exact e
      | _ => exact e
    clear e
    cases hs : step demoCfg s a with
    | ok s1 =>
      simp only [hs] at e'
      split at e'
      · rename_i hc
        cases e'
        simp only [Bool.and_eq_true, decide_eq_true_eq, Bool.or_eq_true, Option.isNone_iff_eq_none] at hc
        refine .other h ?_ ?_ hs (small_of_length hc.1.1.2) (hPQ _ hc.1.2)
        · cases a <;> simp_all [Act.Sane, Act.sane]
        · intro i hi hw
          rcases hc.2 with hc | hc
          · rw [hi] at hc; cases hc
          · exact hc (hw.trans hi.symm)
      · cases e'
    | blocked => simp [hs] at e'
    | ub => simp [hs] at e'

theorem scanAll_ok {up : Nat} {P : State Val → Bool} {Q : State Val → Prop} (hPQ : ∀ u, P u = true → Q u) {s0 : State Val} (as : List ScanAct) :
    ∀ {x y : State Val × ScanPc × Nat}, Scan demoCfg 8 Val.tag 0 up Q s0 x.1 x.2.1 x.2.2 → scanAll up P x as = some y →
    Scan demoCfg 8 Val.tag 0 up Q s0 y.1 y.2.1 y.2.2 := by
  induction as with
  | nil => intro x y h e; cases e; exact h
  | cons a as ih =>
    intro x y h e
    simp only [scanAll] at e
    cases hx : scanStep up P x a with
    | none => simp [hx] at e
    | some z => simp only [hx] at e; exact ih (scanStep_ok hPQ h hx) e

def scanL : List (Addr × Val) := [(10, ⟨5, 1, []⟩)]
def scanS : List (Addr × Val) := [(10, ⟨5, 1, []⟩), (21, ⟨6, 2, []⟩)]

/-- The condition on the states of the call, as a check: object 10 stays, and nothing but 10 and 21 is ever registered. -/
def scanCheck (u : State Val) : Bool :=
  scanL.all (fun o => decide (o.1 ∈ u.table ∧ deref u o.1 = some o.2 ∧ demoCfg.shardOf o.2 < 2)) &&
    u.table.all fun p => match deref u p with
      | some v => scanS.any fun e => decide (e.1 = p ∧ e.2 = v)
      | none => true

theorem scanCheck_ok (u : State Val) (h : scanCheck u = true) :
    (∀ o ∈ scanL, o.1 ∈ u.table ∧ deref u o.1 = some o.2 ∧ 0 ≤ demoCfg.shardOf o.2 ∧ demoCfg.shardOf o.2 < 2) ∧
    ∀ p v, p ∈ u.table → deref u p = some v → (p, v) ∈ scanS := by
  simp only [scanCheck, Bool.and_eq_true, List.all_eq_true, decide_eq_true_eq] at h
  refine ⟨fun o ho => ⟨(h.1 o ho).1, (h.1 o ho).2.1, Nat.zero_le _, (h.1 o ho).2.2⟩, fun p v hp hd => ?_⟩
  have := h.2 p hp
  simp only [hd, List.any_eq_true, decide_eq_true_eq] at this
  obtain ⟨⟨q, w⟩, he, rfl, rfl⟩ := this
  exact he

/-- Shard 0 is found empty; while the call holds the read lock of shard 1, thread 1 interns `6` in shard 0. -/
def scanLate : List ScanAct := [.enter, .leave, .enter, .other (.new 1 ⟨6, 2, []⟩ false), .other (r 1), .other (r 1 21), .other (r 1),
  .other (r 1), .other (r 1)]
/-- Thread 1 is quicker: `6` is there when shard 0 is read, and thread 1 drops it while shard 1 is read. -/
def scanEarly : List ScanAct := [.other (.new 1 ⟨6, 2, []⟩ false), .other (r 1), .other (r 1 21), .other (r 1), .other (r 1), .other (r 1), .other (r 1),
  .enter, .visit, .leave, .enter, .other (.drop 1 21), .other (r 1), .other (r 1), .other (r 1)]

/-- Both calls are in the middle of shard 1 when other threads have changed shard 0. -/
example : ∃ s0 s, Reach demoCfg s0 ∧ Scan demoCfg 8 Val.tag 0 2 (fun _ => True) s0 s (.inside 1 [10]) 0 ∧ s.table ≠ s0.table := by
  have hsome : (scanAll 2 scanCheck (demo lenTrace, .between 0, 0) scanLate).isSome = true := by decide
  obtain ⟨y, hy⟩ := Option.isSome_iff_exists.mp hsome
  have hpc : ((scanAll 2 scanCheck (demo lenTrace, .between 0, 0) scanLate).map fun y => (y.1.table, y.2.1, y.2.2)) = some ([21, 10], .inside 1 [10], 0) := rfl
  rw [hy] at hpc
  have hs := scanAll_ok (Q := fun _ => True) (fun _ _ => trivial) scanLate (.start trivial) hy
  obtain ⟨s, pc, acc⟩ := y
  simp only [Option.map_some, Option.some.injEq, Prod.mk.injEq] at hpc
  obtain ⟨h1, rfl, rfl⟩ := hpc
  exact ⟨demo lenTrace, s, demo_reach (by decide), hs, by simp only [h1]; decide⟩

example : ∃ s0 s, Reach demoCfg s0 ∧ scanL.Nodup ∧ Scan demoCfg 8 Val.tag 0 2 (fun u =>
      (∀ o ∈ scanL, o.1 ∈ u.table ∧ deref u o.1 = some o.2 ∧ 0 ≤ demoCfg.shardOf o.2 ∧ demoCfg.shardOf o.2 < 2) ∧
      ∀ p v, p ∈ u.table → deref u p = some v → (p, v) ∈ scanS) s0 s .done (8 + 1) := by
  have hsome : (scanAll 2 scanCheck (demo lenTrace, .between 0, 0) (scanLate ++ [.visit, .leave, .finish])).isSome = true := by decide
  obtain ⟨y, hy⟩ := Option.isSome_iff_exists.mp hsome
  have hpc : ((scanAll 2 scanCheck (demo lenTrace, .between 0, 0) (scanLate ++ [.visit, .leave, .finish])).map fun y => (y.2.1, y.2.2)) = some (.done, 8 + 1) := rfl
  rw [hy] at hpc
  have hs := scanAll_ok scanCheck_ok _ (.start (scanCheck_ok _ (by decide))) hy
  obtain ⟨s, pc, acc⟩ := y
  cases hpc
  exact ⟨demo lenTrace, s, demo_reach (by decide), by decide, hs⟩

example : ∃ s0 s, Reach demoCfg s0 ∧ scanL.Nodup ∧ Scan demoCfg 8 Val.tag 0 2 (fun u =>
      (∀ o ∈ scanL, o.1 ∈ u.table ∧ deref u o.1 = some o.2 ∧ 0 ≤ demoCfg.shardOf o.2 ∧ demoCfg.shardOf o.2 < 2) ∧
      ∀ p v, p ∈ u.table → deref u p = some v → (p, v) ∈ scanS) s0 s .done ((8 + 2) + (8 + 1)) := by
  have hsome : (scanAll 2 scanCheck (demo lenTrace, .between 0, 0) (scanEarly ++ [.visit, .leave, .finish])).isSome = true := by decide
  obtain ⟨y, hy⟩ := Option.isSome_iff_exists.mp hsome
  have hpc : ((scanAll 2 scanCheck (demo lenTrace, .between 0, 0) (scanEarly ++ [.visit, .leave, .finish])).map fun y => (y.2.1, y.2.2)) =
      some (.done, (8 + 2) + (8 + 1)) := rfl
  rw [hy] at hpc
  have hs := scanAll_ok scanCheck_ok _ (.start (scanCheck_ok _ (by decide))) hy
  obtain ⟨s, pc, acc⟩ := y
  cases hpc
  exact ⟨demo lenTrace, s, demo_reach (by decide), by decide, hs⟩

/-- For `C74_scan_calm`: a clone is made during the call, the table stays. -/
example : ∃ s0 s, Reach demoCfg s0 ∧ s0.table ≠ [] ∧ s.handles ≠ s0.handles ∧ Scan demoCfg 8 Val.tag 0 2 (fun u => u.table = s0.table) s0 s .done (8 + 1) := by
  have hsome : (scanAll 2 (fun u => u.table == [10]) (demo lenTrace, .between 0, 0)
      [.enter, .leave, .enter, .other (.clone 0 [10]), .visit, .leave, .finish]).isSome = true := by decide
  obtain ⟨y, hy⟩ := Option.isSome_iff_exists.mp hsome
  have hpc : ((scanAll 2 (fun u => u.table == [10]) (demo lenTrace, .between 0, 0)
      [.enter, .leave, .enter, .other (.clone 0 [10]), .visit, .leave, .finish]).map fun y => (y.1.handles, y.2.1, y.2.2)) =
      some ([10, 10], .done, 8 + 1) := rfl
  rw [hy] at hpc
  have hs := scanAll_ok (Q := fun u => u.table = (demo lenTrace).table) (fun u h => (by simpa using h : u.table = [10])) _ (Scan.start (P := fun u => u.table = (demo lenTrace).table) rfl) hy
  obtain ⟨s, pc, acc⟩ := y
  simp only [Option.map_some, Option.some.injEq, Prod.mk.injEq] at hpc
  obtain ⟨h1, rfl, rfl⟩ := hpc
  exact ⟨demo lenTrace, s, demo_reach (by decide), by decide, by simp only [h1]; decide, hs⟩

end Arc
