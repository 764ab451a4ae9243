import Verif.Arc.Weak
import Verif.Props.ArcRace
import Verif.Props.ArcLoads
/-!
C66: weak memory adds no behaviour to `ArcIntern`. Vocabulary (`Weak.step`, `Weak.Sees`, `Weak.Instants`) in `Verif/Arc/Weak.lean`.
-/
namespace Arc
namespace Weak
variable {V : Type} [BEq V] [Hashable V] {cfg : Cfg V} {od : Orders}

/-! ### What steps do to plain memory -/

/-- A box that is there after a step was there before with the same value, or was made by the step. -/
theorem step_data {s s' : State V} {obj : Addr → Nat} {act : Act V} {ch : Choice} {n : Nat} (hsane : act.Sane)
    (h : Arc.step cfg s act = .ok s') {b : Addr} {v : V} (hb' : deref s' b = some v) :
    (deref s b = some v ∧ newObj s obj n act b = obj b) ∨
    (deref s b = none ∧ newObj s obj n act b = n ∧ ∃ t, events cfg od s obj ch n act = [⟨t, .make n⟩]) := by
  have same : ∀ s'' : State V, s''.heap = s.heap → deref s'' b = some v → newObj s obj n act b = obj b →
      (deref s b = some v ∧ newObj s obj n act b = obj b) ∨
      (deref s b = none ∧ newObj s obj n act b = n ∧ ∃ t, events cfg od s obj ch n act = [⟨t, .make n⟩]) := by
    intro s'' h1 h2 h3
    simp only [deref, h1] at h2 ⊢
    exact .inl ⟨h2, h3⟩
  have setc : ∀ (c : Addr) (k : Nat), (get (setCount s.heap c k) b).map (·.data) = some v → newObj s obj n act b = obj b →
      (deref s b = some v ∧ newObj s obj n act b = obj b) ∨
      (deref s b = none ∧ newObj s obj n act b = n ∧ ∃ t, events cfg od s obj ch n act = [⟨t, .make n⟩]) := by
    intro c k h1 h2
    rw [get_data_setCount] at h1
    exact .inl ⟨h1, h2⟩
  have frees : ∀ c : Addr, (get (Arc.free s.heap c) b).map (·.data) = some v → newObj s obj n act b = obj b →
      (deref s b = some v ∧ newObj s obj n act b = obj b) ∨
      (deref s b = none ∧ newObj s obj n act b = n ∧ ∃ t, events cfg od s obj ch n act = [⟨t, .make n⟩]) := by
    intro c h1 h2
    rw [get_free] at h1
    split at h1
    · cases h1
    · exact .inl ⟨h1, h2⟩
  cases step_R h with
  | run t a th s' ht hr =>
    cases hr with
    | alloc c hpc h0 hk =>
      by_cases hd : b = a
      · refine .inr ⟨?_, by simp [newObj, ht, hpc, hd], t, by simp [events, ht, runEvents, hpc]⟩
        subst hd
        cases hg : get s.heap b with
        | none => simp [deref, hg]
        | some x => exact absurd ((get_isSome _ _).mp (by rw [hg]; rfl)) hk
      · have h2 : deref s b = some v := by
          simp only [deref, State.setThread, get] at hb' ⊢
          rwa [if_neg (fun e => hd e.symm)] at hb'
        exact .inl ⟨h2, by simp [newObj, ht, hpc, hd]⟩
    | hit c sh d x hpc hx hc => exact setc _ _ hb' (by simp [newObj, ht, hpc])
    | dying c sh d x hpc hx hc => exact setc _ _ hb' (by simp [newObj, ht, hpc])
    | undo c sh d x hpc hx => exact setc _ _ hb' (by simp [newObj, ht, hpc])
    | sub d x hpc hx hc => exact setc _ _ hb' (by simp [newObj, ht, hpc])
    | subLast d x hpc hx hc => exact setc _ _ hb' (by simp [newObj, ht, hpc])
    | unbox c d x hpc hx => exact frees _ hb' (by simp [newObj, ht, hpc])
    | free d x hpc hx => exact frees _ hb' (by simp [newObj, ht, hpc])
    | _ => exact same _ rfl hb' (by simp [newObj, *])
  | clone t path th q x ht hid hp hx => exact setc _ _ hb' rfl
  | panicInsert => exact absurd hsane (by simp [Act.Sane])
  | _ => exact same _ rfl hb' rfl

omit [BEq V] in
/-- Shards in terms of `deref`. -/
theorem shardElems_eq (s : State V) (i : Nat) :
    shardElems cfg s i = s.table.filter fun b => (deref s b).any fun v => cfg.shardOf v == i := by
  unfold shardElems
  refine List.filter_congr fun b _ => ?_
  simp only [deref]
  cases get s.heap b <;> rfl

omit [BEq V] in
theorem shardElems_congr {s s' : State V} (ht : s'.table = s.table) (hd : ∀ b ∈ s.table, deref s' b = deref s b) (i : Nat) :
    shardElems cfg s' i = shardElems cfg s i := by
  rw [shardElems_eq, shardElems_eq, ht]
  exact List.filter_congr fun b hb => by rw [hd b hb]

/-- A step that changes the table of a shard accesses it, according to the trace. -/
theorem step_shard {s s' : State V} (hI : Inv cfg s) {obj : Addr → Nat} {act : Act V} {ch : Choice} {n : Nat} (hsane : act.Sane)
    (h : Arc.step cfg s act = .ok s') {i : Nat} (hne : shardElems cfg s' i ≠ shardElems cfg s i) :
    ∃ t, (⟨t, .table i⟩ : Ev) ∈ events cfg od s obj ch n act := by
  have same : ∀ s'' : State V, shardElems cfg s'' i ≠ shardElems cfg s i → s''.table = s.table → s''.heap = s.heap → ∃ t, (⟨t, .table i⟩ : Ev) ∈ events cfg od s obj ch n act := by
    intro s'' h3 h1 h2
    exact absurd (shardElems_congr h1 (fun b _ => by simp only [deref, h2]) i) h3
  have setc : ∀ (s'' : State V) (c : Addr) (k : Nat), shardElems cfg s'' i ≠ shardElems cfg s i → s''.table = s.table →
      s''.heap = setCount s.heap c k → ∃ t, (⟨t, .table i⟩ : Ev) ∈ events cfg od s obj ch n act := by
    intro s'' c k h3 h1 h2
    exact absurd (shardElems_congr h1 (fun b _ => by simp only [deref, h2, get_data_setCount]) i) h3
  have frees : ∀ (s'' : State V) (c : Addr), shardElems cfg s'' i ≠ shardElems cfg s i → s''.table = s.table →
      s''.heap = Arc.free s.heap c → c ∉ s.table → ∃ t, (⟨t, .table i⟩ : Ev) ∈ events cfg od s obj ch n act := by
    intro s'' c h3 h1 h2 hc
    refine absurd (shardElems_congr h1 (fun b hb => ?_) i) h3
    simp only [deref, h2, get_free]
    rw [if_neg (fun (e : b = c) => hc (e ▸ hb))]
  cases step_R h with
  | run t a th s' ht hr =>
    cases hr with
    | alloc c hpc h0 hk =>
      refine (hne ?_).elim
      refine shardElems_congr (by rfl) (fun b hb => ?_) i
      simp only [deref, State.setThread, get]
      rw [if_neg (fun (e : a = b) => hk (e ▸ hI.mem_keys hb))]
    | hit => exact setc _ _ _ hne rfl rfl
    | dying => exact setc _ _ _ hne rfl rfl
    | undo => exact setc _ _ _ hne rfl rfl
    | sub => exact setc _ _ _ hne rfl rfl
    | subLast => exact setc _ _ _ hne rfl rfl
    | unbox c d x hpc hx =>
      exact frees _ d hne rfl rfl (fun hd => hI.not_priv hd ht (by simp [hpc, Pc.priv]))
    | free d x hpc hx =>
      exact frees _ d hne rfl rfl (fun hd => hI.not_priv hd ht (by simp [hpc, Pc.priv]))
    | insert c sh b hpc =>
      have hp := (hI.th t th ht).pc
      simp only [hpc, PcInv] at hp
      by_cases hi : sh = i
      · subst hi
        exact ⟨t, by simp [events, ht, runEvents, hpc]⟩
      · refine absurd ?_ hne
        have e : deref s b = some c.val := by simp [deref, hp.2.2.1]
        rw [shardElems_eq, shardElems_eq]
        show List.filter _ (b :: s.table) = _
        rw [List.filter_cons_of_neg]
        · rfl
        · show ¬ (Option.any _ (deref s b)) = true
          rw [e]
          simp only [Option.any_some, beq_iff_eq]
          rw [← hp.2.2.2.1]; exact hi
    | remove b r x hpc hx hl hf =>
      by_cases hi : cfg.shardOf x.data = i
      · subst hi
        refine ⟨t, ?_⟩
        have e : deref s b = some x.data := by simp [deref, hx]
        simp [events, ht, runEvents, hpc, e, lookup]
      · refine absurd ?_ hne
        have hr := List.find?_some hf
        rw [shardElems_eq, shardElems_eq]
        show List.filter _ (s.table.erase r) = _
        rw [← List.erase_filter, List.erase_of_not_mem]
        · rfl
        · intro hm
          have := (List.mem_filter.mp hm).2
          cases hg : get s.heap r with
          | none => simp [hg] at hr
          | some y =>
            simp only [hg, keyEq, Bool.and_eq_true, beq_iff_eq] at hr
            have e : deref s r = some y.data := by simp [deref, hg]
            have this : (Option.any (fun v => cfg.shardOf v == i) (deref s r)) = true := this
            rw [e] at this
            simp only [Option.any_some, beq_iff_eq, Cfg.shardOf] at this hi
            rw [hr.1] at this
            exact hi this
    | _ => exact same _ hne rfl rfl
  | clone t path th q x ht hid hp hx => exact setc _ _ _ hne rfl rfl
  | panicInsert => exact absurd hsane (by simp [Act.Sane])
  | _ => exact same _ hne rfl rfl

/-! ### Reads that are ordered after the writes see the newest value -/

omit [BEq V] [Hashable V] in
theorem mem_index {tr evs : List Ev} {e : Ev} (h : e ∈ evs) : ∃ k, tr.length ≤ k ∧ (tr ++ evs)[k]? = some e := by
  obtain ⟨j, hj⟩ := List.mem_iff_getElem?.mp h
  exact ⟨tr.length + j, Nat.le_add_right _ _, by rw [List.getElem?_append_right (Nat.le_add_right _ _)]; simpa using hj⟩

theorem tr_mono {c : Instant V} {l : List (Instant V)} (h : Arc.Instants cfg od (c :: l)) {c1 : Instant V} (hc : c1 ∈ c :: l) :
    c1.tr.length ≤ c.tr.length := by
  generalize hl : c :: l = m at h
  induction h generalizing c l with
  | init => cases hl; simp only [List.mem_singleton] at hc; rw [hc]; exact Nat.le_refl _
  | step hi hs he hS hch ih =>
    cases hl
    rcases List.mem_cons.mp hc with rfl | hc
    · exact Nat.le_refl _
    · have := ih hc rfl
      simp only [List.length_append]; omega

/-- The creation of the object in an allocated box is a write of that box. -/
theorem writes_make {c : Instant V} {l : List (Instant V)} (h : Arc.Instants cfg od (c :: l)) {b : Addr} {v : V}
    (hb : deref c.s b = some v) : WritesData (c :: l) (c.obj b) b := by
  generalize hl : c :: l = m at h
  induction h generalizing c l v with
  | init => cases hl; cases hb
  | @step c0 l0 s' act ch hi hs he hS hch ih =>
    cases hl
    rcases step_data (od := od) (obj := c0.obj) (n := c0.tr.length) (ch := ch) hs he hb with ⟨h1, h2⟩ | ⟨h1, h2, t, h3⟩
    · refine .inr ?_
      have := ih h1 rfl
      simp only [h2]; exact this
    · refine .inl ⟨by simp only [h2]; exact Nat.le_refl _, ⟨t, c0.tr.length, ?_⟩, h1, by rw [hb]; rfl⟩
      simp only [h2, h3]
      exact tget_last _ _

/-- A box that was created before an instant had the same value at this instant. -/
theorem data_since {c : Instant V} {l : List (Instant V)} (h : Arc.Instants cfg od (c :: l)) {b : Addr} {v : V}
    (hb : deref c.s b = some v) {c1 : Instant V} (hc : c1 ∈ c :: l) (hlt : c.obj b < c1.tr.length) : deref c1.s b = some v := by
  generalize hl : c :: l = m at h
  induction h generalizing c l v with
  | init => cases hl; cases hb
  | @step c0 l0 s' act ch hi hs he hS hch ih =>
    cases hl
    rcases List.mem_cons.mp hc with rfl | hc
    · exact hb
    · rcases step_data (od := od) (obj := c0.obj) (n := c0.tr.length) (ch := ch) hs he hb with ⟨h1, h2⟩ | ⟨h1, h2, t, h3⟩
      · exact ih h1 hc (by simp only [h2] at hlt; exact hlt) rfl
      · have := tr_mono hi hc
        simp only [h2] at hlt
        omega

/-- A read of an allocated box that comes after its creation sees its value. -/
theorem sees_data {c : Instant V} {l : List (Instant V)} (h : Arc.Instants cfg od (c :: l)) {evs : List Ev} {r : Ev} {b : Addr}
    {x : Option V} (hs : SeesData (c :: l) c.tr evs r b x) {v : V} (hb : deref c.s b = some v)
    (hh : HB (c.tr ++ evs ++ [r]) (c.obj b) (c.tr.length + evs.length)) : x = some v := by
  obtain ⟨c1, h1, h2, h3⟩ := hs
  rw [← h2]
  exact data_since h hb h1 (h3 _ (writes_make h hb) hh)

/-- If no write of a shard's table is newer than an instant, the table was the same then. -/
theorem shard_since [LawfulHashable V] [EquivBEq V] (hv : cfg.Valid) {c : Instant V} {l : List (Instant V)}
    (h : Arc.Instants cfg od (c :: l)) {i : Nat} {c1 : Instant V} (hc : c1 ∈ c :: l)
    (hw : ∀ k, WritesShard cfg (c :: l) k i → k < c1.tr.length) : shardElems cfg c1.s i = shardElems cfg c.s i := by
  generalize hl : c :: l = m at h
  induction h generalizing c l with
  | init => cases hl; simp only [List.mem_singleton] at hc; rw [hc]
  | step hi hs he hS hch ih =>
    cases hl
    rcases List.mem_cons.mp hc with rfl | hc
    · rfl
    · have h1 := ih hc (fun k hk => hw k (.inr hk)) rfl
      rw [h1]
      refine Classical.byContradiction fun hne => ?_
      obtain ⟨t, ht⟩ := step_shard (od := od) (reach_inv hv (traced_reach hi.traced)) hs he (fun e => hne e.symm)
      obtain ⟨k, hk1, hk2⟩ := mem_index ht
      have h2 := hw k (.inl ⟨hk1, ⟨t, hk2⟩, fun e => hne e.symm⟩)
      have := tr_mono hi hc
      omega

theorem writes_shard_event {c : Instant V} {l : List (Instant V)} (h : Arc.Instants cfg od (c :: l)) {k i : Nat}
    (hw : WritesShard cfg (c :: l) k i) : ∃ t, c.tr[k]? = some ⟨t, .table i⟩ := by
  generalize hl : c :: l = m at h
  induction h generalizing c l with
  | init => cases hl; exact hw.elim
  | step hi hs he hS hch ih =>
    cases hl
    rcases hw with ⟨_, h1, _⟩ | hw
    · exact h1
    · obtain ⟨t, ht⟩ := ih hw rfl
      exact ⟨t, tget_append ht⟩

/-- A read of a shard's table that comes after all accesses to it sees the newest table. -/
theorem sees_shard [LawfulHashable V] [EquivBEq V] (hv : cfg.Valid) {c : Instant V} {l : List (Instant V)}
    (h : Arc.Instants cfg od (c :: l)) {evs : List Ev} {r : Ev} {i : Nat} {xs : List Addr}
    (hs : SeesShard cfg (c :: l) c.tr evs r i xs)
    (hh : ∀ (k : Nat) t, c.tr[k]? = some ⟨t, .table i⟩ → HB (c.tr ++ evs ++ [r]) k (c.tr.length + evs.length)) :
    xs = shardElems cfg c.s i := by
  obtain ⟨c1, h1, h2, h3⟩ := hs
  rw [← h2]
  refine shard_since hv h h1 fun k hk => h3 k hk ?_
  obtain ⟨t, ht⟩ := writes_shard_event h hk
  exact hh k t ht

/-! ### Reads are ordered after the writes -/

omit [BEq V] [Hashable V] in
theorem hb_seen {tr evs : List Ev} {r : Ev} {i : Nat} (h : Seen tr r.tid i) : HB (tr ++ evs ++ [r]) i (tr.length + evs.length) := by
  have h1 := (h.append evs).hb (m := [r]) (j := (tr ++ evs).length) (b := r) (tget_last _ _) (Nat.le_refl _) (fun a ha => .inl ha)
  rwa [List.length_append] at h1

omit [BEq V] [Hashable V] in
/-- After an event `e` of the same thread that synchronises with `P`. -/
theorem hb_sync {tr rest : List Ev} {e r : Ev} {i : Nat} {P : Ev → Prop} (h : Past tr P i)
    (hp : ∀ a, P a → Sync a.what e.what) (ht : e.tid = r.tid) :
    HB (tr ++ (e :: rest) ++ [r]) i (tr.length + (e :: rest).length) := by
  have h1 : HB (tr ++ (e :: rest ++ [r])) i tr.length :=
    h.hb (b := e) (by rw [List.getElem?_append_right (Nat.le_refl _)]; simp) (Nat.le_refl _) (fun a ha => .inr (hp a ha))
  rw [← List.append_assoc] at h1
  refine h1.trans (.edge (a := e) (b := r) (by simp) ?_ ?_ (.inl ht))
  · rw [List.append_assoc, List.getElem?_append_right (Nat.le_refl _)]; simp
  · have := tget_last (tr ++ e :: rest) r
    rwa [List.length_append] at this

/-- Under a write lock that was free, the table is read after all accesses to it. -/
theorem hb_table {s : State V} {obj : Addr → Nat} {own : List (Nat × Addr)} {tr : List Ev} (j : J cfg s s.locks obj own tr) {i : Nat}
    (hl : s.locks i = none) (t : Tid) (k : Nat) (u : Tid) (hk : tr[k]? = some ⟨u, .table i⟩) :
    HB (tr ++ [⟨t, .lock i⟩] ++ [⟨t, .table i⟩]) k (tr.length + 1) := by
  rcases j.tab k u i hk with h | ⟨v, hv, _⟩
  · exact hb_sync h (fun a ha => by rw [ha]; rfl) rfl
  · rw [hl] at hv; cases hv

/-- The same for the read lock. -/
theorem hb_size {s : State V} {obj : Addr → Nat} {own : List (Nat × Addr)} {tr : List Ev} (j : J cfg s s.locks obj own tr) {i : Nat}
    (hl : s.locks i = none) (t : Tid) (k : Nat) (u : Tid) (hk : tr[k]? = some ⟨u, .table i⟩) :
    HB (tr ++ [⟨t, .rlock i⟩] ++ [⟨t, .size i⟩]) k (tr.length + 1) := by
  rcases j.tab k u i hk with h | ⟨v, hv, _⟩
  · exact hb_sync h (fun a ha => by rw [ha]; rfl) rfl
  · rw [hl] at hv; cases hv

/-- Under the lock of its shard a registered box is read after its creation. -/
theorem hb_reg {s : State V} {obj : Addr → Nat} {own : List (Nat × Addr)} {tr : List Ev} (j : J cfg s s.locks obj own tr) {i : Nat}
    (hl : s.locks i = none) (t : Tid) {b : Addr} {v : V} (hb : b ∈ s.table) (hd : deref s b = some v) (hi : cfg.shardOf v = i) :
    HB (tr ++ [⟨t, .lock i⟩, ⟨t, .table i⟩] ++ [⟨t, .look (obj b)⟩]) (obj b) (tr.length + 2) := by
  rcases j.ptab b v hb hd with h | ⟨u, hu, _⟩
  · rw [hi] at h
    exact hb_sync h (fun a ha => by rcases ha with ha | ha <;> rw [ha] <;> rfl) rfl
  · rw [hi, hl] at hu; cases hu

/-! ### Every view a step can have is the current one -/

/-- Probing the current table of the shard with the current values is `Arc.find`. -/
theorem find_eq {s : State V} {w : View V} {v : V} (hsh : w.shard = shardElems cfg s (cfg.shardOf v))
    (hu : ∀ b ∈ w.shard, w.under b = deref s b) : w.find v = find s v := by
  have h1 : w.find v = w.shard.find? fun b => (w.under b).any fun x => keyEq x v := by
    unfold View.find
    refine congrArg (fun p => w.shard.find? p) (funext fun b => ?_)
    cases w.under b <;> rfl
  have h2 : find s v = s.table.find? fun b => (deref s b).any fun x => keyEq x v := by
    unfold find
    refine congrArg (fun p => s.table.find? p) (funext fun b => ?_)
    simp only [deref]
    cases get s.heap b <;> rfl
  have h3 : (w.shard.find? fun b => (w.under b).any fun x => keyEq x v) =
      w.shard.find? fun b => (deref s b).any fun x => keyEq x v := by
    generalize w.shard = xs at hu
    induction xs with
    | nil => rfl
    | cons b xs ih =>
      rw [List.find?_cons, List.find?_cons, hu b List.mem_cons_self, ih fun b hb => hu b (List.mem_cons_of_mem _ hb)]
  rw [h1, h2, h3, hsh, shardElems_eq, List.find?_filter]
  congr 1
  funext b
  cases e : deref s b with
  | none => simp
  | some x =>
    simp only [Option.any_some, keyEq]
    by_cases h : hash x = hash v
    · simp [Cfg.shardOf, h]
    · simp [h]

theorem ok_eq {s : State V} (hI : Inv cfg s) {w : View V} {i : Nat} (hsh : w.shard = shardElems cfg s i) : w.ok s = true := by
  simp only [View.ok, List.all_eq_true, hsh]
  intro b hb
  exact (get_isSome _ _).mpr (hI.mem_keys (List.mem_filter.mp hb).1)

theorem under_eq [LawfulHashable V] [EquivBEq V] (hod : od.drop.acquires = true ∧ od.drop.releases = true) (hv : cfg.Valid)
    {c : Instant V} {l : List (Instant V)} (h : Arc.Instants cfg od (c :: l)) {t : Tid} {w : View V} {i : Nat}
    (hl : c.s.locks i = none) (hs : SeesShard cfg (c :: l) c.tr [⟨t, .lock i⟩] ⟨t, .table i⟩ i w.shard)
    (hd : ∀ b, SeesData (c :: l) c.tr [⟨t, .lock i⟩, ⟨t, .table i⟩] ⟨t, .look (c.obj b)⟩ b (w.under b)) :
    w.shard = shardElems cfg c.s i ∧ ∀ b ∈ w.shard, w.under b = deref c.s b := by
  have j := traced_J hod hv h.traced
  have h1 := sees_shard hv h hs (hb_table j hl t)
  refine ⟨h1, fun b hb => ?_⟩
  rw [h1, shardElems_eq] at hb
  obtain ⟨hb, hb'⟩ := List.mem_filter.mp hb
  cases e : deref c.s b with
  | none => rw [e] at hb'; cases hb'
  | some v =>
    rw [e] at hb'
    exact sees_data h (hd b) e (hb_reg j hl t hb e (by simpa using hb'))

/-- Following handles sees the current values. -/
theorem follow_eq {c : Instant V} {l : List (Instant V)} (h : Arc.Instants cfg od (c :: l)) (hI : Inv cfg c.s)
    (j : J cfg c.s c.s.locks c.obj c.own c.tr) {t : Tid} {n : Nat} {w : View V}
    (hs : ∀ b, SeesData (c :: l) c.tr [⟨t, .use n⟩] ⟨t, .look (c.obj b)⟩ b (w.own b)) (path : List Addr) :
    ∀ p, 0 < A cfg c.s p → Gt c.tr n (c.obj p) → follow w cfg c.s p path = Arc.follow cfg c.s p path := by
  induction path with
  | nil => intro p _ _; rfl
  | cons q path ih =>
    intro p hp hg
    obtain ⟨x, hx⟩ := hI.deref hp
    have hd : deref c.s p = some x.data := by simp [deref, hx]
    have hw : w.own p = some x.data := sees_data h (hs p) hd (hb_sync hg (fun a ha => by rw [ha]; rfl) rfl)
    simp only [follow, Arc.follow, hx, hw]
    by_cases hq : q ∈ cfg.kids x.data
    · rw [if_pos hq, if_pos hq]
      refine ih q ?_ (hg.before (.inr (j.psto q p x.data hd hq)))
      exact stored_A hx hq
    · rw [if_neg hq, if_neg hq]

theorem borrow_eq {c : Instant V} {l : List (Instant V)} (h : Arc.Instants cfg od (c :: l)) (hI : Inv cfg c.s)
    (j : J cfg c.s c.s.locks c.obj c.own c.tr) {t : Tid} {n : Nat} {w : View V}
    (hs : ∀ b, SeesData (c :: l) c.tr [⟨t, .use n⟩] ⟨t, .look (c.obj b)⟩ b (w.own b)) {path : List Addr}
    (hn : ∀ p, path.head? = some p → (n, p) ∈ c.own) : borrow w cfg c.s path = Arc.borrow cfg c.s path := by
  cases path with
  | nil => rfl
  | cons p path =>
    simp only [borrow, Arc.borrow]
    by_cases hp : p ∈ c.s.handles
    · rw [if_pos hp, if_pos hp]
      exact follow_eq h hI j hs path p (handles_A hp) (j.pown n p (hn p rfl))
    · rw [if_neg hp, if_neg hp]

/-- Whatever a step can see, it does what it does when it sees the newest values. -/
theorem step_eq [LawfulHashable V] [EquivBEq V] (hod : od.drop.acquires = true ∧ od.drop.releases = true) (hv : cfg.Valid)
    {c : Instant V} {l : List (Instant V)} (h : Arc.Instants cfg od (c :: l)) {a : Act V} {ch : Choice} {w : View V}
    (hs : Sees cfg c l ch.h w a) (hch : ch.Ok cfg c.s c.own a) : step w cfg c.s a = Arc.step cfg c.s a := by
  have hI := reach_inv hv (traced_reach h.traced)
  have j := traced_J hod hv h.traced
  cases a with
  | clone t path =>
    have e := borrow_eq h hI j hs (path := path) (by
      intro p hp
      cases path with
      | nil => cases hp
      | cons q path => cases hp; exact hch.1)
    simp only [step, Arc.step, e]
    rfl
  | read t path =>
    have e := borrow_eq h hI j hs (path := path) (by
      intro p hp
      cases path with
      | nil => cases hp
      | cons q path => cases hp; exact hch.1)
    simp only [step, Arc.step, e]
    rfl
  | run t a =>
    simp only [step, Arc.step]
    cases ht : c.s.threads[t]? with
    | none => rfl
    | some th =>
      obtain ⟨h1, h2, h3⟩ := hs th ht
      have root : ∀ b v, b ∈ th.roots cfg → deref c.s b = some v → w.own b = some v := fun b v hb hd =>
        sees_data h (h1 b) hd (hb_seen (r := ⟨t, _⟩) (j.pthr t th b ht hb))
      have root' : ∀ b v i, b ∈ th.roots cfg → deref c.s b = some v → lockedShard w cfg th.pc = some i → w.under b = some v :=
        fun b v i hb hd hi => sees_data h ((h2 i hi).2 b) hd (hb_seen (r := ⟨t, _⟩) (j.pthr t th b ht hb))
      have look : ∀ v, lockedShard w cfg th.pc = some (cfg.shardOf v) → c.s.locks (cfg.shardOf v) = none →
          w.ok c.s = true ∧ w.find v = find c.s v := by
        intro v hl hn
        obtain ⟨h4, h5⟩ := h2 _ hl
        obtain ⟨h6, h7⟩ := under_eq hod hv h hn h4 h5
        exact ⟨ok_eq hI h6, find_eq h6 h7⟩
      have hp := (hI.th t th ht).pc
      simp only
      cases hpc : th.pc with
      | newLoop cc =>
        simp only [run, Arc.run, hpc]
        by_cases hl : (c.s.locks (cfg.shardOf cc.val)).isSome
        · rw [if_pos hl, if_pos hl]
        · obtain ⟨h4, h5⟩ := look cc.val (by rw [hpc]; rfl) (isNone_of_not hl)
          simp only [h4, h5, hI.tableOk]
          rfl
      | newEntry cc b =>
        simp only [hpc, PcInv] at hp
        have hd : deref c.s b = some cc.val := by simp [deref, hp.2.2]
        have hr : b ∈ th.roots cfg := by simp [Thread.roots, hpc, Pc.priv]
        have h4 := root b _ hr hd
        have hsh : lockedShard w cfg th.pc = some (cfg.shardOf cc.val) := by simp [lockedShard, hpc, h4]
        have h5 := root' b _ _ hr hd hsh
        simp only [run, Arc.run, hpc, hp.2.2, h4, h5]
        by_cases hl : (c.s.locks (cfg.shardOf cc.val)).isSome
        · rw [if_pos hl, if_pos hl]
        · obtain ⟨h6, h7⟩ := look cc.val hsh (isNone_of_not hl)
          simp only [h6, h7, hI.tableOk]
          rfl
      | newUnbox cc b =>
        simp only [hpc, PcInv] at hp
        have hd : deref c.s b = some cc.val := by simp [deref, hp.2.2.2]
        have h4 := root b _ (by simp [Thread.roots, hpc, Pc.priv]) hd
        simp only [run, Arc.run, hpc, hp.2.2.2, h4]
      | dropRemove b =>
        have hr : b ∈ th.roots cfg := by simp [Thread.roots, hpc]
        obtain ⟨x, hx⟩ : ∃ x, get c.s.heap b = some x := by
          have h4 : 0 < R c.s b := (count_flatMap_pos _ b c.s.threads).mpr ⟨t, th, ht, by simp [hpc, Pc.removing]⟩
          have h5 := hI.pend b
          have h6 : 0 < T c.s b := by
            by_cases hc : 0 < T c.s b ∧ A cfg c.s b = 0
            · exact hc.1
            · rw [if_neg hc] at h5; omega
          exact exists_get (hI.mem_keys (List.count_pos_iff.mp h6))
        have hd : deref c.s b = some x.data := by simp [deref, hx]
        have h4 := root b _ hr hd
        have hsh : lockedShard w cfg th.pc = some (cfg.shardOf x.data) := by simp [lockedShard, hpc, h4]
        have h5 := root' b _ _ hr hd hsh
        simp only [run, Arc.run, hpc, hx, h4, h5]
        by_cases hl : (c.s.locks (cfg.shardOf x.data)).isSome
        · rw [if_pos hl, if_pos hl]
        · obtain ⟨h6, h7⟩ := look x.data hsh (isNone_of_not hl)
          simp only [h6, h7, hI.tableOk]
          rfl
      | dropFree b =>
        obtain ⟨x, hx⟩ : ∃ x, get c.s.heap b = some x := by
          have h4 := mem_priv_P ht (b := b) (by simp [hpc, Pc.priv])
          have h5 := hI.split b
          exact exists_get (List.count_pos_iff.mp (by simp only [K] at h5; omega))
        have hd : deref c.s b = some x.data := by simp [deref, hx]
        have h4 := root b _ (by simp [Thread.roots, hpc, Pc.priv]) hd
        simp only [run, Arc.run, hpc, hx, h4]
      | lenScan i m acc =>
        simp only [run, Arc.run, hpc]
        by_cases hi : i < m
        · rw [if_pos hi, if_pos hi]
          by_cases hl : (c.s.locks i).isSome
          · rw [if_pos hl, if_pos hl]
          · have h4 := sees_shard hv h (h3 i m acc hpc) (hb_size j (isNone_of_not hl) t)
            have h5 : w.shard.length = shardLen cfg c.s i := by
              rw [h4, shardElems, shardLen, List.countP_eq_length_filter]
              rfl
            rw [if_neg hl, if_neg hl, h5]
        · rw [if_neg hi, if_neg hi]
      | _ => simp only [run, hpc]
  | _ => rfl

/-! ### The property -/

/-- **C66.** Whatever plain reads may return according to the memory model, every execution is an interleaving execution: it has
the states and events of `Arc.Instants`, in which every read sees the newest value. So all theorems about the interleaving model hold
under weak memory. -/
theorem C66_only_interleavings [LawfulHashable V] [EquivBEq V] (hv : cfg.Valid) {l : List (Instant V)}
    (h : Instants cfg Orders.code l) : Arc.Instants cfg Orders.code l := by
  induction h with
  | init => exact .init
  | step _ hs hw he hS hch ih =>
    rw [step_eq ⟨rfl, rfl⟩ hv ih hw hch] at he
    exact ih.step hs he hS hch

/-- **C66, no undefined behaviour.** No step touches freed memory or reads memory before it is written, whatever plain reads return. -/
theorem C66_no_ub [LawfulHashable V] [EquivBEq V] (hv : cfg.Valid) {c : Instant V} {l : List (Instant V)}
    (h : Instants cfg Orders.code (c :: l)) {a : Act V} (hsane : a.Sane) {ch : Choice} {w : View V} (hs : Sees cfg c l ch.h w a)
    (hch : ch.Ok cfg c.s c.own a) : step w cfg c.s a ≠ .ub := by
  have h' := C66_only_interleavings hv h
  rw [step_eq ⟨rfl, rfl⟩ hv h' hs hch]
  exact (step_kept hv (reach_inv hv (traced_reach h'.traced)) hsane).1

theorem writes_data_lt {c : Instant V} {l : List (Instant V)} (h : Arc.Instants cfg od (c :: l)) {k : Nat} {b : Addr}
    (hw : WritesData (c :: l) k b) : k < c.tr.length := by
  generalize hl : c :: l = m at h
  induction h generalizing c l with
  | init => cases hl; exact hw.elim
  | step hi hs he hS hch ih =>
    cases hl
    rcases hw with ⟨_, ⟨t, o, h1⟩, _⟩ | hw
    · exact tget_lt h1
    · have := ih hw rfl
      simp only [List.length_append]; omega

/-- The newest values are always possible. -/
theorem sees_current {c : Instant V} {l : List (Instant V)} (h : Arc.Instants cfg od (c :: l)) (n : Nat) (a : Act V) :
    ∃ w, Sees cfg c l n w a := by
  have hd : ∀ evs r b, SeesData (c :: l) c.tr evs r b (deref c.s b) := fun evs r b =>
    ⟨c, List.mem_cons_self .., rfl, fun k hk _ => writes_data_lt h hk⟩
  have hs : ∀ evs r i, SeesShard cfg (c :: l) c.tr evs r i (shardElems cfg c.s i) := fun evs r i =>
    ⟨c, List.mem_cons_self .., rfl, fun k hk _ => by
      obtain ⟨t, ht⟩ := writes_shard_event h hk
      exact tget_lt ht⟩
  cases a with
  | clone t path => exact ⟨⟨deref c.s, deref c.s, []⟩, fun b => hd _ _ b⟩
  | read t path => exact ⟨⟨deref c.s, deref c.s, []⟩, fun b => hd _ _ b⟩
  | run t a =>
    cases ht : c.s.threads[t]? with
    | none =>
      refine ⟨⟨deref c.s, deref c.s, []⟩, fun th hth => ?_⟩
      rw [ht] at hth; cases hth
    | some th =>
      have key : ∀ i, (∀ j, lockedShard (⟨deref c.s, deref c.s, shardElems cfg c.s i⟩ : View V) cfg th.pc = some j → j = i) →
          (∀ j m acc, th.pc = .lenScan j m acc → j = i) → ∃ w, Sees cfg c l n w (.run t a) := by
        intro i h1 h2
        refine ⟨⟨deref c.s, deref c.s, shardElems cfg c.s i⟩, fun th' hth => ?_⟩
        rw [ht] at hth; cases hth
        refine ⟨fun b => hd _ _ b, fun j hj => ?_, fun j m acc hj => ?_⟩
        · cases h1 j hj; exact ⟨hs _ _ _, fun b => hd _ _ b⟩
        · cases h2 j m acc hj; exact hs _ _ _
      cases hpc : th.pc with
      | lenScan i m acc => exact key i (by simp [hpc, lockedShard]) (by simp [hpc])
      | newLoop cc => exact key (cfg.shardOf cc.val) (by simp [hpc, lockedShard]) (by simp [hpc])
      | newEntry cc b =>
        exact key (((deref c.s b).map cfg.shardOf).getD 0) (by simp only [hpc, lockedShard]; intro j hj; rw [hj]; rfl) (by simp [hpc])
      | dropRemove b =>
        exact key (((deref c.s b).map cfg.shardOf).getD 0) (by simp only [hpc, lockedShard]; intro j hj; rw [hj]; rfl) (by simp [hpc])
      | _ => exact key 0 (by simp [hpc, lockedShard]) (by simp [hpc])
  | _ => exact ⟨⟨deref c.s, deref c.s, []⟩, trivial⟩

/-- **C66, converse.** Every interleaving execution is possible under weak memory. -/
theorem C66_all_interleavings [LawfulHashable V] [EquivBEq V] (hv : cfg.Valid) {l : List (Instant V)}
    (h : Arc.Instants cfg Orders.code l) : Instants cfg Orders.code l := by
  induction h with
  | init => exact .init
  | @step c l s' a ch h hs he hS hch ih =>
    obtain ⟨w, hw⟩ := sees_current h ch.h a
    rw [← step_eq ⟨rfl, rfl⟩ hv h hw hch] at he
    exact ih.step hs hw he hS hch

/-! ### Concrete executions -/

/-- Thread 0 has interned a value, as box 10 in shard 1; thread 1 exists. -/
def oneTrace : List (Act Val × Choice) := sharedTrace.take 9

theorem hb_last {tr : List Ev} {i j : Nat} (h : HB tr i j) :
    ∃ (k : Nat) (a b : Ev), k < j ∧ tr[k]? = some a ∧ tr[j]? = some b ∧ (a.tid = b.tid ∨ Sync a.what b.what) := by
  induction h with
  | edge h1 h2 h3 h4 => exact ⟨_, _, _, h1, h2, h3, h4⟩
  | trans _ _ _ ih => exact ih

/-- Synchronisation matters: if thread 1 could look into the table without taking the lock, it might not find box 10, and if it could
look at box 10 without having got a handle, it might read memory that is not initialised. -/
theorem stale_possible : ∃ (c : Instant Val) (l : List (Instant Val)), Instants demoCfg Orders.code (c :: l) ∧
    shardElems demoCfg c.s 1 = [10] ∧ SeesShard demoCfg (c :: l) c.tr [] ⟨1, .table 1⟩ 1 [] ∧
    deref c.s 10 = some ⟨5, 1, []⟩ ∧ SeesData (c :: l) c.tr [] ⟨1, .look 3⟩ 10 none ∧ c.obj 10 = 3 := by
  have h1 := demo_instants (as := oneTrace) (by decide)
  have h2 : ((demoInstants oneTrace).head?.any fun c => shardElems demoCfg c.s 1 == [10] && decide (deref c.s 10 = some ⟨5, 1, []⟩) &&
      c.obj 10 == 3 && c.tr.all (fun e => e.tid == 0)) = true := by decide
  have h3 : ((demoInstants oneTrace).getLast?.any fun c => shardElems demoCfg c.s 1 == [] && decide (deref c.s 10 = none)) = true := by decide
  cases hl : demoInstants oneTrace with
  | nil => rw [hl] at h2; cases h2
  | cons c l =>
    rw [hl] at h1 h2 h3
    simp only [List.head?_cons, Option.any_some, Bool.and_eq_true, beq_iff_eq, decide_eq_true_eq, List.all_eq_true] at h2
    obtain ⟨⟨⟨h4, h5⟩, h6⟩, h7⟩ := h2
    obtain ⟨c0, hc0⟩ : ∃ c0, (c :: l).getLast? = some c0 := by simp [List.getLast?_cons]
    simp only [hc0, Option.any_some, Bool.and_eq_true, beq_iff_eq, decide_eq_true_eq] at h3
    have hm : c0 ∈ c :: l := List.mem_of_getLast? hc0
    have no : ∀ (x : What) (k : Nat), (∀ y, ¬ Sync y x) → ¬ HB (c.tr ++ [] ++ [⟨1, x⟩]) k (c.tr.length + ([] : List Ev).length) := by
      intro x k hx hb
      obtain ⟨k', a, b, e1, e2, e3, e4⟩ := hb_last hb
      have e5 : (c.tr ++ [] ++ [⟨1, x⟩])[c.tr.length + ([] : List Ev).length]? = some ⟨1, x⟩ := by simp
      rw [e5] at e3; cases e3
      rcases e4 with e4 | e4
      · simp only [List.length_nil, Nat.add_zero, List.append_nil] at e1 e2
        rw [List.getElem?_append_left e1] at e2
        have := h7 a (List.mem_of_getElem? e2)
        rw [this] at e4; cases e4
      · exact hx _ e4
    refine ⟨c, l, C66_all_interleavings demoCfg_valid h1, h4, ⟨c0, hm, h3.1, fun k _ hb => ?_⟩, h5,
      ⟨c0, hm, h3.2, fun k _ hb => ?_⟩, h6⟩
    · exact (no _ k (fun y hy => by cases y <;> exact hy) hb).elim
    · exact (no _ k (fun y hy => by cases y <;> exact hy) hb).elim

/-- The hypotheses of `C66_only_interleavings` and `C66_no_ub` are met by the execution above and by one in which thread 1 goes on to
clone a handle and to drop it. -/
example : ∃ l, Instants demoCfg Orders.code l ∧ l.length = 13 ∧ Arc.Instants demoCfg Orders.code l := by
  have h := C66_all_interleavings demoCfg_valid (demo_instants (as := droppedTrace) (by decide))
  exact ⟨_, h, by decide, C66_only_interleavings demoCfg_valid h⟩

/-- In the same situation thread 1 interns an equal value: under the lock it can only see box 10, with the value that thread 0
stored. -/
example : ∃ (c : Instant Val) (l : List (Instant Val)), Instants demoCfg Orders.code (c :: l) ∧
    ∀ (w : View Val) (n : Nat), Sees demoCfg c l n w (.run 1 0) → w.find ⟨5, 1, []⟩ = some 10 := by
  have h1 := demo_instants (as := oneTrace ++ [(.new 1 ⟨5, 1, []⟩ false, { hs := [], rest := [(9, 10)] })]) (by decide)
  have h2 : ((demoInstants (oneTrace ++ [(.new 1 ⟨5, 1, []⟩ false, { hs := [], rest := [(9, 10)] })])).head?.any fun c =>
      decide (find c.s ⟨5, 1, []⟩ = some 10) && decide (c.s.locks 1 = none) &&
      (c.s.threads[1]?.any fun th => match th.pc with | .newLoop cc => decide (cc.val = ⟨5, 1, []⟩) | _ => false)) = true := by
    decide
  cases hl : demoInstants (oneTrace ++ [(.new 1 ⟨5, 1, []⟩ false, { hs := [], rest := [(9, 10)] })]) with
  | nil => rw [hl] at h2; cases h2
  | cons c l =>
    rw [hl] at h1 h2
    simp only [List.head?_cons, Option.any_some, Bool.and_eq_true, decide_eq_true_eq] at h2
    obtain ⟨⟨h3, h4⟩, h5⟩ := h2
    refine ⟨c, l, C66_all_interleavings demoCfg_valid h1, fun w n hs => ?_⟩
    cases ht : c.s.threads[1]? with
    | none => rw [ht] at h5; cases h5
    | some th =>
      rw [ht] at h5
      simp only [Option.any_some] at h5
      split at h5
      · rename_i cc hpc
        rw [decide_eq_true_eq] at h5
        obtain ⟨_, h6, _⟩ := hs th ht
        obtain ⟨h7, h8⟩ := h6 1 (by rw [hpc]; simp only [lockedShard, h5]; decide)
        obtain ⟨h9, h10⟩ := under_eq ⟨rfl, rfl⟩ demoCfg_valid h1 h4 h7 h8
        rw [← h3]
        exact find_eq h9 h10
      · cases h5

end Weak
end Arc
