import Verif.Pool.Weak
import Verif.Props.ArenaSync
import Verif.Props.Arena
/-!
C67: weak memory adds no behaviour to `Intern` and `Arena`. Vocabulary (`Weak.step`, `Weak.Sees`, `Weak.Instants`) in
`Verif/Pool/Weak.lean`.
-/
namespace Pool
namespace Weak
variable {K V : Type} [DecidableEq K] [BEq V] [Hashable V] {cfg : Cfg K V}

theorem instants_run {c : Instant K V} {l : List (Instant K V)} (h : Pool.Instants cfg (c :: l)) : Run cfg c.s c.tr := by
  generalize hl : c :: l = m at h
  induction h generalizing c l with
  | init => cases hl; exact .init
  | act hi ha hs ih => cases hl; exact (ih rfl).act ha hs
  | use hi hh hk ih => cases hl; exact (ih rfl).use hh hk
  | send hi hh ih => cases hl; exact (ih rfl).send hh
  | recv hi hn ih => cases hl; exact (ih rfl).recv hn

/-! ### What steps do to plain memory -/

omit [BEq V] [Hashable V] in
theorem mem_free {h : List (Obj K V)} {k : K} {p : Ptr} {o : Obj K V} (ho : o ∈ free h k p) : o ∈ h := List.mem_of_mem_eraseP ho

omit [BEq V] [Hashable V] in
theorem mem_frees {h : List (Obj K V)} {k : K} (ps : List Ptr) {o : Obj K V} (ho : o ∈ ps.foldl (fun h p => free h k p) h) : o ∈ h := by
  induction ps generalizing h with
  | nil => exact ho
  | cons p ps ih => exact mem_free (ih ho)

/-- A box that is there after a step was there before, or was made by the step at a free address. -/
theorem step_heap {s s' : State K V} {a : Act K V} (hs : Pool.step cfg s a = .ok s') {o : Obj K V} (ho : o ∈ s'.heap) :
    o ∈ s.heap ∨ (s'.heap = o :: s.heap ∧ (∃ t, events cfg s a = [⟨t, .make o.pool o.ptr⟩]) ∧
      (cfg.zst o.pool o.val = false → ∀ o' ∈ s.heap, cfg.zst o'.pool o'.val = false → o'.ptr.addr ≠ o.ptr.addr)) := by
  cases a with
  | spawn => cases hs; exact .inl ho
  | call t o' =>
    simp only [Pool.step] at hs
    split at hs
    · split at hs
      · cases hs
      · cases hs; exact .inl ho
    · cases hs
  | panic t =>
    simp only [Pool.step] at hs
    split at hs
    · rename_i pc _
      cases pc with
      | insert k q mk p =>
        cases hs
        simp only [State.at, State.unlock] at ho
        split at ho
        · exact .inl (mem_free ho)
        · exact .inl ho
      | _ => cases hs <;> exact .inl ho
    · cases hs
  | dropArena k =>
    simp only [Pool.step] at hs
    split at hs
    · cases hs; exact .inl (mem_frees _ ho)
    · cases hs
  | read k p =>
    simp only [Pool.step] at hs
    split at hs <;> cases hs
    exact .inl ho
  | run t a =>
    simp only [Pool.step] at hs
    simp only [events]
    cases ht : s.threads[t]? with
    | none => rw [ht] at hs; cases hs
    | some pc =>
      rw [ht] at hs
      simp only at hs ⊢
      cases pc with
      | idle => cases hs
      | want o' =>
        simp only [Pool.run] at hs
        split at hs
        · cases hs
        · cases hs; exact .inl ho
      | inside o' =>
        simp only [Pool.run] at hs
        split at hs
        · cases o' with
          | intern k q mk => simp only at hs; split at hs <;> cases hs <;> exact .inl ho
          | query k q => cases hs; exact .inl ho
          | len k => cases hs; exact .inl ho
          | clear k => simp only at hs; split at hs <;> cases hs; exact .inl ho
        · cases hs
      | build k q mk =>
        simp only [Pool.run] at hs
        cases hal : allocAt cfg s k mk a with
        | none => rw [hal] at hs; cases hs
        | some x =>
          rw [hal] at hs
          cases hs
          simp only [State.at] at ho
          rcases List.mem_cons.mp ho with rfl | ho
          · refine .inr ⟨rfl, ⟨t, by simp only [hal]⟩, fun hz o' ho' hz' => ?_⟩
            simp only at hz
            unfold allocAt at hal
            rw [hz] at hal
            simp only [Bool.false_eq_true, if_false] at hal
            split at hal
            · rename_i hfr
              cases hal
              have := (List.all_eq_true.mp hfr.2) o' ho'
              simpa [hz'] using this
            · cases hal
          · exact .inl ho
      | insert k q mk p =>
        simp only [Pool.run] at hs
        split at hs
        · split at hs
          · cases hs
            simp only [State.commit] at ho
            split at ho
            · exact .inl (mem_free ho)
            · exact .inl ho
          · cases hs; exact .inl ho
        · cases hs
      | dropArg k q mk p => cases hs; exact .inl ho
      | leave o' r => cases hs; exact .inl ho

/-- A step that changes the set of a pool accesses it, according to the trace, or drops the pool. -/
theorem step_table {s s' : State K V} {a : Act K V} (hs : Pool.step cfg s a = .ok s') {k : K} (hk : k ∉ s'.gone)
    (hne : s'.table k ≠ s.table k) : ∃ t, events cfg s a = [⟨t, .table k⟩] := by
  cases a with
  | spawn => cases hs; exact absurd rfl hne
  | call t o' =>
    simp only [Pool.step] at hs
    split at hs
    · split at hs
      · cases hs
      · cases hs; exact absurd rfl hne
    · cases hs
  | panic t =>
    simp only [Pool.step] at hs
    split at hs
    · rename_i pc _
      cases pc <;> cases hs <;> exact absurd rfl hne
    · cases hs
  | dropArena k' =>
    simp only [Pool.step] at hs
    split at hs
    · cases hs
      by_cases e : k = k'
      · subst e; exact absurd List.mem_cons_self hk
      · simp only [State.setTable, if_neg e] at hne
        exact absurd rfl hne
    · cases hs
  | read k p =>
    simp only [Pool.step] at hs
    split at hs <;> cases hs
    exact absurd rfl hne
  | run t a =>
    simp only [Pool.step] at hs
    simp only [events]
    cases ht : s.threads[t]? with
    | none => rw [ht] at hs; cases hs
    | some pc =>
      rw [ht] at hs
      simp only at hs ⊢
      cases pc with
      | idle => cases hs
      | want o' =>
        simp only [Pool.run] at hs
        split at hs
        · cases hs
        · cases hs; exact absurd rfl hne
      | inside o' =>
        simp only [Pool.run] at hs
        split at hs
        · cases o' with
          | intern k q mk => simp only at hs; split at hs <;> cases hs <;> exact absurd rfl hne
          | query k q => cases hs; exact absurd rfl hne
          | len k => cases hs; exact absurd rfl hne
          | clear k' =>
            simp only at hs
            split at hs <;> cases hs
            by_cases e : k = k'
            · subst e; exact ⟨t, rfl⟩
            · simp only [State.commit, State.setTable, if_neg e] at hne
              exact absurd rfl hne
        · cases hs
      | build k q mk =>
        simp only [Pool.run] at hs
        split at hs <;> cases hs
        exact absurd rfl hne
      | insert k' q mk p =>
        by_cases e : k = k'
        · subst e; exact ⟨t, rfl⟩
        · simp only [Pool.run] at hs
          split at hs
          · split at hs
            · cases hs
              simp only [State.commit] at hne
              split at hne <;> exact absurd rfl hne
            · cases hs
              simp only [State.commit, State.setTable, if_neg e] at hne
              exact absurd rfl hne
          · cases hs
      | dropArg k q mk p => cases hs; exact absurd rfl hne
      | leave o' r => cases hs; exact absurd rfl hne

/-! ### Reads that are ordered after the writes see the newest value -/

theorem tr_mono {c : Instant K V} {l : List (Instant K V)} (h : Pool.Instants cfg (c :: l)) {c1 : Instant K V} (hc : c1 ∈ c :: l) :
    c1.tr.length ≤ c.tr.length ∧ ∀ k, k ∈ c1.s.gone → k ∈ c.s.gone := by
  have key : ∀ {c c' : Instant K V} {l : List (Instant K V)},
      (c1 ∈ c :: l → c1.tr.length ≤ c.tr.length ∧ ∀ k, k ∈ c1.s.gone → k ∈ c.s.gone) → c1 ∈ c' :: c :: l →
      c.tr.length ≤ c'.tr.length → (∀ k, k ∈ c.s.gone → k ∈ c'.s.gone) → c1.tr.length ≤ c'.tr.length ∧ ∀ k, k ∈ c1.s.gone → k ∈ c'.s.gone := by
    intro c c' l ih hm h1 h2
    rcases List.mem_cons.mp hm with rfl | hm
    · exact ⟨Nat.le_refl _, fun _ h => h⟩
    · exact ⟨Nat.le_trans (ih hm).1 h1, fun k hk => h2 k ((ih hm).2 k hk)⟩
  generalize hl : c :: l = m at h
  induction h generalizing c l with
  | init => cases hl; simp only [List.mem_singleton] at hc; rw [hc]; exact ⟨Nat.le_refl _, fun _ h => h⟩
  | act hi ha hs ih =>
    cases hl
    exact key (fun h => ih h rfl) hc (by simp) (step_log hs).2.2
  | use hi _ _ ih | send hi _ ih | recv hi _ ih =>
    cases hl
    exact key (fun h => ih h rfl) hc (by simp) (fun _ h => h)

theorem instants_reach {c1 : Instant K V} {l : List (Instant K V)} (h : Pool.Instants cfg l) (hc : c1 ∈ l) : Reach cfg c1.s := by
  have key : ∀ {c : Instant K V} {l : List (Instant K V)}, c1 ∈ c :: l → (c1 ∈ l → Reach cfg c1.s) → Reach cfg c.s → Reach cfg c1.s := by
    intro c l h3 h1 h2
    rcases List.mem_cons.mp h3 with rfl | h3
    · exact h2
    · exact h1 h3
  induction h with
  | init => simp only [List.mem_singleton] at hc; rw [hc]; exact .init
  | act hi ha hs ih => exact key hc ih ((instants_run hi).reach.step ha hs)
  | use hi _ _ ih | send hi _ ih | recv hi _ ih => exact key hc ih (instants_run hi).reach

omit [DecidableEq K] [BEq V] [Hashable V] in
theorem cell_none {s : State K V} {a : Nat} (h : ∀ o ∈ s.heap, cfg.zst o.pool o.val = false → o.ptr.addr ≠ a) : cell cfg s a = none := by
  unfold cell
  rw [Option.map_eq_none_iff, List.find?_eq_none]
  intro o ho
  cases hz : cfg.zst o.pool o.val
  · simpa using h o ho hz
  · simp

theorem cell_of_mem {s : State K V} (hI : Inv cfg s) {o : Obj K V} (ho : o ∈ s.heap) (hz : cfg.zst o.pool o.val = false) :
    cell cfg s o.ptr.addr = some o.val := by
  have h1 := hI.addrs
  unfold cell
  generalize s.heap = h at ho h1
  induction h with
  | nil => cases ho
  | cons o' h ih =>
    rw [List.pairwise_cons] at h1
    rcases List.mem_cons.mp ho with rfl | ho
    · simp [hz]
    · rw [List.find?_cons_of_neg]
      · exact ih ho h1.2
      · cases hz' : cfg.zst o'.pool o'.val
        · simpa using h1.1 o ho hz' hz
        · simp

/-- Event `i` is the creation of the non-zero-sized value `o`, and `o` has been in memory since. -/
def MadeAt (cfg : Cfg K V) (c : Instant K V) (l : List (Instant K V)) (o : Obj K V) (i : Nat) : Prop :=
  (∃ t, c.tr[i]? = some ⟨t, .make o.pool o.ptr⟩) ∧ WritesCell cfg (c :: l) i o.ptr.addr ∧
    ∀ c1 ∈ c :: l, i < c1.tr.length → o ∈ c1.s.heap

theorem made_at [EquivBEq V] [LawfulHashable V] (lay : cfg.Layout) {c : Instant K V} {l : List (Instant K V)}
    (h : Pool.Instants cfg (c :: l)) {o : Obj K V} (ho : o ∈ c.s.heap) (hz : cfg.zst o.pool o.val = false) : ∃ i, MadeAt cfg c l o i := by
  have key : ∀ {c c' : Instant K V} {l : List (Instant K V)} {es : List (Ev K)}, (∃ i, MadeAt cfg c l o i) → o ∈ c'.s.heap →
      c'.tr = c.tr ++ es → ∃ i, MadeAt cfg c' (c :: l) o i := by
    rintro c c' l es ⟨i, ⟨t, h1⟩, h2, h3⟩ h4 h5
    refine ⟨i, ⟨t, by rw [h5]; exact get_append h1⟩, .inr h2, fun c1 hc hlt => ?_⟩
    rcases List.mem_cons.mp hc with rfl | hc
    · exact h4
    · exact h3 c1 hc hlt
  generalize hl : c :: l = m at h
  induction h generalizing c l with
  | init => cases hl; cases ho
  | @act c0 l0 s' a hi ha hs ih =>
    cases hl
    rcases step_heap hs ho with h1 | ⟨h1, ⟨t, h2⟩, h3⟩
    · exact key (ih h1 rfl) ho rfl
    · refine ⟨c0.tr.length, ⟨t, by simp only [h2]; exact get_last _ _⟩, .inl ⟨Nat.le_refl _, ⟨t, _, _, by simp only [h2]; exact get_last _ _, rfl⟩,
        cell_none (h3 hz), ?_⟩, fun c1 hc hlt => ?_⟩
      · have := cell_of_mem (((instants_run hi).reach.step ha hs).inv lay) ho hz
        rw [this]; rfl
      · rcases List.mem_cons.mp hc with rfl | hc
        · exact ho
        · have := (tr_mono hi hc).1
          omega
  | use hi _ _ ih | send hi _ ih | recv hi _ ih => cases hl; exact key (ih ho rfl) ho rfl

/-- A read of a value in memory by a thread that knows of its creation sees this value. -/
theorem sees_val [EquivBEq V] [LawfulHashable V] (lay : cfg.Layout) {c : Instant K V} {l : List (Instant K V)}
    (h : Pool.Instants cfg (c :: l)) {r : Ev K} {k : K} {p : Ptr} {v : V} {x : Option V} (ho : ⟨k, p, v⟩ ∈ c.s.heap)
    (hs : SeesVal cfg (c :: l) c.tr r k p x)
    (hh : ∀ (i : Nat) u, c.tr[i]? = some ⟨u, .make k p⟩ → HB (c.tr ++ [r]) i c.tr.length) : x = some v := by
  have I := (instants_run h).reach.inv lay
  have hi : p.info = cfg.info k v := (I.shape _ ho).1
  rcases hs with ⟨v', h1, h2, h3⟩ | ⟨h1, c1, hc, h2, h3⟩
  · have h4 : cfg.info k v' = cfg.info k v := by rw [h2, hi]
    have h5 := lay.size k v' v h4
    rw [h1] at h5
    rw [h3, lay.unique k v' v h1 h5.symm h4]
  · obtain ⟨i, ⟨t, h4⟩, h5, h6⟩ := made_at lay h ho (h1 v hi.symm)
    have h7 := h6 c1 hc (h3 i h5 (hh i t h4))
    rw [← h2]
    exact cell_of_mem ((instants_reach h hc).inv lay) h7 (h1 v hi.symm)

/-- If no write of a pool's set is newer than an instant, the set was the same then. -/
theorem table_since {c : Instant K V} {l : List (Instant K V)} (h : Pool.Instants cfg (c :: l)) {k : K} (hk : k ∉ c.s.gone)
    {c1 : Instant K V} (hc : c1 ∈ c :: l) (hw : ∀ i, WritesTable (c :: l) i k → i < c1.tr.length) : c1.s.table k = c.s.table k := by
  have key : ∀ {c c' : Instant K V} {l : List (Instant K V)}, c1 ∈ c' :: c :: l → c'.s = c.s →
      (∀ i, WritesTable (c' :: c :: l) i k → i < c1.tr.length) →
      (c1 ∈ c :: l → (∀ i, WritesTable (c :: l) i k → i < c1.tr.length) → c1.s.table k = c.s.table k) → c1.s.table k = c'.s.table k := by
    intro c c' l h1 h2 h3 h4
    rcases List.mem_cons.mp h1 with rfl | h1
    · rfl
    · rw [h2]; exact h4 h1 (fun i hi => h3 i (.inr hi))
  generalize hl : c :: l = m at h
  induction h generalizing c l with
  | init => cases hl; simp only [List.mem_singleton] at hc; rw [hc]
  | @act c0 l0 s' a hi ha hs ih =>
    cases hl
    rcases List.mem_cons.mp hc with rfl | hc
    · rfl
    · have h1 := ih (fun hk' => hk ((step_log hs).2.2 k hk')) hc (fun i hi => hw i (.inr hi)) rfl
      rw [h1]
      refine Classical.byContradiction fun hne => ?_
      obtain ⟨t, ht⟩ := step_table hs hk (fun e => hne e.symm)
      have h2 := hw c0.tr.length (.inl ⟨Nat.le_refl _, ⟨t, by simp only [ht]; exact get_last _ _⟩, fun e => hne e.symm⟩)
      have := (tr_mono hi hc).1
      omega
  | use hi _ _ ih | send hi _ ih | recv hi _ ih => cases hl; exact key hc rfl hw (fun h1 h2 => ih hk h1 h2 rfl)

theorem writes_table_event {c : Instant K V} {l : List (Instant K V)} (h : Pool.Instants cfg (c :: l)) {i : Nat} {k : K}
    (hw : WritesTable (c :: l) i k) : ∃ t, c.tr[i]? = some ⟨t, .table k⟩ := by
  generalize hl : c :: l = m at h
  induction h generalizing c l with
  | init => cases hl; exact hw.elim
  | act hi _ _ ih | use hi _ _ ih | send hi _ ih | recv hi _ ih =>
    cases hl
    rcases hw with ⟨_, h1, _⟩ | hw
    · exact h1
    · obtain ⟨t, ht⟩ := ih hw rfl
      exact ⟨t, get_append ht⟩

/-! ### Every view a step can have is the current one -/

/-- Whoever holds the mutex of a pool sees the newest set and the newest values of its elements. -/
theorem view_eq [EquivBEq V] [LawfulHashable V] (lay : cfg.Layout) {c : Instant K V} {l : List (Instant K V)}
    (h : Pool.Instants cfg (c :: l)) {t : Tid} {k : K} (hl : c.s.lock (cfg.lockOf k) = some t) (hk : k ∉ c.s.gone) {w : View V}
    (hs : SeesTable (c :: l) c.tr ⟨t, .table k⟩ k w.table) (hv : ∀ p, SeesVal cfg (c :: l) c.tr ⟨t, .table k⟩ k p (w.val p)) :
    w.table = c.s.table k ∧ ∀ p ∈ c.s.table k, w.val p = deref c.s k p := by
  have R := instants_run h
  have O := R.ordered lay
  have I := R.reach.inv lay
  refine ⟨?_, fun p hp => ?_⟩
  · obtain ⟨c1, h1, h2, h3⟩ := hs
    rw [← h2]
    refine table_since h hk h1 fun i hi => h3 i hi ?_
    obtain ⟨u, hu⟩ := writes_table_event h hi
    exact (O.seen _ t hl i u _ hu rfl).hb rfl
  · obtain ⟨v, hv'⟩ := I.mem k p hp
    rw [(I.deref_iff lay k p v).mpr hv']
    exact sees_val lay h hv' (hv p) fun i u hu => (O.seen _ t hl i u _ hu rfl).hb rfl

omit [BEq V] in
/-- Probing the current set with the current values is `Pool.find`. -/
theorem find_eq {s : State K V} {w : View V} {k : K} (q : Query V) (ht : w.table = s.table k)
    (hv : ∀ p ∈ s.table k, w.val p = deref s k p) : w.find q = find s k q := by
  unfold View.find find
  rw [ht]
  generalize s.table k = xs at hv
  induction xs with
  | nil => rfl
  | cons p xs ih =>
    rw [List.find?_cons, List.find?_cons, hv p List.mem_cons_self, ih fun b hb => hv b (List.mem_cons_of_mem _ hb)]
    rfl

omit [BEq V] [Hashable V] in
theorem ok_eq {s : State K V} {w : View V} {k : K} (ht : w.table = s.table k)
    (hv : ∀ p ∈ s.table k, w.val p = deref s k p) : w.ok s k = tableOk s k := by
  unfold View.ok tableOk
  rw [ht]
  generalize s.table k = xs at hv
  induction xs with
  | nil => rfl
  | cons p xs ih =>
    rw [List.all_cons, List.all_cons, hv p List.mem_cons_self, ih fun b hb => hv b (List.mem_cons_of_mem _ hb), Bool.and_self]

/-- Whatever a step can see, it does what it does when it sees the newest values. -/
theorem step_eq [EquivBEq V] [LawfulHashable V] (lay : cfg.Layout) {c : Instant K V} {l : List (Instant K V)}
    (h : Pool.Instants cfg (c :: l)) {a : Act K V} {w : View V} (hs : Sees cfg c l w a) : step w cfg c.s a = Pool.step cfg c.s a := by
  have I := (instants_run h).reach.inv lay
  cases a with
  | run t a =>
    simp only [step, Pool.step]
    cases ht : c.s.threads[t]? with
    | none => rfl
    | some pc =>
      have look : ∀ k, pc.reads = some k → pc.holds cfg = some (cfg.lockOf k) → pc.pool? = some k →
          w.table = c.s.table k ∧ w.ok c.s k = tableOk c.s k ∧ ∀ q, w.find q = find c.s k q := by
        intro k h1 h2 h3
        obtain ⟨h4, h5⟩ := hs pc k ht h1
        obtain ⟨h6, h7⟩ := view_eq lay h (I.holder t pc _ ht h2) (I.alive t pc k ht h3) h4 h5
        exact ⟨h6, ok_eq h6 h7, fun q => find_eq q h6 h7⟩
      simp only
      cases pc with
      | inside o =>
        obtain ⟨h1, h2, h3⟩ := look o.pool rfl rfl rfl
        cases o <;> simp only [Op.pool] at h1 h2 h3 <;> simp only [run, Pool.run, Op.pool, h1, h2, h3] <;> rfl
      | insert k q mk p =>
        obtain ⟨h1, h2, h3⟩ := look k rfl rfl rfl
        simp only [run, Pool.run, h1, h2, h3]
        rfl
      | _ => rfl
  | _ => rfl

/-! ### The property -/

/-- **C67.** Whatever plain reads may return according to the memory model, every execution of `Intern` and `Arena` is an interleaving
execution: it has the states and events of `Pool.Instants`, in which every read sees the newest value. So all theorems about the
interleaving model hold under weak memory. -/
theorem C67_only_interleavings [EquivBEq V] [LawfulHashable V] (lay : cfg.Layout) {l : List (Instant K V)}
    (h : Instants cfg l) : Pool.Instants cfg l := by
  induction h with
  | init => exact .init
  | act w _ ha hw hs ih =>
    rw [step_eq lay ih hw] at hs
    exact ih.act ha hs
  | use _ h1 h2 ih => exact ih.use h1 h2
  | send _ h1 ih => exact ih.send h1
  | recv _ h1 ih => exact ih.recv h1

/-- **C67, no undefined behaviour.** No step of a call touches freed memory or reads memory before it is written, whatever plain reads
return. -/
theorem C67_no_ub [EquivBEq V] [LawfulHashable V] (lay : cfg.Layout) {c : Instant K V} {l : List (Instant K V)}
    (h : Instants cfg (c :: l)) {a : Act K V} (ha : a.Lawful) {w : View V} (hs : Sees cfg c l w a) : step w cfg c.s a ≠ .ub := by
  have h' := C67_only_interleavings lay h
  rw [step_eq lay h' hs]
  exact C36_calls_never_ub lay (instants_run h').reach ha

/-- **C67, handles.** A thread that has a handle, from its own call or from another thread, and reads the value behind it while the
pool exists sees the interned value, whatever plain reads may return: never memory that is not initialised, and never what was at the
address before. -/
theorem C67_reads [EquivBEq V] [LawfulHashable V] (lay : cfg.Layout) {c : Instant K V} {l : List (Instant K V)}
    (h : Instants cfg (c :: l)) {t : Tid} {k : K} {p : Ptr} (hh : Has c.s c.tr t k p) (hk : k ∉ c.s.gone) {x : Option V}
    (hs : SeesVal cfg (c :: l) c.tr ⟨t, .use k p⟩ k p x) :
    x = deref c.s k p ∧ ∃ v, x = some v ∧ ∀ u q v', ⟨u, .intern k q v', .ptr p⟩ ∈ c.s.done → (v == v') = true := by
  have h' := C67_only_interleavings lay h
  have R := instants_run h'
  have O := R.ordered lay
  have hd : ∀ u q v', ⟨u, .intern k q v', .ptr p⟩ ∈ c.s.done → ∃ v, deref c.s k p = some v ∧ (v == v') = true := by
    intro u q v' hd
    obtain ⟨p', v, e, _, h2, h3⟩ := R.reach.handle lay hk (R.reach.done_sub hd)
    cases e
    exact ⟨v, h2, h3⟩
  obtain ⟨u, q, v', h1⟩ := O.has_done hh
  obtain ⟨v, h2, _⟩ := hd u q v' h1
  have e := sees_val lay h' (deref_mem h2) hs fun i u hu => (O.has_seen hh hu).hb rfl
  refine ⟨e.trans h2.symm, v, e, fun u q v' h3 => ?_⟩
  obtain ⟨y, h4, h5⟩ := hd u q v' h3
  rw [h2] at h4; cases h4
  exact h5

theorem writes_cell_lt {c : Instant K V} {l : List (Instant K V)} (h : Pool.Instants cfg (c :: l)) {i a : Nat}
    (hw : WritesCell cfg (c :: l) i a) : i < c.tr.length := by
  generalize hl : c :: l = m at h
  induction h generalizing c l with
  | init => cases hl; exact hw.elim
  | act hi _ _ ih | use hi _ _ ih | send hi _ ih | recv hi _ ih =>
    cases hl
    rcases hw with ⟨_, ⟨_, _, _, h1, _⟩, _⟩ | hw
    · exact get_lt h1
    · have := ih hw rfl
      simp only [List.length_append]; omega

/-- The newest values are always possible. -/
theorem sees_current [EquivBEq V] [LawfulHashable V] (lay : cfg.Layout) {c : Instant K V} {l : List (Instant K V)}
    (h : Pool.Instants cfg (c :: l)) (a : Act K V) : ∃ w, Sees cfg c l w a := by
  have hv : ∀ r k, ∃ val : Ptr → Option V, ∀ p, SeesVal cfg (c :: l) c.tr r k p (val p) := by
    intro r k
    refine Classical.skolem.mp fun p => ?_
    by_cases hz : ∃ v, cfg.zst k v = true ∧ cfg.info k v = p.info
    · obtain ⟨v, h1, h2⟩ := hz
      exact ⟨some v, .inl ⟨v, h1, h2, rfl⟩⟩
    · refine ⟨cell cfg c.s p.addr, .inr ⟨fun v hv => ?_, c, List.mem_cons_self .., rfl, fun i hi _ => writes_cell_lt h hi⟩⟩
      cases e : cfg.zst k v
      · rfl
      · exact absurd ⟨v, e, hv⟩ hz
  cases a with
  | run t a =>
    cases ht : c.s.threads[t]? with
    | none =>
      refine ⟨⟨[], fun _ => none⟩, fun pc k hpc => ?_⟩
      rw [ht] at hpc; cases hpc
    | some pc =>
      cases hr : pc.reads with
      | none =>
        refine ⟨⟨[], fun _ => none⟩, fun pc' k hpc hk => ?_⟩
        rw [ht] at hpc; cases hpc
        rw [hr] at hk; cases hk
      | some k =>
        obtain ⟨val, hval⟩ := hv ⟨t, .table k⟩ k
        refine ⟨⟨c.s.table k, val⟩, fun pc' k' hpc hk => ?_⟩
        rw [ht] at hpc; cases hpc
        rw [hr] at hk; cases hk
        refine ⟨⟨c, List.mem_cons_self .., rfl, fun i hi _ => ?_⟩, hval⟩
        obtain ⟨u, hu⟩ := writes_table_event h hi
        exact get_lt hu
  | _ => exact ⟨⟨[], fun _ => none⟩, trivial⟩

/-- **C67, converse.** Every interleaving execution is possible under weak memory. -/
theorem C67_all_interleavings [EquivBEq V] [LawfulHashable V] (lay : cfg.Layout) {l : List (Instant K V)}
    (h : Pool.Instants cfg l) : Instants cfg l := by
  induction h with
  | init => exact .init
  | @act c l s' a h ha hs ih =>
    obtain ⟨w, hw⟩ := sees_current lay h a
    rw [← step_eq lay h hw] at hs
    exact ih.act w ha hw hs
  | use _ h1 h2 ih => exact ih.use h1 h2
  | send _ h1 ih => exact ih.send h1
  | recv _ h1 ih => exact ih.recv h1

/-! ### Concrete executions -/

/-- All instants of an execution, latest first. -/
def execInst (cfg : Cfg K V) : List (Instant K V) → List (Act K V) → List (Instant K V)
  | c :: l, a :: as => match Pool.step cfg c.s a with
    | .ok s' => execInst cfg (⟨s', c.tr ++ events cfg c.s a⟩ :: c :: l) as
    | _ => c :: l
  | l, _ => l

theorem execInst_ok {l : List (Instant K V)} {as : List (Act K V)} (ha : ∀ a ∈ as, a.Lawful) (h : Pool.Instants cfg l) :
    Pool.Instants cfg (execInst cfg l as) := by
  induction as generalizing l with
  | nil => cases l <;> exact h
  | cons a as ih =>
    cases l with
    | nil => exact h
    | cons c l =>
      simp only [execInst]
      split
      · rename_i s' hs
        exact ih (fun b hb => ha b (List.mem_cons_of_mem _ hb)) (h.act (ha a List.mem_cons_self) hs)
      · exact h

/-- Thread 0 interns `⟨5, 1⟩` in arena 2 at address 64, the arena is dropped, and thread 0 interns `⟨7, 3⟩` as an `Intern`, at the same address.
Thread 1 exists. -/
def reuse : List Demo.Cmd :=
  [.spawn, .spawn, .new 0 2 ⟨5, 1⟩, .run 0 64, .run 0 64, .run 0 64, .run 0 64, .run 0 64, .dropArena 2,
   .new 0 0 ⟨7, 3⟩, .run 0 64, .run 0 64, .run 0 64, .run 0 64, .run 0 64]

def demoInst (l : List Demo.Cmd) : List (Instant Nat Demo.Val) := execInst Demo.cfg [⟨Pool.init, []⟩] (l.map Demo.Cmd.act)

theorem demoInst_ok (l : List Demo.Cmd) : Pool.Instants Demo.cfg (demoInst l) :=
  execInst_ok (Demo.lawful l) .init

omit [DecidableEq K] in
theorem hb_last {tr : List (Ev K)} {i j : Nat} (h : HB tr i j) : ∃ (n : Nat) (a b : Ev K), n < j ∧ tr[n]? = some a ∧ tr[j]? = some b ∧
    (a.tid = b.tid ∨ (∃ m, b.what = .acq m) ∨ ∃ m k p, b.what = .recv m k p) := by
  induction h with
  | po h1 h2 h3 h4 => exact ⟨_, _, _, h1, h2, h3, .inl h4⟩
  | sync h1 h2 h3 => exact ⟨_, _, _, h1, h2, h3, .inr (.inl ⟨_, rfl⟩)⟩
  | msg h1 h2 h3 => exact ⟨_, _, _, h1, h2, h3, .inr (.inr ⟨_, _, _, rfl⟩)⟩
  | trans _ _ _ ih => exact ih

/-- Synchronisation matters: after `reuse`, if thread 1 could look into the set of pool 0 without taking the mutex it might find it empty,
and if it could look at address 64 without having got the handle it might find it not initialised, or find the value of the dropped arena. -/
theorem stale_possible : ∃ (c : Instant Nat Demo.Val) (l : List (Instant Nat Demo.Val)), Instants Demo.cfg (c :: l) ∧
    c.s.table 0 = [⟨64, 0⟩] ∧ SeesTable (c :: l) c.tr ⟨1, .table 0⟩ 0 [] ∧ deref c.s 0 ⟨64, 0⟩ = some ⟨7, 3⟩ ∧
    SeesVal Demo.cfg (c :: l) c.tr ⟨1, .use 0 ⟨64, 0⟩⟩ 0 ⟨64, 0⟩ none ∧
    SeesVal Demo.cfg (c :: l) c.tr ⟨1, .use 0 ⟨64, 0⟩⟩ 0 ⟨64, 0⟩ (some ⟨5, 1⟩) ∧
    SeesVal Demo.cfg (c :: l) c.tr ⟨1, .use 0 ⟨64, 0⟩⟩ 0 ⟨64, 0⟩ (some ⟨7, 3⟩) := by
  have h1 := demoInst_ok reuse
  have h2 : ((demoInst reuse).head?.any fun c => decide (c.s.table 0 = [⟨64, 0⟩]) && decide (deref c.s 0 ⟨64, 0⟩ = some ⟨7, 3⟩) &&
      c.tr.all (fun e => decide (e.tid = 0)) && decide (cell Demo.cfg c.s 64 = some ⟨7, 3⟩)) = true := by decide
  have h3 : ((demoInst reuse).any fun c => decide (c.s.table 0 = []) && decide (cell Demo.cfg c.s 64 = none)) = true := by decide
  have h4 : ((demoInst reuse).any fun c => decide (cell Demo.cfg c.s 64 = some ⟨5, 1⟩)) = true := by decide
  cases hl : demoInst reuse with
  | nil => rw [hl] at h2; cases h2
  | cons c l =>
    rw [hl] at h1 h2 h3 h4
    simp only [List.head?_cons, Option.any_some, Bool.and_eq_true, decide_eq_true_eq, List.all_eq_true] at h2
    obtain ⟨⟨⟨h5, h6⟩, h7⟩, h8⟩ := h2
    obtain ⟨c0, hm, h3⟩ := List.any_eq_true.mp h3
    obtain ⟨c1, hm1, h4⟩ := List.any_eq_true.mp h4
    simp only [Bool.and_eq_true, decide_eq_true_eq] at h3 h4
    have no : ∀ (w : What Nat) (i : Nat), (∀ m, w ≠ .acq m) → (∀ m k p, w ≠ .recv m k p) → ¬ HB (c.tr ++ [⟨1, w⟩]) i c.tr.length := by
      intro w i hw hw' hb
      obtain ⟨n, a, b, e1, e2, e3, e4⟩ := hb_last hb
      rw [get_last] at e3; cases e3
      rcases e4 with e4 | ⟨m, e4⟩ | ⟨m, k, p, e4⟩
      · rw [List.getElem?_append_left e1] at e2
        rw [h7 a (List.mem_of_getElem? e2)] at e4; cases e4
      · exact hw m e4
      · exact hw' m k p e4
    have nz : ∀ v : Demo.Val, Demo.cfg.info 0 v = 0 → Demo.cfg.zst 0 v = false := by
      intro v hv
      simp only [Demo.cfg] at hv ⊢
      split at hv
      · cases hv
      · simpa using ‹_›
    have val : ∀ c2 ∈ c :: l, SeesVal Demo.cfg (c :: l) c.tr ⟨1, .use 0 ⟨64, 0⟩⟩ 0 ⟨64, 0⟩ (cell Demo.cfg c2.s 64) := fun c2 hc =>
      .inr ⟨nz, c2, hc, rfl, fun i _ hb => (no _ i (by simp) (by simp) hb).elim⟩
    refine ⟨c, l, C67_all_interleavings Demo.layout h1, h5,
      ⟨c0, hm, h3.1, fun i _ hb => (no _ i (by simp) (by simp) hb).elim⟩, h6, ?_, ?_, ?_⟩
    · rw [← h3.2]; exact val c0 hm
    · rw [← h4]; exact val c1 hm1
    · rw [← h8]; exact val c (List.mem_cons_self ..)

/-- The hypotheses of `C67_only_interleavings`, `C67_no_ub` and `C67_reads` are met: in the same situation thread 0 passes the handle to
thread 1. Now thread 1 can only read `⟨7, 3⟩`. -/
example : ∃ (c : Instant Nat Demo.Val) (l : List (Instant Nat Demo.Val)), Instants Demo.cfg (c :: l) ∧ Has c.s c.tr 1 0 ⟨64, 0⟩ ∧ 0 ∉ c.s.gone ∧
    ∀ x, SeesVal Demo.cfg (c :: l) c.tr ⟨1, .use 0 ⟨64, 0⟩⟩ 0 ⟨64, 0⟩ x → x = some ⟨7, 3⟩ := by
  have h1 := C67_all_interleavings Demo.layout (demoInst_ok reuse)
  have h2 : ((demoInst reuse).head?.any fun c => decide (deref c.s 0 ⟨64, 0⟩ = some ⟨7, 3⟩) && decide (0 ∉ c.s.gone) &&
      c.s.done.any (fun e => match e with | ⟨0, .intern 0 _ _, .ptr p⟩ => decide (p = ⟨64, 0⟩) | _ => false)) = true := by decide
  cases hl : demoInst reuse with
  | nil => rw [hl] at h2; cases h2
  | cons c l =>
    rw [hl] at h1 h2
    simp only [List.head?_cons, Option.any_some, Bool.and_eq_true, decide_eq_true_eq] at h2
    obtain ⟨⟨h3, h4⟩, h5⟩ := h2
    obtain ⟨e, he, h5⟩ := List.any_eq_true.mp h5
    split at h5
    · rename_i q v p
      rw [decide_eq_true_eq] at h5
      subst h5
      have h6 := (h1.send (.inl ⟨_, _, he⟩)).recv (t := 1) (get_last _ _)
      have h7 : Has c.s (c.tr ++ [⟨0, .send 0 ⟨64, 0⟩⟩] ++ [⟨1, .recv c.tr.length 0 ⟨64, 0⟩⟩]) 1 0 ⟨64, 0⟩ :=
        .inr ⟨_, _, get_last _ _⟩
      exact ⟨_, _, h6, h7, h4, fun x hx => (C67_reads Demo.layout h6 h7 h4 hx).1.trans h3⟩
    · cases h5

/-- In the same situation thread 1 takes the mutex to intern an equal value: it can only find the value that thread 0 stored, and it
gets the same handle. -/
example : ∃ (c : Instant Nat Demo.Val) (l : List (Instant Nat Demo.Val)), Instants Demo.cfg (c :: l) ∧
    ∀ w, Sees Demo.cfg c l w (.run 1 0) → w.find (.ofVal ⟨7, 4⟩) = some ⟨64, 0⟩ := by
  have h1 := demoInst_ok (reuse ++ [.new 1 0 ⟨7, 4⟩, .run 1 0])
  have h2 : ((demoInst (reuse ++ [.new 1 0 ⟨7, 4⟩, .run 1 0])).head?.any fun c => decide (find c.s 0 (.ofVal ⟨7, 4⟩) = some ⟨64, 0⟩) &&
      decide (c.s.lock (Demo.cfg.lockOf 0) = some 1) && decide (0 ∉ c.s.gone) &&
      (c.s.threads[1]?.any fun pc => decide (pc.reads = some 0))) = true := by decide
  cases hl : demoInst (reuse ++ [.new 1 0 ⟨7, 4⟩, .run 1 0]) with
  | nil => rw [hl] at h2; cases h2
  | cons c l =>
    rw [hl] at h1 h2
    simp only [List.head?_cons, Option.any_some, Bool.and_eq_true, decide_eq_true_eq] at h2
    obtain ⟨⟨⟨h3, h4⟩, h5⟩, h6⟩ := h2
    refine ⟨c, l, C67_all_interleavings Demo.layout h1, fun w hw => ?_⟩
    cases ht : c.s.threads[1]? with
    | none => rw [ht] at h6; cases h6
    | some pc =>
      rw [ht] at h6
      simp only [Option.any_some, decide_eq_true_eq] at h6
      obtain ⟨h7, h8⟩ := hw pc 0 ht h6
      obtain ⟨h9, h10⟩ := view_eq Demo.layout h1 h4 h5 h7 h8
      rw [← h3]
      exact find_eq _ h9 h10

end Weak
end Pool
