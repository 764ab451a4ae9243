import Verif.Arc.Loads
import Verif.Props.ArcRace
/-!
C58: what `refcount()` may return on hardware, where it is an atomic load that can see an old value of the counter.
Vocabulary in `Verif/Arc/Loads.lean`.
-/
namespace Arc
variable {V : Type} [BEq V] [Hashable V] {cfg : Cfg V} {od : Orders}

/-! ### Auxiliary -/

theorem Instants.traced {c : Instant V} {l : List (Instant V)} (h : Instants cfg od (c :: l)) :
    Traced cfg od c.s c.obj c.own c.tr := by
  generalize hl : c :: l = m at h
  induction h generalizing c l with
  | init => cases hl; exact .init
  | step _ hs he hS hch ih => cases hl; exact (ih rfl).step hs he hS hch

/-- A write is an event of the trace. -/
theorem Instants.event {c : Instant V} {l : List (Instant V)} (h : Instants cfg od (c :: l)) {k o v : Nat}
    (hw : Writes (c :: l) k o v) : ∃ a, c.tr[k]? = some a ∧ a.what.counter = some o := by
  generalize hl : c :: l = m at h
  induction h generalizing c l with
  | init => cases hl; exact hw.elim
  | step _ hs he hS hch ih =>
    cases hl
    rcases hw with ⟨_, h1, _⟩ | hw
    · exact h1
    · obtain ⟨a, h1, h2⟩ := ih hw rfl
      exact ⟨a, tget_append h1, h2⟩

omit [BEq V] [Hashable V] in
/-- Writing the counter of an object is an access to it. -/
theorem counter_touch {w : What} {o : Nat} (h : w.counter = some o) : w.touch = some o := by
  cases w <;> simp_all [What.counter, What.touch]

/-- Whenever a step changes the counter of a box, or creates it, the trace of the step has a write of that counter. -/
theorem count_traced {s s' : State V} {obj : Addr → Nat} {act : Act V} {ch : Choice} {n : Nat} (hsane : act.Sane)
    (h : step cfg s act = .ok s') {b : Addr} {x' : Cell V} (hb' : get s'.heap b = some x') :
    (∃ x, get s.heap b = some x ∧ x.count = x'.count ∧ newObj s obj n act b = obj b) ∨
    ∃ a ∈ events cfg od s obj ch n act, a.what.counter = some (newObj s obj n act b) := by
  have same : ∀ s'' : State V, s''.heap = s.heap → get s''.heap b = some x' → newObj s obj n act b = obj b →
      (∃ x, get s.heap b = some x ∧ x.count = x'.count ∧ newObj s obj n act b = obj b) ∨
      ∃ a ∈ events cfg od s obj ch n act, a.what.counter = some (newObj s obj n act b) := by
    intro s'' h1 h2 h3; rw [h1] at h2; exact .inl ⟨x', h2, rfl, h3⟩
  have setc : ∀ (c : Addr) (k : Nat), get (setCount s.heap c k) b = some x' → newObj s obj n act b = obj b →
      (∃ a ∈ events cfg od s obj ch n act, a.what.counter = some (obj c)) →
      (∃ x, get s.heap b = some x ∧ x.count = x'.count ∧ newObj s obj n act b = obj b) ∨
      ∃ a ∈ events cfg od s obj ch n act, a.what.counter = some (newObj s obj n act b) := by
    intro c k h1 h2 h3
    by_cases hc : b = c
    · rw [h2, hc]; exact .inr h3
    · rw [get_setCount, if_neg hc] at h1
      exact .inl ⟨x', h1, rfl, h2⟩
  have frees : ∀ c : Addr, get (Arc.free s.heap c) b = some x' → newObj s obj n act b = obj b →
      (∃ x, get s.heap b = some x ∧ x.count = x'.count ∧ newObj s obj n act b = obj b) ∨
      ∃ a ∈ events cfg od s obj ch n act, a.what.counter = some (newObj s obj n act b) := by
    intro c h1 h2
    rw [get_free] at h1
    split at h1
    · cases h1
    · exact .inl ⟨x', h1, rfl, h2⟩
  cases step_R h with
  | run t a th s' ht hr =>
    cases hr with
    | alloc c hpc h0 hk =>
      by_cases hd : b = a
      · refine .inr ⟨⟨t, .make n⟩, ?_, ?_⟩
        · simp only [events, ht, runEvents, hpc]; exact List.mem_singleton.mpr rfl
        · simp [newObj, ht, hpc, hd, What.counter]
      · have h2 : get s.heap b = some x' := by
          simp only [State.setThread, get] at hb'
          rwa [if_neg (fun e => hd e.symm)] at hb'
        exact .inl ⟨x', h2, rfl, by simp [newObj, ht, hpc, hd]⟩
    | hit c sh d x hpc hx hc =>
      refine setc _ _ hb' (by simp [newObj, ht, hpc]) ⟨⟨t, .rmw (obj d) od.find⟩, ?_, rfl⟩
      simp [events, ht, runEvents, hpc]
    | dying c sh d x hpc hx hc =>
      refine setc _ _ hb' (by simp [newObj, ht, hpc]) ⟨⟨t, .rmw (obj d) od.find⟩, ?_, rfl⟩
      simp [events, ht, runEvents, hpc]
    | undo c sh d x hpc hx =>
      refine setc _ _ hb' (by simp [newObj, ht, hpc]) ⟨⟨t, .rmw (obj d) od.undo⟩, ?_, rfl⟩
      simp [events, ht, runEvents, hpc]
    | sub d x hpc hx hc =>
      refine setc _ _ hb' (by simp [newObj, ht, hpc]) ⟨⟨t, .rmw (obj d) od.drop⟩, ?_, rfl⟩
      simp [events, ht, runEvents, hpc]
    | subLast d x hpc hx hc =>
      refine setc _ _ hb' (by simp [newObj, ht, hpc]) ⟨⟨t, .rmw (obj d) od.drop⟩, ?_, rfl⟩
      simp [events, ht, runEvents, hpc]
    | unbox c d x hpc hx => exact frees _ hb' (by simp [newObj, ht, hpc])
    | free d x hpc hx => exact frees _ hb' (by simp [newObj, ht, hpc])
    | _ => exact same _ rfl hb' (by simp [newObj, *])
  | clone t path th q x ht hid hp hx =>
    refine setc _ _ hb' rfl ⟨⟨t, .rmw (obj q) od.clone⟩, ?_, rfl⟩
    simp [events, hp]
  | panicInsert => exact absurd hsane (by simp [Act.Sane])
  | _ => exact same _ rfl hb' rfl

theorem max_below {P : Nat → Prop} (N : Nat) {k : Nat} (hk : k < N) (hp : P k) :
    ∃ m, m < N ∧ P m ∧ ∀ k', k' < N → P k' → k' ≤ m := by
  induction N with
  | zero => exact absurd hk (Nat.not_lt_zero _)
  | succ N ih =>
    by_cases h : P N
    · exact ⟨N, Nat.lt_succ_self _, h, fun k' h1 _ => Nat.le_of_lt_succ h1⟩
    · have hkN : k < N := by
        rcases Nat.lt_or_eq_of_le (Nat.le_of_lt_succ hk) with h1 | h1
        · exact h1
        · exact absurd (h1 ▸ hp) h
      obtain ⟨m, h1, h2, h3⟩ := ih hkN
      refine ⟨m, Nat.lt_succ_of_lt h1, h2, fun k' h4 h5 => ?_⟩
      rcases Nat.lt_or_eq_of_le (Nat.le_of_lt_succ h4) with h6 | h6
      · exact h3 k' h6 h5
      · exact absurd (h6 ▸ h5) h

/-- The last write of the counter of an existing box wrote its current value. -/
theorem last_write [LawfulHashable V] [EquivBEq V] (hod : od.drop.acquires = true ∧ od.drop.releases = true)
    (hv : cfg.Valid) {c : Instant V} {l : List (Instant V)}
    (h : Instants cfg od (c :: l)) {b : Addr} {x : Cell V} (hb : get c.s.heap b = some x) :
    ∃ k, Writes (c :: l) k (c.obj b) x.count ∧
      ∀ k' v', Writes (c :: l) k' (c.obj b) v' → k' < k ∨ k' = k ∧ v' = x.count := by
  generalize hl : c :: l = m at h
  induction h generalizing c l b x with
  | init => cases hl; cases hb
  | @step c0 l0 s' a ch h0 hs he hS hch ih =>
    cases hl
    simp only at hb
    have hT : Instants cfg od (⟨s', newObj c0.s c0.obj c0.tr.length a, newOwn cfg c0.s c0.own ch c0.tr.length a,
        c0.tr ++ events cfg od c0.s c0.obj ch c0.tr.length a⟩ :: c0 :: l0) := h0.step hs he hS hch
    have J := traced_J hod hv hT.traced
    -- all writes of the last step write the same value
    have val : ∀ k v, (c0.tr.length ≤ k ∧ (∃ e, (c0.tr ++ events cfg od c0.s c0.obj ch c0.tr.length a)[k]? = some e ∧
        e.what.counter = some (newObj c0.s c0.obj c0.tr.length a b)) ∧
        ∃ d y, get s'.heap d = some y ∧ newObj c0.s c0.obj c0.tr.length a d = newObj c0.s c0.obj c0.tr.length a b ∧ y.count = v) →
        v = x.count := by
      rintro k v ⟨_, _, d, y, h1, h2, h3⟩
      have := J.inj d b _ _ (deref_of_get h1) (deref_of_get hb) h2
      subst this
      rw [h1] at hb; cases hb; exact h3.symm
    by_cases hev : ∃ e ∈ events cfg od c0.s c0.obj ch c0.tr.length a,
        e.what.counter = some (newObj c0.s c0.obj c0.tr.length a b)
    · obtain ⟨e, he1, he2⟩ := hev
      obtain ⟨i, hi, hie⟩ := List.getElem_of_mem he1
      have hget : (c0.tr ++ events cfg od c0.s c0.obj ch c0.tr.length a)[c0.tr.length + i]? = some e := by
        rw [List.getElem?_append_right (Nat.le_add_right _ _), Nat.add_sub_cancel_left, List.getElem?_eq_getElem hi, hie]
      obtain ⟨k, hk1, ⟨hk2, hk3⟩, hk4⟩ := max_below (P := fun k => c0.tr.length ≤ k ∧
          ∃ e, (c0.tr ++ events cfg od c0.s c0.obj ch c0.tr.length a)[k]? = some e ∧
            e.what.counter = some (newObj c0.s c0.obj c0.tr.length a b))
          (c0.tr ++ events cfg od c0.s c0.obj ch c0.tr.length a).length (tget_lt hget)
          ⟨Nat.le_add_right _ _, e, hget, he2⟩
      refine ⟨k, .inl ⟨hk2, hk3, b, x, hb, rfl, rfl⟩, fun k' v' hw => ?_⟩
      rcases hw with hw | hw
      · have h1 := val k' v' hw
        obtain ⟨h2, ⟨e', h3, h4⟩, _⟩ := hw
        rcases Nat.lt_or_eq_of_le (hk4 k' (tget_lt h3) ⟨h2, e', h3, h4⟩) with h5 | h5
        · exact .inl h5
        · exact .inr ⟨h5, h1⟩
      · obtain ⟨e', h1, _⟩ := h0.event hw
        exact .inl (Nat.lt_of_lt_of_le (tget_lt h1) hk2)
    · rcases count_traced (od := od) (obj := c0.obj) (ch := ch) (n := c0.tr.length) hs he hb with ⟨y, h1, h2, h3⟩ | h1
      · obtain ⟨k, hk1, hk2⟩ := ih h1 rfl
        rw [h2] at hk1 hk2
        refine ⟨k, .inr ?_, fun k' v' hw => ?_⟩
        · show Writes (c0 :: l0) k (newObj c0.s c0.obj c0.tr.length a b) x.count
          rw [h3]; exact hk1
        · rcases hw with ⟨h4, ⟨e, h5, h6⟩, _⟩ | hw
          · rcases tget_cases h5 with h7 | ⟨_, h7⟩
            · exact absurd (tget_lt h7) (Nat.not_lt.mpr h4)
            · exact absurd ⟨e, h7, h6⟩ hev
          · refine hk2 k' v' ?_
            have hw : Writes (c0 :: l0) k' (newObj c0.s c0.obj c0.tr.length a b) v' := hw
            rwa [h3] at hw
      · exact absurd h1 hev

/-- Boxes a thread has made and not yet inserted or destroyed. -/
def Pc.fresh : Pc V → List Addr
  | .dropFree _ => []
  | pc => pc.priv

omit [Hashable V] in
theorem fresh_count [Hashable V] {s : State V} (hI : Inv cfg s) {t : Tid} {th : Thread V} (ht : s.threads[t]? = some th) {b : Addr}
    (hb : b ∈ th.pc.fresh) : ∃ x, get s.heap b = some x ∧ x.count = 1 := by
  have h := (hI.th t th ht).pc
  cases hpc : th.pc <;> simp only [hpc, Pc.fresh, Pc.priv, List.mem_singleton, Option.mem_toList, List.not_mem_nil, PcInv, callOk] at h hb
  all_goals first
    | (exact ⟨_, h.2.2.2 b hb, rfl⟩)
    | (exact ⟨_, h.1.2.2.2 b hb, rfl⟩)
    | (subst hb; exact ⟨_, h.2.2.1, rfl⟩)
    | (subst hb; exact ⟨_, h.2.2.2, rfl⟩)
    | (subst hb; exact ⟨_, h.2.2, rfl⟩)

omit [BEq V] [Hashable V] in
theorem unwind_fresh (c : Call V) (r : Option Addr) (v : Option V) : (unwindCall cfg c r v).pc.fresh = [] := by
  unfold unwindCall
  split <;> rfl

/-- A fresh box was fresh before the step, or was made by it. -/
theorem fresh_step {s s' : State V} (hI : Inv cfg s) {act : Act V} (hsane : act.Sane) (h : step cfg s act = .ok s') {u : Tid}
    {th' : Thread V} (hu : s'.threads[u]? = some th') {b : Addr} (hb : b ∈ th'.pc.fresh) :
    (∃ th, s.threads[u]? = some th ∧ b ∈ th.pc.fresh) ∨
    ∃ t a th c, act = .run t a ∧ s.threads[t]? = some th ∧ th.pc = .newAlloc c ∧ b = a := by
  have key : ∀ {t : Tid} {th : Thread V} {y : Thread V}, s.threads[t]? = some th → (s.threads.set t y)[u]? = some th' →
      (∀ b ∈ y.pc.fresh, b ∈ th.pc.fresh) → ∃ th, s.threads[u]? = some th ∧ b ∈ th.pc.fresh := by
    intro t th y ht hy hsub
    rw [set_getElem? _ _ _ _ _ ht] at hy
    split at hy
    · rename_i e; subst e; cases hy; exact ⟨th, ht, hsub b hb⟩
    · exact ⟨th', hy, hb⟩
  cases step_R h with
  | spawn =>
    simp only at hu
    rw [List.getElem?_append] at hu
    split at hu
    · exact .inl ⟨th', hu, hb⟩
    · obtain ⟨_, rfl⟩ := List.getElem?_eq_some_iff.mp hu
      have := List.getElem?_eq_some_iff.mp hu
      simp [Pc.fresh, Pc.priv] at hb
  | run t a th s' ht hr =>
    cases hr with
    | alloc c hpc h0 hk =>
      have hu : (s.threads.set t _)[u]? = some th' := hu
      rw [set_getElem? _ _ _ _ _ ht] at hu
      split at hu
      · cases hu
        simp [Pc.fresh, Pc.priv] at hb
        exact .inr ⟨t, a, th, c, rfl, ht, hpc, hb⟩
      · exact .inl ⟨th', hu, hb⟩
    | hitRet c sh d hpc => exact .inl (key ht hu (by simp [unwind_fresh]))
    | unbox c d x hpc hx =>
      have := (hI.th t th ht).pc
      simp only [hpc, PcInv] at this
      exact .inl (key ht hu (by simp [Pc.fresh, Pc.priv, this.2.1]))
    | _ =>
      refine .inl (key ht hu ?_)
      simp_all [Pc.fresh, Pc.priv]
  | clone t path th q x ht hid hp hx => exact .inl ⟨th', hu, hb⟩
  | read => exact .inl ⟨th', hu, hb⟩
  | panicInsert => exact absurd hsane (by simp [Act.Sane])
  | new t v dst th ht => exact .inl (key ht hu (by simp [Pc.fresh, Pc.priv]))
  | drop t p th ht => exact .inl (key ht hu (by simp [Pc.fresh, Pc.priv]))
  | len t lo up th ht => exact .inl (key ht hu (by simp [Pc.fresh, Pc.priv]))
  | shrink t lo up th ht => exact .inl (key ht hu (by simp [Pc.fresh, Pc.priv]))
  | panicLoop t th c ht hpc => exact .inl (key ht hu (by simp [unwind_fresh]))
  | panicEntry t th c b ht hpc => exact .inl (key ht hu (by simp [Pc.fresh, Pc.priv]))
  | panicRemove t th b ht hpc => exact .inl (key ht hu (by simp [Pc.fresh, Pc.priv]))
  | panicShrink t th i m ht hpc => exact .inl (key ht hu (by simp [Pc.fresh, Pc.priv]))

/-- An existing box stays the same object. -/
theorem newObj_old {s s' : State V} {obj : Addr → Nat} {n : Nat} {act : Act V} (h : step cfg s act = .ok s') {b : Addr}
    {x : Cell V} (hb : get s.heap b = some x) : newObj s obj n act b = obj b := by
  cases step_R h with
  | run t a th s' ht hr =>
    cases hr with
    | alloc c hpc h0 hk =>
      have hne : b ≠ a := by
        rintro rfl
        rw [(get_none _ _).mpr hk] at hb; cases hb
      simp [newObj, ht, hpc, hne]
    | _ => simp [newObj, *]
  | _ => rfl

/-- The counter of a box that is not yet inserted has only ever been 1. -/
theorem fresh_writes [LawfulHashable V] [EquivBEq V] (hod : od.drop.acquires = true ∧ od.drop.releases = true)
    (hv : cfg.Valid) {c : Instant V} {l : List (Instant V)} (h : Instants cfg od (c :: l)) {u : Tid} {th : Thread V}
    (hu : c.s.threads[u]? = some th) {b : Addr} (hb : b ∈ th.pc.fresh) {k v : Nat}
    (hw : Writes (c :: l) k (c.obj b) v) : v = 1 := by
  generalize hl : c :: l = m at h
  induction h generalizing c l b u th k v with
  | init => cases hl; exact hw.elim
  | @step c0 l0 s' a ch h0 hs he hS hch ih =>
    cases hl
    have hT := h0.step hs he hS hch
    have J := traced_J hod hv hT.traced
    have J0 := traced_J hod hv h0.traced
    have hI := reach_inv hv (traced_reach hT.traced)
    have hI0 := reach_inv hv (traced_reach h0.traced)
    rcases hw with ⟨_, _, d, y, h1, h2, h3⟩ | hw
    · obtain ⟨x, hx, hx1⟩ := fresh_count hI hu hb
      have := J.inj d b _ _ (deref_of_get h1) (deref_of_get hx) h2
      subst this
      simp only at h1 hx
      rw [h1] at hx; cases hx; rw [← h3]; exact hx1
    · have hw : Writes (c0 :: l0) k (newObj c0.s c0.obj c0.tr.length a b) v := hw
      rcases fresh_step hI0 hs he hu hb with ⟨th0, h1, h2⟩ | ⟨t, d, th0, cc, rfl, h1, h2, rfl⟩
      · obtain ⟨x, hx, _⟩ := fresh_count hI0 h1 h2
        rw [newObj_old he hx] at hw
        exact ih h1 h2 hw rfl
      · obtain ⟨e, h3, h4⟩ := h0.event hw
        obtain ⟨⟨w, h5⟩, _⟩ := J0.born k e _ h3 (.inl (counter_touch h4))
        have : newObj c0.s c0.obj c0.tr.length (.run t b) b = c0.tr.length := by simp [newObj, h1, h2]
        rw [this] at h5
        exact absurd (tget_lt h5) (Nat.lt_irrefl _)

/-- An object gets its first handle when it is inserted. -/
theorem first_handle [LawfulHashable V] [EquivBEq V] {s s' : State V} (hI : Inv cfg s) {act : Act V} (hsane : act.Sane)
    (h : step cfg s act = .ok s') {b : Addr} (hz : A cfg s b = 0) (hb : 0 < A cfg s' b) :
    ∃ t d th cc sh, act = .run t d ∧ s.threads[t]? = some th ∧ th.pc = .newVacant cc sh b := by
  have hc := step_counts hI hsane h b
  have one : ∀ q : Addr, A cfg s' b = A cfg s b + [q].count b → q = b := by
    intro q hq
    by_cases e : q = b
    · exact e
    · rw [List.count_cons_of_ne e, List.count_nil] at hq; omega
  cases act with
  | clone t path =>
    simp only [effect] at hc
    cases hp : borrow cfg s path with
    | ok q =>
      simp only [hp] at hc
      have := one q hc; subst this
      have := (borrow_ok hI path).2 q hp; omega
    | blocked => simp only [hp] at hc; omega
    | ub => simp only [hp] at hc; omega
  | run t a =>
    cases step_R h with
    | run _ _ th s' ht hr =>
      simp only [effect, ht] at hc
      cases hpc : th.pc with
      | newFound c sh d =>
        simp only [hpc] at hc
        cases hx : get s.heap d with
        | none => simp only [hx] at hc; omega
        | some x =>
          simp only [hx] at hc
          by_cases h0 : x.count = 0
          · simp only [h0, ne_eq, not_true_eq_false, if_false] at hc; omega
          · simp only [ne_eq, h0, not_false_eq_true, if_true] at hc
            have := one d hc; subst this
            have hi := (hI.th t th ht).pc
            rw [hpc] at hi
            obtain ⟨_, h2, h3, y, h4, h5⟩ := hi
            rw [hx] at h4; cases h4
            have hu := hI.no_undo ht hx (by rw [hpc, shardOf_congr h5, ← h2]; rfl) (by simp [hpc, Pc.undoing])
            have := hI.cnt d x (List.count_pos_iff.mpr h3) hx
            omega
      | newVacant c sh d =>
        simp only [hpc] at hc
        have := one d hc; subst this
        exact ⟨t, a, th, c, sh, rfl, ht, hpc⟩
      | dropSub d => simp only [hpc] at hc; omega
      | _ => simp only [hpc] at hc; omega
  | _ => simp only [effect] at hc; omega

/-- Every value ever written to the counter of an object that has a handle was, at some instant not before the write,
the exact number of handles. -/
theorem writes_exact [LawfulHashable V] [EquivBEq V] (hod : od.drop.acquires = true ∧ od.drop.releases = true)
    (hv : cfg.Valid) {c : Instant V} {l : List (Instant V)} (h : Instants cfg od (c :: l)) {b : Addr}
    (hb : 0 < A cfg c.s b) {k v : Nat} (hw : Writes (c :: l) k (c.obj b) v) :
    0 < v ∧ ∃ c1 ∈ c :: l, c1.obj b = c.obj b ∧ k < c1.tr.length ∧ v = A cfg c1.s b := by
  generalize hl : c :: l = m at h
  induction h generalizing c l b k v with
  | init => cases hl; exact hw.elim
  | @step c0 l0 s' a ch h0 hs he hS hch ih =>
    cases hl
    have hT := h0.step hs he hS hch
    have J := traced_J hod hv hT.traced
    have hI := reach_inv hv (traced_reach hT.traced)
    have hI0 := reach_inv hv (traced_reach h0.traced)
    simp only at hb J hI hw
    obtain ⟨x, hx⟩ := hI.deref hb
    have hcnt : x.count = A cfg s' b := by
      have h1 := hI.cnt b x (hI.live b hb) hx
      have h2 : U s' b = 0 := by
        rcases Nat.eq_zero_or_pos (U s' b) with h | h
        · exact h
        · have := (hI.undo b h).2; omega
      omega
    rcases hw with ⟨_, ⟨e, he1, _⟩, d, y, h1, h2, h3⟩ | hw
    · have := J.inj d b _ _ (deref_of_get h1) (deref_of_get hx) h2
      subst this
      simp only at h1 hx
      rw [h1] at hx; cases hx
      have : v = A cfg s' d := h3.symm.trans hcnt
      exact ⟨this ▸ hb, _, List.mem_cons_self .., rfl, tget_lt he1, this⟩
    · have hw : Writes (c0 :: l0) k (newObj c0.s c0.obj c0.tr.length a b) v := hw
      rcases Nat.eq_zero_or_pos (A cfg c0.s b) with hz | hpos
      · have hc := step_counts hI0 hs he b
        have hins : ∃ t d th cc sh, a = .run t d ∧ c0.s.threads[t]? = some th ∧ th.pc = .newVacant cc sh b := by
          exact first_handle hI0 hs he hz hb
        obtain ⟨t, d, th, cc, sh, rfl, ht, hpc⟩ := hins
        have hf : b ∈ th.pc.fresh := by simp [hpc, Pc.fresh, Pc.priv]
        obtain ⟨y, hy, hy1⟩ := fresh_count hI0 ht hf
        rw [newObj_old he hy] at hw
        have hv1 := fresh_writes hod hv h0 ht hf hw
        obtain ⟨e, h3, h4⟩ := h0.event hw
        have : A cfg s' b = 1 := by
          simp only [effect, ht, hpc, List.count_singleton_self] at hc
          omega
        refine ⟨by omega, _, List.mem_cons_self .., rfl, ?_, hv1.trans this.symm⟩
        simp only [List.length_append]
        exact Nat.lt_of_lt_of_le (tget_lt h3) (Nat.le_add_right _ _)
      · obtain ⟨y, hy⟩ := hI0.deref hpos
        rw [newObj_old he hy] at hw
        obtain ⟨h1, c1, h2, h3, h4, h5⟩ := ih hpos hw rfl
        exact ⟨h1, c1, List.mem_cons_of_mem _ h2, h3.trans (newObj_old he hy).symm, h4, h5⟩

/-! ### C58 -/

/-- C58: whatever `refcount()` returns on a handle that client code owns (`path = []`) or reaches through values from one it
owns, is not 0 and was the exact number of handles to the object at some instant of the execution. That instant comes
after every operation on the counter (of `new`, `clone` or `drop`) that happens before the call. -/
theorem C58_refcount_was_exact [LawfulHashable V] [EquivBEq V] (hv : cfg.Valid) {c : Instant V} {l : List (Instant V)}
    (h : Instants cfg Orders.code (c :: l)) {t : Tid} {n : Nat} {p q : Addr} {path : List Addr}
    (hq : borrow cfg c.s (p :: path) = .ok q) {v : Nat} (hr : MayReturn (c :: l) c.tr t n (c.obj q) v) :
    0 < v ∧ ∃ c1 ∈ c :: l, c1.obj q = c.obj q ∧ v = (allHandles cfg c1.s).count q ∧
      ∀ k' v', Writes (c :: l) k' (c.obj q) v' → HB (c.tr ++ [⟨t, .use n⟩]) k' c.tr.length → k' < c1.tr.length := by
  have hI := reach_inv hv (traced_reach h.traced)
  obtain ⟨k, h1, h2⟩ := hr
  obtain ⟨h3, c1, h4, h5, h6, h7⟩ := writes_exact ⟨rfl, rfl⟩ hv h ((borrow_ok hI (p :: path)).2 q hq) h1
  exact ⟨h3, c1, h4, h5, h7, fun k' v' h8 h9 => Nat.lt_of_le_of_lt (h2 k' v' h8 h9) h6⟩

/-- If every operation on the counter so far happens before the call (for instance because the other threads have been
joined), `refcount()` is exact. -/
theorem C58_refcount_exact_when_ordered [LawfulHashable V] [EquivBEq V] (hv : cfg.Valid) {c : Instant V}
    {l : List (Instant V)} (h : Instants cfg Orders.code (c :: l)) {t : Tid} {n : Nat} {p q : Addr} {path : List Addr}
    (hq : borrow cfg c.s (p :: path) = .ok q)
    (hall : ∀ k' v', Writes (c :: l) k' (c.obj q) v' → HB (c.tr ++ [⟨t, .use n⟩]) k' c.tr.length) {v : Nat}
    (hr : MayReturn (c :: l) c.tr t n (c.obj q) v) : v = (allHandles cfg c.s).count q := by
  have hI := reach_inv hv (traced_reach h.traced)
  have hA := (borrow_ok hI (p :: path)).2 q hq
  obtain ⟨x, hx⟩ := hI.deref hA
  obtain ⟨k, h1, h2⟩ := hr
  obtain ⟨k0, h3, h4⟩ := last_write ⟨rfl, rfl⟩ hv h hx
  have h5 := h2 k0 _ h3 (hall _ _ h3)
  have h6 : v = x.count := by
    rcases h4 k v h1 with h | h
    · omega
    · exact h.2
  have h7 := hI.cnt q x (hI.live q hA) hx
  rcases Nat.eq_zero_or_pos (U c.s q) with h8 | h8
  · have : A cfg c.s q = (allHandles cfg c.s).count q := rfl
    omega
  · have := (hI.undo q h8).2; omega

/-- The current number of handles is always a possible result, in particular there is one. -/
theorem C58_current_possible [LawfulHashable V] [EquivBEq V] (hv : cfg.Valid) {c : Instant V}
    {l : List (Instant V)} (h : Instants cfg Orders.code (c :: l)) {t : Tid} {n : Nat} {p q : Addr} {path : List Addr}
    (hq : borrow cfg c.s (p :: path) = .ok q) :
    MayReturn (c :: l) c.tr t n (c.obj q) ((allHandles cfg c.s).count q) := by
  have hI := reach_inv hv (traced_reach h.traced)
  have hA := (borrow_ok hI (p :: path)).2 q hq
  obtain ⟨x, hx⟩ := hI.deref hA
  obtain ⟨k0, h3, h4⟩ := last_write ⟨rfl, rfl⟩ hv h hx
  have h7 := hI.cnt q x (hI.live q hA) hx
  have h6 : (allHandles cfg c.s).count q = x.count := by
    rcases Nat.eq_zero_or_pos (U c.s q) with h8 | h8
    · have : A cfg c.s q = (allHandles cfg c.s).count q := rfl
      omega
    · have := (hI.undo q h8).2; omega
  rw [h6]
  refine ⟨k0, h3, fun k' v' h8 _ => ?_⟩
  rcases h4 k' v' h8 with h | h <;> omega

/-! ### Concrete executions -/

/-- Run actions with choices, keeping all instants. -/
def instants (cfg : Cfg V) (od : Orders) : List (Act V × Choice) → List (Instant V) → Option (List (Instant V))
  | [], l => some l
  | _ :: _, [] => none
  | (a, ch) :: as, c :: l => match step cfg c.s a with
    | .ok s' => if a.sane && decide ((allHandles cfg s').length < cfg.W) && okChoice cfg c.s c.own ch a then
        instants cfg od as (⟨s', newObj c.s c.obj c.tr.length a, newOwn cfg c.s c.own ch c.tr.length a,
          c.tr ++ events cfg od c.s c.obj ch c.tr.length a⟩ :: c :: l)
      else none
    | _ => none

theorem instants_ok (as : List (Act V × Choice)) : ∀ {l m : List (Instant V)},
    Instants cfg od l → instants cfg od as l = some m → Instants cfg od m := by
  induction as with
  | nil => intro l m h e; simp only [instants, Option.some.injEq] at e; exact e ▸ h
  | cons a as ih =>
    intro l m h e
    obtain ⟨a, ch⟩ := a
    cases l with
    | nil => cases e
    | cons c l =>
      simp only [instants] at e
      cases hs : step cfg c.s a with
      | ok s1 =>
        simp only [hs] at e
        split at e
        · rename_i hc
          simp only [Bool.and_eq_true, decide_eq_true_eq] at hc
          refine ih (h.step ?_ hs (small_of_length hc.1.2) (okChoice_ok hc.2)) e
          cases a <;> simp_all [Act.Sane, Act.sane]
        · cases e
      | blocked => simp [hs] at e
      | ub => simp [hs] at e

/-- Executable sufficient condition for `Writes`. -/
def writesB : List (Instant V) → Nat → Nat → Nat → Bool
  | c' :: c :: l, k, o, v =>
    (decide (c.tr.length ≤ k) && (c'.tr[k]?).any (fun a => a.what.counter == some o) &&
      c'.s.heap.any (fun e => c'.obj e.1 == o && (get c'.s.heap e.1).any (fun x => x.count == v))) || writesB (c :: l) k o v
  | _, _, _, _ => false

omit [BEq V] [Hashable V] in
theorem writesB_ok : ∀ {l : List (Instant V)} {k o v : Nat}, writesB l k o v = true → Writes l k o v
  | [], _, _, _, h => by cases h
  | [_], _, _, _, h => by cases h
  | c' :: c :: l, k, o, v, h => by
    simp only [writesB, Bool.or_eq_true, Bool.and_eq_true, decide_eq_true_eq, List.any_eq_true, beq_iff_eq,
      Option.any_eq_true_iff_get] at h
    rcases h with ⟨⟨h1, h2⟩, e, _, h3, h4⟩ | h
    · obtain ⟨h5, h6⟩ := h2
      obtain ⟨h7, h8⟩ := h4
      exact .inl ⟨h1, ⟨_, (Option.some_get h5).symm, h6⟩, e.1, _, (Option.some_get h7).symm, h3, h8⟩
    · exact .inr (writesB_ok h)

/-- Thread 0 interns a value at address 10 (object 3, handle 9), thread 1 clones it (handle 10). -/
def sharedTrace : List (Act Val × Choice) :=
  [(.spawn, {}), (.spawn, {}), (.new 0 ⟨5, 1, []⟩ false, {}), go 0, go 0 10, (.run 0 0, { before := [10] }), go 0, go 0, go 0,
   (.clone 1 [10], { h := 9 })]

/-- Thread 1 then drops the clone. -/
def droppedTrace : List (Act Val × Choice) := sharedTrace ++ [(.drop 1 10, { h := 10 }), go 1]

def demoInstants (as : List (Act Val × Choice)) : List (Instant Val) :=
  (instants demoCfg Orders.code as [⟨init, fun _ => 0, [], []⟩]).getD []

def demoTrace (as : List (Act Val × Choice)) : List Ev := ((demoInstants as).head?.map (·.tr)).getD []

theorem demo_instants {as : List (Act Val × Choice)}
    (h : (instants demoCfg Orders.code as [⟨init, fun _ => 0, [], []⟩]).isSome = true) :
    Instants demoCfg Orders.code (demoInstants as) := by
  obtain ⟨x, hx⟩ := Option.isSome_iff_exists.mp h
  have := instants_ok _ .init hx
  have e : demoInstants as = x := by simp only [demoInstants, hx, Option.getD_some]
  exact e ▸ this

/-- `refcount()` can be out of date in both directions: it may return 1 although another handle exists, and 2 although
no other handle exists any more. (Thread 0 calls it on its own handle; the other thread's operations do not happen before
the call.) -/
theorem C58_stale :
    (∃ (c : Instant Val) (l : List (Instant Val)), Instants demoCfg Orders.code (c :: l) ∧ (9, 10) ∈ c.own ∧
      MayReturn (c :: l) c.tr 0 9 (c.obj 10) 1 ∧ (allHandles demoCfg c.s).count 10 = 2) ∧
    (∃ (c : Instant Val) (l : List (Instant Val)), Instants demoCfg Orders.code (c :: l) ∧ (9, 10) ∈ c.own ∧
      MayReturn (c :: l) c.tr 0 9 (c.obj 10) 2 ∧ (allHandles demoCfg c.s).count 10 = 1) := by
  have key : ∀ (as : List (Act Val × Choice)) (N k v w : Nat),
      (instants demoCfg Orders.code as [⟨init, fun _ => 0, [], []⟩]).isSome = true →
      ((demoInstants as).head?.any fun c => c.own.elem (9, 10) && c.obj 10 == 3 &&
        (allHandles demoCfg c.s).count 10 == w && c.tr.length == N) = true →
      writesB (demoInstants as) k 3 v = true →
      (∀ k', k < k' → HB (demoTrace as ++ [⟨0, .use 9⟩]) k' N → (demoTrace as)[k']?.any (fun a => a.what.counter == some 3) = false) →
      ∃ (c : Instant Val) (l : List (Instant Val)), Instants demoCfg Orders.code (c :: l) ∧ (9, 10) ∈ c.own ∧
        MayReturn (c :: l) c.tr 0 9 (c.obj 10) v ∧ (allHandles demoCfg c.s).count 10 = w := by
    intro as N k v w h1 h2 h3 h4
    have hI := demo_instants h1
    cases hl : demoInstants as with
    | nil => rw [hl] at h2; cases h2
    | cons c l =>
      have htr : demoTrace as = c.tr := by simp [demoTrace, hl]
      rw [hl] at hI h3
      simp only [hl, List.head?_cons, Option.any_some, Bool.and_eq_true, List.elem_eq_mem, decide_eq_true_eq, beq_iff_eq] at h2
      rw [htr] at h4
      obtain ⟨⟨⟨h5, h6⟩, h7⟩, h8⟩ := h2
      refine ⟨c, l, hI, h5, ?_, h7⟩
      rw [h6]
      refine ⟨k, writesB_ok h3, fun k' v' hw hb => ?_⟩
      rw [h8] at hb
      rcases Nat.lt_or_ge k k' with hlt | hge
      · have h9 := h4 k' hlt hb
        obtain ⟨a, ha1, ha2⟩ := hI.event hw
        rw [ha1] at h9
        simp [ha2] at h9
      · exact hge
  have dec : ∀ (tr : List Ev) (k N : Nat) (S : Nat → Bool),
      (∀ i ∈ List.range (tr ++ [(⟨0, .use 9⟩ : Ev)]).length, ∀ j ∈ List.range (tr ++ [(⟨0, .use 9⟩ : Ev)]).length, i < j → S i = true → S j = false →
        ∀ a ∈ (tr ++ [(⟨0, .use 9⟩ : Ev)])[i]?, ∀ b ∈ (tr ++ [(⟨0, .use 9⟩ : Ev)])[j]?, ¬ (a.tid = b.tid ∨ Sync a.what b.what)) →
      S N = false → (∀ k' ∈ List.range tr.length, k < k' → S k' = true ∨ tr[k']?.any (fun a => a.what.counter == some 3) = false) →
      ∀ k', k < k' → HB (tr ++ [⟨0, .use 9⟩]) k' N → tr[k']?.any (fun a => a.what.counter == some 3) = false := by
    intro tr k N S h1 h2 h3 k' h4 h5
    by_cases hlt : k' < tr.length
    · rcases h3 k' (List.mem_range.mpr hlt) h4 with h6 | h6
      · have := hb_closed S h1 h5 h6
        rw [h2] at this; cases this
      · exact h6
    · rw [List.getElem?_eq_none (Nat.le_of_not_lt hlt)]; rfl
  refine ⟨key sharedTrace 14 3 1 2 (by decide) (by decide) (by decide) ?_,
    key droppedTrace 16 11 2 1 (by decide) (by decide) (by decide) ?_⟩
  · exact dec _ _ _ (fun i => decide (11 ≤ i ∧ i ≤ 13)) (by decide) (by decide) (by decide)
  · exact dec _ _ _ (fun i => decide (11 ≤ i ∧ i ≤ 15)) (by decide) (by decide) (by decide)

theorem own_borrow {c : Instant Val} {l : List (Instant Val)} (h : Instants demoCfg Orders.code (c :: l)) {p : Addr}
    (hp : p ∈ c.s.handles) : borrow demoCfg c.s [p] = .ok p := by
  obtain ⟨x, hx⟩ := (reach_inv demoCfg_valid (traced_reach h.traced)).deref (handles_A hp)
  simp [borrow, hp, follow, hx]

/-- The hypotheses of `C58_refcount_was_exact` are met with an out-of-date result. -/
example : ∃ (c : Instant Val) (l : List (Instant Val)) (c1 : Instant Val), Instants demoCfg Orders.code (c :: l) ∧
    c1 ∈ c :: l ∧ (allHandles demoCfg c1.s).count 10 = 1 ∧ (allHandles demoCfg c.s).count 10 = 2 := by
  obtain ⟨⟨c, l, h1, h2, h3, h4⟩, _⟩ := C58_stale
  have h5 : 10 ∈ c.s.handles := own_mem h1.traced 9 10 h2
  have h6 : borrow demoCfg c.s [10] = .ok 10 := own_borrow h1 h5
  obtain ⟨_, c1, h7, _, h8, _⟩ := C58_refcount_was_exact demoCfg_valid h1 h6 h3
  exact ⟨c, l, c1, h1, h7, h8.symm, h4⟩

/-- The hypotheses of `C58_refcount_exact_when_ordered` and `C58_current_possible` are met: thread 1, which cloned the
handle itself, can only get 2. -/
example : ∃ (c : Instant Val) (l : List (Instant Val)), Instants demoCfg Orders.code (c :: l) ∧
    MayReturn (c :: l) c.tr 1 9 (c.obj 10) 2 ∧ ∀ v, MayReturn (c :: l) c.tr 1 9 (c.obj 10) v → v = 2 := by
  have h1 := demo_instants (as := sharedTrace) (by decide)
  have h2 : ((demoInstants sharedTrace).head?.any fun c => c.s.handles.elem 10 && c.obj 10 == 3 &&
        (allHandles demoCfg c.s).count 10 == 2) = true := by decide
  have hev : ∀ i ∈ List.range (demoTrace sharedTrace).length,
      (demoTrace sharedTrace)[i]?.any (fun a => a.what.counter == some 3) = true → i = 3 ∨ i = 11 := by decide
  have hat : (demoTrace sharedTrace ++ [⟨1, .use 9⟩])[14]? = some ⟨1, .use 9⟩ ∧
      (demoTrace sharedTrace ++ [⟨1, .use 9⟩])[11]? = some ⟨1, .rmw 3 .relaxed⟩ ∧
      (demoTrace sharedTrace ++ [⟨1, .use 9⟩])[9]? = some ⟨0, .got 9⟩ ∧
      (demoTrace sharedTrace ++ [⟨1, .use 9⟩])[3]? = some ⟨0, .make 3⟩ ∧ (demoTrace sharedTrace).length = 14 := by decide
  cases hl : demoInstants sharedTrace with
  | nil => rw [hl] at h2; cases h2
  | cons c l =>
    have htr : demoTrace sharedTrace = c.tr := by simp [demoTrace, hl]
    rw [hl] at h1
    simp only [hl, List.head?_cons, Option.any_some, Bool.and_eq_true, List.elem_eq_mem, decide_eq_true_eq, beq_iff_eq] at h2
    rw [htr] at hev hat
    obtain ⟨⟨h5, h6⟩, h7⟩ := h2
    have hq : borrow demoCfg c.s [10] = .ok 10 := own_borrow h1 h5
    refine ⟨c, l, h1, ?_, fun v hv => ?_⟩
    · rw [← h7]; exact C58_current_possible demoCfg_valid h1 hq
    · rw [← h7]
      refine C58_refcount_exact_when_ordered demoCfg_valid h1 hq (fun k' v' hw => ?_) hv
      obtain ⟨a, ha1, ha2⟩ := h1.event hw
      rw [h6] at ha2
      obtain ⟨e1, e2, e3, e4, e5⟩ := hat
      rw [e5]
      rcases hev k' (List.mem_range.mpr (tget_lt ha1)) (by simp [ha1, ha2]) with rfl | rfl
      · exact (HB.edge (by decide) e4 e3 (.inl rfl)).trans (.edge (by decide) e3 e1 (.inr rfl))
      · exact .edge (by decide) e2 e1 (.inl rfl)

end Arc
