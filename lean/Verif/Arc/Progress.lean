import Verif.Arc.Effects
/-! When a step of a running call is possible. -/
namespace Arc
variable {V : Type} [BEq V] [Hashable V]

omit [BEq V] [Hashable V] in
theorem fresh_addr (h : List (Addr × Cell V)) : ∃ a : Addr, a ≠ 0 ∧ a ∉ keys h := by
  have : ∀ l : List Nat, ∃ m : Nat, ∀ x ∈ l, x < m := by
    intro l
    induction l with
    | nil => exact ⟨1, by simp⟩
    | cons y l ih =>
      obtain ⟨m, hm⟩ := ih
      refine ⟨m + y + 1, fun x hx => ?_⟩
      rcases List.mem_cons.mp hx with rfl | hx
      · omega
      · have := hm x hx; omega
  obtain ⟨m, hm⟩ := this (keys h)
  exact ⟨m + 1, Nat.succ_ne_zero m, fun h' => Nat.lt_irrefl _ (Nat.lt_of_succ_lt (hm _ h'))⟩

/-- A running call can always step, unless it waits for a lock that is taken. -/
theorem run_enabled [LawfulHashable V] [EquivBEq V] {cfg : Cfg V} (hv : cfg.Valid) {s : State V} (hI : Inv cfg s)
    {t : Tid} {th : Thread V} (ht : s.threads[t]? = some th) (hid : th.isIdle = false) {a : Addr}
    (ha : a ≠ 0 ∧ a ∉ keys s.heap ∨ ∀ c, th.pc ≠ .newAlloc c)
    (hw : ∀ i, th.pc.wants cfg s = some i → s.locks i = none) :
    ∃ s', step cfg s (.run t a) = .ok s' := by
  have hnub := (step_kept hv hI (act := .run t a) (by simp [Act.Sane])).1
  have hnb : step cfg s (.run t a) ≠ .blocked := by
    have hto := hI.tableOk
    simp only [step, ht]
    unfold run
    cases hpc : th.pc with
    | idle =>
      cases htodo : th.todo with
      | cons p ps => simp
      | nil =>
        cases hret : th.ret with
        | some b => simp
        | none => simp [Thread.isIdle, hpc, htodo, hret] at hid
    | newLoop c =>
      have := hw (cfg.shardOf c.val) (by simp [hpc, Pc.wants])
      cases hf : find s c.val <;> cases hc : c.conv <;> simp [this, hto, hf, hc]
    | newFound c sh b =>
      cases hx : get s.heap b with
      | none => simp [hx]
      | some x => by_cases hc : x.count = 0 <;> by_cases hc' : x.count = 1 <;> simp [hx, hc, hc']
    | newUndo c sh b => cases hx : get s.heap b <;> simp [hx]
    | newRelease c sh => simp
    | newHit c sh b => simp
    | newAlloc c =>
      rcases ha with ha | ha
      · simp [ha.1, ha.2]
      · exact absurd hpc (ha c)
    | newEntry c b =>
      cases hx : get s.heap b with
      | none => simp [hx]
      | some x =>
        have := hw (cfg.shardOf x.data) (by simp [hpc, Pc.wants, deref, hx])
        cases hf : find s x.data <;> simp [hx, this, hto, hf]
    | newVacant c sh b => simp
    | newInserted c sh b => simp
    | newOccupied c sh b => simp only; split <;> simp
    | newUnbox c b => cases hx : get s.heap b <;> simp [hx]
    | dropSub b =>
      cases hx : get s.heap b with
      | none => simp [hx]
      | some x => by_cases hc : x.count = 0 <;> by_cases hc' : x.count = 1 <;> simp [hx, hc, hc']
    | dropRemove b =>
      cases hx : get s.heap b with
      | none => simp [hx]
      | some x =>
        have := hw (cfg.shardOf x.data) (by simp [hpc, Pc.wants, deref, hx])
        cases hf : find s x.data <;> simp [hx, this, hto, hf]
    | dropFree b => cases hx : get s.heap b <;> simp [hx]
    | lenScan i m acc =>
      simp only
      split
      · rename_i hi
        have := hw i (by simp [hpc, Pc.wants, hi])
        simp [this]
      · simp
    | lenDone n => simp
    | shrinkScan i m =>
      simp only
      split
      · rename_i hi
        have := hw i (by simp [hpc, Pc.wants, hi])
        simp [this]
      · simp
  cases h : step cfg s (.run t a) with
  | ok s' => exact ⟨s', rfl⟩
  | blocked => exact absurd h hnb
  | ub => exact absurd h hnub

omit [BEq V] in
theorem holds_wants {cfg : Cfg V} {s : State V} {pc : Pc V} {i : Nat} (h : pc.holds = some i) :
    pc.wants cfg s = none ∧ (∀ c, pc ≠ .newAlloc c) := by
  cases pc <;> simp [Pc.holds] at h <;> simp [Pc.wants]

theorem holds_notIdle {th : Thread V} {i : Nat} (h : th.pc.holds = some i) : th.isIdle = false := by
  cases hid : th.isIdle with
  | false => rfl
  | true => rw [(isIdle_iff.mp hid).1] at h; cases h

/-- A thread holding a lock is never blocked. -/
theorem holder_enabled [LawfulHashable V] [EquivBEq V] {cfg : Cfg V} (hv : cfg.Valid) {s : State V} (hI : Inv cfg s)
    {i : Nat} {u : Tid} (h : s.locks i = some u) (a : Addr) : ∃ s', step cfg s (.run u a) = .ok s' := by
  obtain ⟨th, hu, hh⟩ := (hI.lk i u).mp h
  have := holds_wants (cfg := cfg) (s := s) hh
  exact run_enabled hv hI hu (holds_notIdle hh) (Or.inr this.2) (by rw [this.1]; simp)

/-- Conversely to `step_R`: the relation describes possible steps. -/
theorem R_step' {cfg : Cfg V} {s s' : State V} {t : Tid} {th : Thread V} {a : Addr}
    (hto : th.pc.wants cfg s = none ∨ tableOk s = true)
    (ht : s.threads[t]? = some th) (h : RunR cfg s t th a s') : step cfg s (.run t a) = .ok s' := by
  replace hto : ∀ c, th.pc = .newLoop c ∨ (∃ b x, (th.pc = .newEntry c b ∨ th.pc = .dropRemove b) ∧ get s.heap b = some x) →
      tableOk s = true := by
    intro c h
    rcases hto with h1 | h1
    · rcases h with h | ⟨b, x, h | h, hx⟩
      · simp [h, Pc.wants] at h1
      · simp [h, Pc.wants, deref, hx] at h1
      · simp [h, Pc.wants, deref, hx] at h1
    · exact h1
  simp only [step, ht]
  unfold run
  cases h with
  | dying c sh b x hpc hx hc => simp only [hpc, hx]; rw [if_neg (by simp [hc])]
  | cache c sh b hpc hd => simp only [hpc, hd, if_true]
  | intoKey c sh b hpc hd => simp [hpc, hd]
  | alloc c hpc h0 hk => simp only [hpc]; rw [if_neg (by simp [h0, hk])]
  | hit c sh b x hpc hx hc => simp only [hpc, hx]; rw [if_pos hc]
  | subLast b x hpc hx hc => simp only [hpc, hx, if_pos hc]
  | sub b x hpc hx hc => simp only [hpc, hx, if_neg hc]
  | found c b hpc hl hf => have := hto c (Or.inl hpc); simp [hpc, hl, hf, this]
  | cached c b hpc hl hf hc => have := hto c (Or.inl hpc); simp [hpc, hl, hf, hc, this]
  | missing c hpc hl hf hc => have := hto c (Or.inl hpc); simp [hpc, hl, hf, hc, this]
  | vacant c b x hpc hx hl hf => have := hto c (Or.inr ⟨b, x, Or.inl hpc, hx⟩); simp [hpc, hx, hl, hf, this]
  | occupied c b q x hpc hx hl hf => have := hto c (Or.inr ⟨b, x, Or.inl hpc, hx⟩); simp [hpc, hx, hl, hf, this]
  | remove b q x hpc hx hl hf =>
    have := hto ⟨x.data, false, none⟩ (Or.inr ⟨b, x, Or.inr hpc, hx⟩); simp [hpc, hx, hl, hf, this]
  | removeNone b x hpc hx hl hf =>
    have := hto ⟨x.data, false, none⟩ (Or.inr ⟨b, x, Or.inr hpc, hx⟩); simp [hpc, hx, hl, hf, this]
  | _ => simp only [*]; try rfl

theorem R_step {cfg : Cfg V} {s s' : State V} (hI : Inv cfg s) {t : Tid} {th : Thread V} {a : Addr}
    (ht : s.threads[t]? = some th) (h : RunR cfg s t th a s') : step cfg s (.run t a) = .ok s' :=
  R_step' (Or.inr hI.tableOk) ht h

theorem then_R {cfg : Cfg V} {s0 s s' : State V} {act : Act V} (_ : step cfg s0 act = .ok s) {t : Tid} {th : Thread V} {a : Addr}
    (hto : th.pc.wants cfg s = none ∨ tableOk s = true)
    (ht : s.threads[t]? = some th) (h : RunR cfg s t th a s') : step cfg s (.run t a) = .ok s' := R_step' hto ht h

omit [BEq V] [Hashable V] in
theorem set_self {l : List (Thread V)} {t : Tid} {x y : Thread V} (hx : l[t]? = some x) : (l.set t y)[t]? = some y := by
  rw [set_getElem? _ _ _ _ _ hx, if_pos rfl]

end Arc
