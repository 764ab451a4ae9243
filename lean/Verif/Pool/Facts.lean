import Verif.Pool.Step3
namespace Pool
variable {K V : Type} [DecidableEq K] [BEq V] [Hashable V]

/-- Calls in flight that have taken effect, counted from thread number `n`. -/
def pendingFrom (n : Nat) : List (Pc K V) → List (Entry K V)
  | [] => []
  | pc :: l => (entryOf n pc).toList ++ pendingFrom (n + 1) l

theorem pending_set {l : List (Pc K V)} {n t : Nat} {pc : Pc K V} (h : l[t]? = some pc) (pc' : Pc K V) :
    ∃ rest, (pendingFrom n l).Perm ((entryOf (n + t) pc).toList ++ rest) ∧
      (pendingFrom n (l.set t pc')).Perm ((entryOf (n + t) pc').toList ++ rest) := by
  induction l generalizing n t with
  | nil => cases h
  | cons a l ih =>
    cases t with
    | zero =>
      simp only [List.getElem?_cons_zero, Option.some.injEq] at h
      subst h
      exact ⟨pendingFrom (n + 1) l, List.Perm.refl _, List.Perm.refl _⟩
    | succ t =>
      simp only [List.getElem?_cons_succ] at h
      obtain ⟨rest, h1, h2⟩ := ih (n := n + 1) h
      refine ⟨(entryOf n a).toList ++ rest, ?_, ?_⟩
      · rw [show n + (t + 1) = n + 1 + t by omega]
        exact (h1.append_left _).trans (by
          rw [← List.append_assoc, ← List.append_assoc]
          exact List.perm_append_comm.append_right _)
      · rw [show n + (t + 1) = n + 1 + t by omega, List.set_cons_succ]
        exact (h2.append_left _).trans (by
          rw [← List.append_assoc, ← List.append_assoc]
          exact List.perm_append_comm.append_right _)

theorem pending_append_idle (n : Nat) (l : List (Pc K V)) : pendingFrom n (l ++ [.idle]) = pendingFrom n l := by
  induction l generalizing n with
  | nil => rfl
  | cons a l ih => simp only [List.cons_append, pendingFrom, ih]

theorem pending_quiet {l : List (Pc K V)} {t : Nat} {pc pc' : Pc K V} (h : l[t]? = some pc)
    (e : entryOf t pc = none) (e' : entryOf t pc' = none) : (pendingFrom 0 (l.set t pc')).Perm (pendingFrom 0 l) := by
  obtain ⟨rest, h1, h2⟩ := pending_set (n := 0) h pc'
  rw [Nat.zero_add, e] at h1
  rw [Nat.zero_add, e'] at h2
  exact h2.trans h1.symm

theorem pending_commit {l : List (Pc K V)} {t : Nat} {pc : Pc K V} (h : l[t]? = some pc) (e : entryOf t pc = none)
    (o : Op K V) (r : Ret) : (pendingFrom 0 (l.set t (.leave o r))).Perm (⟨t, o, r⟩ :: pendingFrom 0 l) := by
  obtain ⟨rest, h1, h2⟩ := pending_set (n := 0) h (.leave o r)
  rw [Nat.zero_add, e] at h1
  rw [Nat.zero_add] at h2
  exact h2.trans (List.Perm.cons _ h1.symm)

theorem pending_leave {l : List (Pc K V)} {t : Nat} {o : Op K V} {r : Ret} (h : l[t]? = some (.leave o r)) :
    (pendingFrom 0 l).Perm (⟨t, o, r⟩ :: pendingFrom 0 (l.set t .idle)) := by
  obtain ⟨rest, h1, h2⟩ := pending_set (n := 0) h .idle
  rw [Nat.zero_add] at h1 h2
  exact h1.trans (List.Perm.cons _ h2.symm)

theorem mem_pending {l : List (Pc K V)} {n : Nat} {e : Entry K V} (h : e ∈ pendingFrom n l) :
    ∃ t, e.tid = n + t ∧ l[t]? = some (.leave e.op e.ret) := by
  induction l generalizing n with
  | nil => cases h
  | cons a l ih =>
    rcases List.mem_append.mp h with h | h
    · cases a with
      | leave o r =>
        simp only [entryOf, Option.toList_some, List.mem_singleton] at h
        subst h
        exact ⟨0, rfl, rfl⟩
      | _ => cases h
    · obtain ⟨t, h1, h2⟩ := ih h
      exact ⟨t + 1, by rw [h1]; exact (Nat.add_right_comm n 1 t), h2⟩

/-- Calls that took effect = calls that returned + calls about to return. -/
def LogPerm (s : State K V) : Prop := s.log.Perm (s.done ++ pendingFrom 0 s.threads)

theorem LogPerm.quiet {s : State K V} (L : LogPerm s) {t : Nat} {pc pc' : Pc K V} (h : s.threads[t]? = some pc)
    (e : entryOf t pc = none) (e' : entryOf t pc' = none) {s' : State K V} (h1 : s'.log = s.log) (h2 : s'.done = s.done)
    (h3 : s'.threads = s.threads.set t pc') : LogPerm s' := by
  unfold LogPerm at L ⊢
  rw [h1, h2, h3]
  exact L.trans ((pending_quiet h e e').symm.append_left _)

theorem LogPerm.commit {s : State K V} (L : LogPerm s) {t : Nat} {pc : Pc K V} (h : s.threads[t]? = some pc)
    (e : entryOf t pc = none) (o : Op K V) (r : Ret) {s' : State K V} (h1 : s'.log = ⟨t, o, r⟩ :: s.log)
    (h2 : s'.done = s.done) (h3 : s'.threads = s.threads.set t (.leave o r)) : LogPerm s' := by
  unfold LogPerm at L ⊢
  rw [h1, h2, h3]
  exact (List.Perm.cons _ L).trans (List.perm_middle.symm.trans ((pending_commit h e o r).symm.append_left _))

theorem LogPerm.run {cfg : Cfg K V} {s s' : State K V} (L : LogPerm s) {t : Tid} {a : Nat} {pc : Pc K V}
    (h : s.threads[t]? = some pc) (hr : Pool.run cfg s t a pc = .ok s') : LogPerm s' := by
  cases pc with
  | idle => cases hr
  | want o =>
    simp only [Pool.run] at hr
    split at hr
    · cases hr
    · cases hr; exact L.quiet (pc' := .inside o) h rfl rfl rfl rfl rfl
  | inside o =>
    simp only [Pool.run] at hr
    split at hr
    · cases o with
      | intern k q v =>
        simp only at hr
        cases hf : find s k q with
        | some p => rw [hf] at hr; cases hr; exact L.quiet (pc' := .dropArg k q v p) h rfl rfl rfl rfl rfl
        | none => rw [hf] at hr; cases hr; exact L.quiet (pc' := .build k q v) h rfl rfl rfl rfl rfl
      | query k q => simp only at hr; cases hr; exact L.commit h rfl _ _ rfl rfl rfl
      | len k => simp only at hr; cases hr; exact L.commit h rfl _ _ rfl rfl rfl
      | clear k =>
        simp only at hr
        split at hr
        · cases hr
        · cases hr; exact L.commit h rfl _ _ rfl rfl rfl
    · cases hr
  | build k q v =>
    simp only [Pool.run] at hr
    split at hr
    · cases hr
    · cases hr; exact L.quiet h rfl rfl rfl rfl rfl
  | insert k q v p =>
    simp only [Pool.run] at hr
    split at hr
    · cases hf : find s k (.ofVal v) with
      | some p' =>
        rw [hf] at hr
        by_cases ho : cfg.owns k = true
        · simp only [ho, if_true] at hr
          cases hr; exact L.commit h rfl _ _ rfl rfl rfl
        · simp only [ho] at hr
          cases hr; exact L.commit h rfl _ _ rfl rfl rfl
      | none => rw [hf] at hr; cases hr; exact L.commit h rfl _ _ rfl rfl rfl
    · cases hr
  | dropArg k q v p => cases hr; exact L.commit h rfl _ _ rfl rfl rfl
  | leave o r =>
    cases hr
    unfold LogPerm at L ⊢
    show s.log.Perm (⟨t, o, r⟩ :: s.done ++ pendingFrom 0 (s.threads.set t .idle))
    exact L.trans (((pending_leave h).append_left _).trans List.perm_middle)

theorem LogPerm.step {cfg : Cfg K V} {s s' : State K V} (L : LogPerm s) {a : Act K V} (h : Pool.step cfg s a = .ok s') :
    LogPerm s' := by
  cases a with
  | spawn =>
    cases h
    unfold LogPerm at L ⊢
    show s.log.Perm (s.done ++ pendingFrom 0 (s.threads ++ [.idle]))
    rw [pending_append_idle]
    exact L
  | call t o =>
    simp only [Pool.step] at h
    cases ht : s.threads[t]? with
    | none => rw [ht] at h; cases h
    | some pc =>
      rw [ht] at h
      cases pc with
      | idle =>
        simp only at h
        split at h
        · cases h
        · cases h; exact L.quiet (pc' := .want o) ht rfl rfl rfl rfl rfl
      | _ => cases h
  | run t a =>
    simp only [Pool.step] at h
    cases ht : s.threads[t]? with
    | none => rw [ht] at h; cases h
    | some pc => rw [ht] at h; exact L.run ht h
  | panic t =>
    simp only [Pool.step] at h
    cases ht : s.threads[t]? with
    | none => rw [ht] at h; cases h
    | some pc =>
      rw [ht] at h
      cases pc with
      | idle => cases h
      | want o => cases h
      | leave o r => cases h
      | inside o => cases h; exact L.quiet (pc' := .idle) ht rfl rfl rfl rfl rfl
      | build k q v => cases h; exact L.quiet (pc' := .idle) ht rfl rfl rfl rfl rfl
      | dropArg k q v p => cases h; exact L.quiet (pc' := .idle) ht rfl rfl rfl rfl rfl
      | insert k q v p => cases h; exact L.quiet (pc' := .idle) ht rfl rfl rfl rfl rfl
  | dropArena k =>
    simp only [Pool.step] at h
    split at h
    · cases h; exact L
    · cases h
  | read k p =>
    simp only [Pool.step] at h
    split at h
    · cases h; exact L
    · cases h

theorem Reach.logPerm {cfg : Cfg K V} {s : State K V} (h : Reach cfg s) : LogPerm s := by
  induction h with
  | init => exact List.Perm.nil
  | step _ _ hs ih => exact ih.step hs

/-- Executions. -/
inductive Steps (cfg : Cfg K V) : State K V → State K V → Prop where
  | refl {s} : Steps cfg s s
  | tail {s s' s'' a} : Steps cfg s s' → Act.Lawful a → Pool.step cfg s' a = .ok s'' → Steps cfg s s''

theorem Steps.reach {cfg : Cfg K V} {s s' : State K V} (h : Steps cfg s s') (r : Reach cfg s) : Reach cfg s' := by
  induction h with
  | refl => exact r
  | tail _ hl hs ih => exact ih.step hl hs

/-- The effect of one step on the history and on the set of dropped arenas. -/
theorem step_log {cfg : Cfg K V} {s s' : State K V} {a : Act K V} (h : Pool.step cfg s a = .ok s') :
    (∃ l, s'.log = l ++ s.log) ∧ (∃ l, s'.done = l ++ s.done) ∧ (∀ k, k ∈ s.gone → k ∈ s'.gone) := by
  have q : (∃ l, s.log = l ++ s.log) ∧ (∃ l, s.done = l ++ s.done) ∧ (∀ k, k ∈ s.gone → k ∈ s.gone) :=
    ⟨⟨[], rfl⟩, ⟨[], rfl⟩, fun _ h => h⟩
  have c : ∀ e, (∃ l, e :: s.log = l ++ s.log) ∧ (∃ l, s.done = l ++ s.done) ∧ (∀ k, k ∈ s.gone → k ∈ s.gone) :=
    fun e => ⟨⟨[e], rfl⟩, ⟨[], rfl⟩, fun _ h => h⟩
  cases a with
  | spawn => cases h; exact q
  | call t o =>
    simp only [Pool.step] at h
    cases ht : s.threads[t]? with
    | none => rw [ht] at h; cases h
    | some pc =>
      rw [ht] at h
      cases pc with
      | idle =>
        simp only at h
        split at h
        · cases h
        · cases h; exact q
      | _ => cases h
  | run t a =>
    simp only [Pool.step] at h
    cases ht : s.threads[t]? with
    | none => rw [ht] at h; cases h
    | some pc =>
      rw [ht] at h
      simp only at h
      cases pc with
      | idle => cases h
      | want o =>
        simp only [Pool.run] at h
        split at h
        · cases h
        · cases h; exact q
      | inside o =>
        simp only [Pool.run] at h
        split at h
        · cases o with
          | intern k qq v =>
            simp only at h
            cases hf : find s k qq with
            | some p => rw [hf] at h; cases h; exact q
            | none => rw [hf] at h; cases h; exact q
          | query k q => simp only at h; cases h; exact c _
          | len k => simp only at h; cases h; exact c _
          | clear k =>
            simp only at h
            split at h
            · cases h
            · cases h; exact c _
        · cases h
      | build k qq v =>
        simp only [Pool.run] at h
        split at h
        · cases h
        · cases h; exact q
      | insert k qq v p =>
        simp only [Pool.run] at h
        split at h
        · cases hf : find s k (.ofVal v) with
          | some p' =>
            rw [hf] at h
            by_cases ho : cfg.owns k = true
            · simp only [ho, if_true] at h
              cases h; exact c _
            · simp only [ho] at h
              cases h; exact c _
          | none => rw [hf] at h; cases h; exact c _
        · cases h
      | dropArg k qq v p => cases h; exact c _
      | leave o r => cases h; exact ⟨⟨[], rfl⟩, ⟨[_], rfl⟩, fun _ h => h⟩
  | panic t =>
    simp only [Pool.step] at h
    cases ht : s.threads[t]? with
    | none => rw [ht] at h; cases h
    | some pc =>
      rw [ht] at h
      cases pc with
      | idle => cases h
      | want o => cases h
      | leave o r => cases h
      | inside o => cases h; exact q
      | build k _ v => cases h; exact q
      | dropArg k _ v p => cases h; exact q
      | insert k _ v p => cases h; exact q
  | dropArena k =>
    simp only [Pool.step] at h
    split at h
    · cases h; exact ⟨⟨[], rfl⟩, ⟨[], rfl⟩, fun _ h => List.mem_cons_of_mem _ h⟩
    · cases h
  | read k p =>
    simp only [Pool.step] at h
    split at h
    · cases h; exact q
    · cases h

theorem Steps.log {cfg : Cfg K V} {s s' : State K V} (h : Steps cfg s s') :
    (∃ l, s'.log = l ++ s.log) ∧ (∃ l, s'.done = l ++ s.done) ∧ (∀ k, k ∈ s.gone → k ∈ s'.gone) := by
  induction h with
  | refl => exact ⟨⟨[], rfl⟩, ⟨[], rfl⟩, fun _ h => h⟩
  | tail _ _ hs ih =>
    obtain ⟨⟨l1, e1⟩, ⟨l2, e2⟩, g⟩ := ih
    obtain ⟨⟨m1, f1⟩, ⟨m2, f2⟩, g'⟩ := step_log hs
    exact ⟨⟨m1 ++ l1, by rw [f1, e1, List.append_assoc]⟩, ⟨m2 ++ l2, by rw [f2, e2, List.append_assoc]⟩,
      fun k hk => g' k (g k hk)⟩

/-! ### Facts about histories -/

theorem interned_mono (l' l : List (Entry K V)) (k : K) : ∃ m, interned (l' ++ l) k = m ++ interned l k := by
  induction l' with
  | nil => exact ⟨[], rfl⟩
  | cons e l' ih =>
    obtain ⟨m, hm⟩ := ih
    simp only [List.cons_append, interned]
    split
    · split
      · exact ⟨_ :: m, by rw [hm]; rfl⟩
      · exact ⟨m, hm⟩
    · exact ⟨m, hm⟩

theorem Sequential.sub {l' l : List (Entry K V)} (h : Sequential (l' ++ l)) : Sequential l := by
  induction l' with
  | nil => exact h
  | cons e l' ih => exact ih h.2

/-- Every call in a correct history got the handle of the value kept for it. -/
theorem Sequential.kept [EquivBEq V] {l : List (Entry K V)} (h : Sequential l) {t : Tid} {k : K} {q : Query V} {v : V} {r : Ret}
    (he : ⟨t, .intern k q v, r⟩ ∈ l) : ∃ x ∈ interned l k, r = .ptr x.1 ∧ (x.2 == v) = true := by
  obtain ⟨l1, l2, rfl⟩ := List.append_of_mem he
  obtain ⟨m, hm⟩ := interned_mono (l1 ++ [⟨t, .intern k q v, r⟩]) l2 k
  have hs := h.sub
  rw [show l1 ++ (⟨t, .intern k q v, r⟩ :: l2) = l1 ++ [⟨t, .intern k q v, r⟩] ++ l2 by simp] at *
  obtain ⟨m', hm'⟩ := interned_mono l1 (⟨t, .intern k q v, r⟩ :: l2) k
  have hc := hs.1
  cases r with
  | ptr p =>
    have : ∃ x ∈ interned (⟨t, .intern k q v, .ptr p⟩ :: l2) k, p = x.1 ∧ (x.2 == v) = true := by
      rcases hc with ⟨x, hx, e, e'⟩ | ⟨h1, h2⟩
      · refine ⟨x, ?_, e.symm, e'⟩
        obtain ⟨m, hm⟩ := interned_mono [⟨t, .intern k q v, .ptr p⟩] l2 k
        rw [show ⟨t, .intern k q v, .ptr p⟩ :: l2 = [⟨t, .intern k q v, .ptr p⟩] ++ l2 from rfl, hm]
        exact List.mem_append_right _ hx
      · refine ⟨(p, v), ?_, rfl, BEq.rfl⟩
        simp only [interned]
        rw [if_pos ⟨trivial, List.any_eq_false.mpr (fun x hx => by simp [h1 x hx])⟩]
        exact List.mem_cons_self
    obtain ⟨x, hx, e, e'⟩ := this
    refine ⟨x, ?_, by rw [e], e'⟩
    rw [show l1 ++ [⟨t, .intern k q v, .ptr p⟩] ++ l2 = l1 ++ (⟨t, .intern k q v, .ptr p⟩ :: l2) by simp, hm']
    exact List.mem_append_right _ hx
  | bool b => exact hc.elim
  | num n => exact hc.elim
  | unit => exact hc.elim

/-- A kept value was interned by a call that got that handle, and no equal value was interned before. -/
theorem kept_first [EquivBEq V] {l : List (Entry K V)} {k : K} {x : Ptr × V} (hs : Sequential l) (hx : x ∈ interned l k) :
    ∃ l1 l2 t q, l = l1 ++ ⟨t, .intern k q x.2, .ptr x.1⟩ :: l2 ∧
      ∀ t' q' v' r', ⟨t', .intern k q' v', r'⟩ ∈ l2 → (v' == x.2) = false := by
  induction l with
  | nil => cases hx
  | cons e l ih =>
    have push : x ∈ interned l k → ∃ l1 l2 t q, e :: l = l1 ++ ⟨t, .intern k q x.2, .ptr x.1⟩ :: l2 ∧
        ∀ t' q' v' r', ⟨t', .intern k q' v', r'⟩ ∈ l2 → (v' == x.2) = false := fun hx => by
      obtain ⟨l1, l2, t, q, e1, e2⟩ := ih hs.2 hx
      exact ⟨e :: l1, l2, t, q, by rw [e1]; rfl, e2⟩
    obtain ⟨t, o, r⟩ := e
    simp only [interned] at hx
    split at hx
    · rename_i k' q v p
      split at hx
      · rename_i c
        obtain ⟨rfl, c⟩ := c
        rcases List.mem_cons.mp hx with rfl | hx'
        · refine ⟨[], l, t, q, rfl, fun t' q' v' r' hm => ?_⟩
          obtain ⟨y, hy, _, e⟩ := hs.2.kept hm
          rw [List.any_eq_false] at c
          cases e' : (v' == v) with
          | false => rfl
          | true => exact absurd (PartialEquivBEq.trans e e') (c y hy)
        · exact push hx'
      · exact push hx
    · exact push hx

end Pool
