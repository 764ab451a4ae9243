import Verif.Pool.Exec
namespace Pool
variable {K V : Type} [DecidableEq K] [BEq V] [Hashable V]

/-- What a step does to threads and histories. -/
inductive Kind (s s' : State K V) : Prop where
  | same (h1 : s'.log = s.log) (h2 : s'.done = s.done) (h3 : s'.threads = s.threads)
  | spawn (h1 : s'.log = s.log) (h2 : s'.done = s.done) (h3 : s'.threads = s.threads ++ [.idle])
  | quiet (t : Tid) (pc pc' : Pc K V) (h : s.threads[t]? = some pc) (e : entryOf t pc = none)
      (e' : entryOf t pc' = none) (h1 : s'.log = s.log) (h2 : s'.done = s.done) (h3 : s'.threads = s.threads.set t pc')
  | commit (t : Tid) (pc : Pc K V) (o : Op K V) (r : Ret) (h : s.threads[t]? = some pc) (e : entryOf t pc = none)
      (h1 : s'.log = ⟨t, o, r⟩ :: s.log) (h2 : s'.done = s.done) (h3 : s'.threads = s.threads.set t (.leave o r))
  | leave (t : Tid) (o : Op K V) (r : Ret) (h : s.threads[t]? = some (.leave o r)) (h1 : s'.log = s.log)
      (h2 : s'.done = ⟨t, o, r⟩ :: s.done) (h3 : s'.threads = s.threads.set t .idle)

theorem run_kind {cfg : Cfg K V} {s s' : State K V} {t : Tid} {a : Nat} {pc : Pc K V}
    (h : s.threads[t]? = some pc) (hr : run cfg s t a pc = .ok s') : Kind s s' := by
  cases pc with
  | idle => cases hr
  | want o =>
    simp only [Pool.run] at hr
    split at hr
    · cases hr
    · cases hr; exact .quiet t _ (.inside o) h rfl rfl rfl rfl rfl
  | inside o =>
    simp only [Pool.run] at hr
    split at hr
    · cases o with
      | intern k q v =>
        simp only at hr
        cases hf : find s k q with
        | some p => rw [hf] at hr; cases hr; exact .quiet t _ (.dropArg k q v p) h rfl rfl rfl rfl rfl
        | none => rw [hf] at hr; cases hr; exact .quiet t _ (.build k q v) h rfl rfl rfl rfl rfl
      | query k q => simp only at hr; cases hr; exact .commit t _ _ _ h rfl rfl rfl rfl
      | len k => simp only at hr; cases hr; exact .commit t _ _ _ h rfl rfl rfl rfl
      | clear k =>
        simp only at hr
        split at hr
        · cases hr
        · cases hr; exact .commit t _ _ _ h rfl rfl rfl rfl
    · cases hr
  | build k q v =>
    simp only [Pool.run] at hr
    split at hr
    · cases hr
    · cases hr; exact .quiet t _ _ h rfl rfl rfl rfl rfl
  | insert k q v p =>
    simp only [Pool.run] at hr
    split at hr
    · cases hf : find s k (.ofVal v) with
      | some p' =>
        rw [hf] at hr
        by_cases ho : cfg.owns k = true
        · simp only [ho, if_true] at hr
          cases hr; exact .commit t _ _ _ h rfl rfl rfl rfl
        · simp only [ho] at hr
          cases hr; exact .commit t _ _ _ h rfl rfl rfl rfl
      | none => rw [hf] at hr; cases hr; exact .commit t _ _ _ h rfl rfl rfl rfl
    · cases hr
  | dropArg k q v p => cases hr; exact .commit t _ _ _ h rfl rfl rfl rfl
  | leave o r => cases hr; exact .leave t o r h rfl rfl rfl

theorem step_kind {cfg : Cfg K V} {s s' : State K V} {a : Act K V} (h : step cfg s a = .ok s') : Kind s s' := by
  cases a with
  | spawn => cases h; exact .spawn rfl rfl rfl
  | call t o =>
    simp only [Pool.step] at h
    cases ht : s.threads[t]? with
    | none => rw [ht] at h; cases h
    | some pc =>
      rw [ht] at h
      cases pc with
      | idle =>
        simp only at h
        split at h
        · cases h
        · cases h; exact .quiet t _ (.want o) ht rfl rfl rfl rfl rfl
      | _ => cases h
  | run t a =>
    simp only [Pool.step] at h
    cases ht : s.threads[t]? with
    | none => rw [ht] at h; cases h
    | some pc => rw [ht] at h; exact run_kind ht h
  | panic t =>
    simp only [Pool.step] at h
    cases ht : s.threads[t]? with
    | none => rw [ht] at h; cases h
    | some pc =>
      rw [ht] at h
      cases pc with
      | idle => cases h
      | want o => cases h
      | leave o r => cases h
      | inside o => cases h; exact .quiet t _ .idle ht rfl rfl rfl rfl rfl
      | build k q v => cases h; exact .quiet t _ .idle ht rfl rfl rfl rfl rfl
      | dropArg k q v p => cases h; exact .quiet t _ .idle ht rfl rfl rfl rfl rfl
      | insert k q v p => cases h; exact .quiet t _ .idle ht rfl rfl rfl rfl rfl
  | dropArena k =>
    simp only [Pool.step] at h
    split at h
    · cases h; exact .same rfl rfl rfl
    · cases h
  | read k p =>
    simp only [Pool.step] at h
    split at h
    · cases h; exact .same rfl rfl rfl
    · cases h

/-- The calls of thread `t` in a history. -/
def ofThread (t : Tid) (l : List (Entry K V)) : List (Entry K V) := l.filter fun e => e.tid == t

/-- For each thread: calls that took effect = the call about to return, then the calls that returned, in order. -/
def ThreadLog (s : State K V) : Prop :=
  ∀ t : Tid, ofThread t s.log = ((s.threads[t]?).bind (entryOf t)).toList ++ ofThread t s.done

theorem ThreadLog.kind {s s' : State K V} (L : ThreadLog s) (k : Kind s s') : ThreadLog s' := by
  intro u
  have Lu := L u
  cases k with
  | same h1 h2 h3 => rw [h1, h2, h3]; exact Lu
  | spawn h1 h2 h3 =>
    rw [h1, h2, h3, Lu]
    congr 2
    rw [List.getElem?_append]
    split
    · rfl
    · rename_i hn
      have hn' : s.threads.length ≤ u := Nat.le_of_not_lt hn
      rw [List.getElem?_eq_none hn', List.getElem?_singleton]
      split <;> rfl
  | quiet t pc pc' h e e' h1 h2 h3 =>
    rw [h1, h2, h3, Lu]
    congr 2
    by_cases hu : u = t
    · subst hu
      rw [getElem?_set_self' h, h]
      show entryOf u pc = entryOf u pc'
      rw [e, e']
    · rw [List.getElem?_set, if_neg (fun c => hu c.symm)]
  | commit t pc o r h e h1 h2 h3 =>
    rw [h1, h2, h3]
    by_cases hu : u = t
    · subst hu
      rw [getElem?_set_self' h]
      rw [h] at Lu
      have Lu' : ofThread u s.log = (entryOf u pc).toList ++ ofThread u s.done := Lu
      rw [e] at Lu'
      show ofThread u (⟨u, o, r⟩ :: s.log) = ⟨u, o, r⟩ :: ofThread u s.done
      unfold ofThread at *
      rw [List.filter_cons_of_pos (by simp), Lu']
      rfl
    · rw [List.getElem?_set, if_neg (fun c => hu c.symm), ← Lu]
      unfold ofThread
      rw [List.filter_cons_of_neg]
      simp only [beq_iff_eq]
      exact fun c => hu c.symm
  | leave t o r h h1 h2 h3 =>
    rw [h1, h2, h3]
    by_cases hu : u = t
    · subst hu
      rw [getElem?_set_self' h, Lu, h]
      show ⟨u, o, r⟩ :: ofThread u s.done = ofThread u (⟨u, o, r⟩ :: s.done)
      unfold ofThread
      rw [List.filter_cons_of_pos (by simp)]
    · rw [List.getElem?_set, if_neg (fun c => hu c.symm), Lu]
      congr 1
      unfold ofThread
      rw [List.filter_cons_of_neg]
      simp only [beq_iff_eq]
      exact fun c => hu c.symm

theorem Reach.threadLog {cfg : Cfg K V} {s : State K V} (h : Reach cfg s) : ThreadLog s := by
  induction h with
  | init => intro t; rfl
  | step _ _ hs ih => exact ih.kind (step_kind hs)

theorem Reach.done_sub {cfg : Cfg K V} {s : State K V} (h : Reach cfg s) {e : Entry K V} (he : e ∈ s.done) : e ∈ s.log :=
  h.logPerm.symm.subset (List.mem_append_left _ he)

/-- All calls in the history are lawful. -/
theorem Reach.log_lawful [EquivBEq V] [LawfulHashable V] {cfg : Cfg K V} {s : State K V} (lay : cfg.Layout)
    (h : Reach cfg s) : ∀ e ∈ s.log, e.op.Lawful := by
  induction h with
  | init => intro e he; cases he
  | step hr hl hs ih =>
    have I := (hr.step hl hs).inv lay
    intro e he
    cases step_kind hs with
    | same h1 => rw [h1] at he; exact ih e he
    | spawn h1 => rw [h1] at he; exact ih e he
    | quiet _ _ _ _ _ _ h1 => rw [h1] at he; exact ih e he
    | leave _ _ _ _ h1 => rw [h1] at he; exact ih e he
    | commit t pc o r h e' h1 h2 h3 =>
      rw [h1] at he
      rcases List.mem_cons.mp he with rfl | he
      · exact (I.pcs t (.leave o r) (by rw [h3]; exact getElem?_set_self' h)).1
      · exact ih e he

theorem Inv.never_gone {cfg : Cfg K V} {s : State K V} (I : Inv cfg s) {k : K} (ho : cfg.owns k = false) : k ∉ s.gone := by
  intro h
  have := I.goneOwned k h
  rw [ho] at this
  cases this

/-- A returned handle points to the value kept for it. -/
theorem Reach.handle [EquivBEq V] [LawfulHashable V] {cfg : Cfg K V} {s : State K V} (lay : cfg.Layout) (r : Reach cfg s)
    {k : K} (hk : k ∉ s.gone) {t : Tid} {q : Query V} {v : V} {a : Ret} (h : ⟨t, .intern k q v, a⟩ ∈ s.log) :
    ∃ p x, a = .ptr p ∧ (p, x) ∈ interned s.log k ∧ deref s k p = some x ∧ (x == v) = true := by
  have I := r.inv lay
  obtain ⟨x, hx, e, e'⟩ := I.seq.kept h
  exact ⟨x.1, x.2, e, hx, (I.deref_iff lay k _ _).mpr (I.vals k hk x hx), e'⟩

/-- Kept values with the same handle, or with equal values, are the same. -/
theorem Reach.kept_inj [EquivBEq V] [LawfulHashable V] {cfg : Cfg K V} {s : State K V} (lay : cfg.Layout) (r : Reach cfg s)
    {k : K} (hk : k ∉ s.gone) {p p' : Ptr} {x x' : V} (h : (p, x) ∈ interned s.log k) (h' : (p', x') ∈ interned s.log k) :
    p = p' ↔ (x == x') = true := by
  have I := r.inv lay
  constructor
  · rintro rfl
    have : x = x' := same_val lay I.shape I.addrs (I.vals k hk _ h) (I.vals k hk _ h')
    subst this
    exact BEq.rfl
  · intro e
    have d := interned_distinct s.log k
    generalize interned s.log k = l at *
    induction l with
    | nil => cases h
    | cons a l ih =>
      rw [List.pairwise_cons] at d
      rcases List.mem_cons.mp h with rfl | h1
      · rcases List.mem_cons.mp h' with c | h2
        · injection c with c _; exact c.symm
        · have := d.1 _ h2
          rw [PartialEquivBEq.symm e] at this
          cases this
      · rcases List.mem_cons.mp h' with rfl | h2
        · have := d.1 _ h1
          rw [e] at this
          cases this
        · exact ih h1 h2 d.2

end Pool
