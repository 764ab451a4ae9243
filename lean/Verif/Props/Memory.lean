import Verif.Props.Arena
/-
Property C53: memory use of `Intern` and `Arena`.
-/
namespace Pool
variable {K V : Type} [DecidableEq K] [BEq V] [Hashable V]

/-- The boxes of pool `k` in memory. -/
def boxes (s : State K V) (k : K) : Nat := s.heap.countP fun o => decide (o.pool = k)

/-- The thread has allocated a box for pool `k` and is about to insert it. -/
def Pc.inserting (k : K) : Pc K V → Bool
  | .insert k' _ _ _ => decide (k' = k)
  | _ => false

/-- Calls in progress that have allocated a box for pool `k` and not inserted it yet. -/
def inFlight (s : State K V) (k : K) : Nat := s.threads.countP (Pc.inserting k)

/-- Does the action leak a box of pool `k`? Only a panic of user code (Hash or Eq) during the insertion into an `Intern`
pool does: the box has already been leaked (intern.rs:215-216). -/
def leaks (cfg : Cfg K V) (s : State K V) (k : K) : Act K V → Nat
  | .panic t => match s.threads[t]? with
    | some pc => if pc.inserting k && !cfg.owns k then 1 else 0
    | none => 0
  | _ => 0

/-- Executions of lawful calls, with the number of insertions into each `Intern` pool that panicked so far. -/
inductive CountedRun (cfg : Cfg K V) : State K V → (K → Nat) → Prop where
  | init : CountedRun cfg init fun _ => 0
  | step {s s' a f} : CountedRun cfg s f → Act.Lawful a → Pool.step cfg s a = .ok s' → CountedRun cfg s' fun k => f k + leaks cfg s k a

theorem CountedRun.reach {cfg : Cfg K V} {s : State K V} {f : K → Nat} (h : CountedRun cfg s f) : Reach cfg s := by
  induction h with
  | init => exact .init
  | step _ hl hs ih => exact ih.step hl hs

/-- Every reachable state is reached with some such count. -/
theorem Reach.counted {cfg : Cfg K V} {s : State K V} (h : Reach cfg s) : ∃ f, CountedRun cfg s f := by
  induction h with
  | init => exact ⟨_, .init⟩
  | step _ hl hs ih =>
    obtain ⟨f, h⟩ := ih
    exact ⟨_, h.step hl hs⟩

theorem countP_free {h : List (Obj K V)} {k : K} {p : Ptr} {v : V} (hm : ⟨k, p, v⟩ ∈ h) (j : K) :
    (free h k p).countP (fun o => decide (o.pool = j)) + (if k = j then 1 else 0) = h.countP fun o => decide (o.pool = j) := by
  unfold free
  induction h with
  | nil => cases hm
  | cons o h ih =>
    by_cases ho : Obj.is k p o = true
    · rw [List.eraseP_cons_of_pos ho, List.countP_cons]
      have e : o.pool = k := by
        simp only [Obj.is, decide_eq_true_eq] at ho
        exact ho.1
      rw [e]
      simp
    · rw [List.eraseP_cons_of_neg ho, List.countP_cons, List.countP_cons]
      rcases List.mem_cons.mp hm with e | hm
      · subst e; simp [Obj.is] at ho
      · have := ih hm
        omega

theorem inFlight_set {s : State K V} {t : Tid} {pc pc' : Pc K V} (h : s.threads[t]? = some pc) (k : K) (h0 : pc.inserting k = false)
    (h1 : pc'.inserting k = false) : (s.threads.set t pc').countP (Pc.inserting k) = s.threads.countP (Pc.inserting k) := by
  have := countP_set (Pc.inserting k) h (y := pc')
  rw [h0, h1] at this
  simpa using this

theorem run_boxes [EquivBEq V] [LawfulHashable V] {cfg : Cfg K V} (lay : cfg.Layout) {s s' : State K V} (r : Reach cfg s) {t : Tid}
    {a : Nat} (k : K) (h : step cfg s (.run t a) = .ok s') (f : Nat)
    (e : boxes s k = (s.table k).length + inFlight s k + f) : boxes s' k = (s'.table k).length + inFlight s' k + f := by
  have I := r.inv lay
  simp only [step] at h
  cases ht : s.threads[t]? with
  | none => rw [ht] at h; cases h
  | some pc =>
    rw [ht] at h
    simp only at h
    have quiet : ∀ pc', pc.inserting k = false → pc'.inserting k = false → s'.heap = s.heap → s'.table k = s.table k →
        s'.threads = s.threads.set t pc' → boxes s' k = (s'.table k).length + inFlight s' k + f := by
      intro pc' h0 h1 e1 e2 e3
      unfold boxes inFlight at e ⊢
      rw [e1, e2, e3, inFlight_set ht k h0 h1, e]
    cases pc with
    | idle => cases h
    | want o =>
      simp only [Pool.run] at h
      split at h
      · cases h
      · cases h; exact quiet _ rfl (by rfl) rfl rfl rfl
    | inside o =>
      have hl : o.Lawful := I.pcs t _ ht
      simp only [Pool.run] at h
      split at h
      · cases o with
        | intern k' q v =>
          simp only at h
          cases hf : find s k' q with
          | some p => rw [hf] at h; cases h; exact quiet _ rfl (by rfl) rfl rfl rfl
          | none => rw [hf] at h; cases h; exact quiet _ rfl (by rfl) rfl rfl rfl
        | query k' q => simp only at h; cases h; exact quiet _ rfl (by rfl) rfl rfl rfl
        | len k' => simp only at h; cases h; exact quiet _ rfl (by rfl) rfl rfl rfl
        | clear k' => exact hl.elim
      · cases h
    | build k' q v =>
      simp only [Pool.run] at h
      split at h
      · cases h
      · rename_i addr _
        cases h
        have := countP_set (Pc.inserting k) ht (y := .insert k' q v ⟨addr, cfg.info k' v⟩)
        unfold boxes inFlight at e ⊢
        simp only [State.at, List.countP_cons, Pc.inserting] at this ⊢
        by_cases hk : k' = k <;> simp [hk] at this ⊢ <;> omega
    | insert k' q v p =>
      obtain ⟨hl, hno, hm⟩ := I.pcs t _ ht
      simp only [Pool.run] at h
      split at h
      · cases hf : find s k' (.ofVal v) with
        | some p' =>
          obtain ⟨h1, x, h2, _, h3⟩ := find_hit hf
          have := hno p' h1 x h2
          simp only [Query.ofVal] at h3
          rw [this] at h3
          cases h3
        | none =>
          rw [hf] at h
          cases h
          have := countP_set (Pc.inserting k) ht (y := .leave (.intern k' q v) (.ptr p))
          unfold boxes inFlight at e ⊢
          simp only [State.commit, State.setTable, Pc.inserting] at this ⊢
          by_cases hk : k' = k
          · subst hk
            simp at this ⊢
            omega
          · simp [hk] at this ⊢
            rw [if_neg (fun c => hk c.symm)]
            omega
      · cases h
    | dropArg k' q v p => cases h; exact quiet _ rfl (by rfl) rfl rfl rfl
    | leave o x => cases h; exact quiet _ rfl (by rfl) rfl rfl rfl

theorem panic_boxes [EquivBEq V] [LawfulHashable V] {cfg : Cfg K V} (lay : cfg.Layout) {s s' : State K V} (r : Reach cfg s) {t : Tid}
    (k : K) (h : step cfg s (.panic t) = .ok s') (f : Nat) (e : boxes s k = (s.table k).length + inFlight s k + f) :
    boxes s' k = (s'.table k).length + inFlight s' k + (f + leaks cfg s k (.panic t)) := by
  have I := r.inv lay
  simp only [step] at h
  cases ht : s.threads[t]? with
  | none => rw [ht] at h; cases h
  | some pc =>
    rw [ht] at h
    have hle : leaks cfg s k (.panic t) = if pc.inserting k && !cfg.owns k then 1 else 0 := by simp only [leaks, ht]
    rw [hle]
    clear hle
    simp only at h
    have quiet : pc.inserting k = false → s'.heap = s.heap → s'.table k = s.table k →
        s'.threads = s.threads.set t .idle → boxes s' k = (s'.table k).length + inFlight s' k +
          (f + if pc.inserting k && !cfg.owns k then 1 else 0) := by
      intro h0 e1 e2 e3
      unfold boxes inFlight at e ⊢
      rw [e1, e2, e3, inFlight_set ht k h0 rfl, e, h0]
      rfl
    cases pc with
    | idle => cases h
    | want o => cases h
    | leave o x => cases h
    | inside o => cases h; exact quiet rfl rfl rfl rfl
    | build k' q v => cases h; exact quiet rfl rfl rfl rfl
    | dropArg k' q v p => cases h; exact quiet rfl rfl rfl rfl
    | insert k' q v p =>
      obtain ⟨_, _, hm⟩ := I.pcs t _ ht
      have c := countP_set (Pc.inserting k) ht (y := .idle)
      have hf := countP_free hm k
      cases h
      unfold boxes inFlight at e ⊢
      simp only [State.at, State.unlock, Pc.inserting] at c ⊢
      by_cases hk : k' = k
      · subst hk
        cases ho : cfg.owns k' with
        | true => simp [ho] at c hf ⊢; omega
        | false => simp [ho] at c ⊢; omega
      · cases ho : cfg.owns k' with
        | true => simp [ho, hk] at c hf ⊢; omega
        | false => simp [ho, hk] at c ⊢; omega

/-- **C53, memory in use.** At every moment the boxes of a pool in memory are: one for each distinct interned value, one for
each call that is about to insert one, and, for `Intern`, one for each insertion that panicked. Nothing else is ever kept:
looking up values that are already interned costs no memory, whatever the number of calls. -/
theorem C53_memory [EquivBEq V] [LawfulHashable V] {cfg : Cfg K V} (lay : cfg.Layout) {s : State K V} {f : K → Nat}
    (h : CountedRun cfg s f) {k : K} (hk : k ∉ s.gone) : boxes s k = (interned s.log k).length + inFlight s k + f k := by
  have key : boxes s k = (s.table k).length + inFlight s k + f k := by
    induction h with
    | init => rfl
    | @step s s' a f h0 hl hs ih =>
      have r := h0.reach
      cases a with
      | spawn =>
        cases hs
        have := ih hk
        unfold boxes inFlight at this ⊢
        simp only [leaks, List.countP_append] at this ⊢
        rw [this]; rfl
      | call t o =>
        simp only [step] at hs
        cases ht : s.threads[t]? with
        | none => rw [ht] at hs; cases hs
        | some pc =>
          rw [ht] at hs
          cases pc with
          | idle =>
            simp only at hs
            split at hs
            · cases hs
            · cases hs
              have := ih hk
              unfold boxes inFlight at this ⊢
              simp only [State.at, leaks] at this ⊢
              rw [inFlight_set ht k rfl rfl, this]
              rfl
          | _ => cases hs
      | run t a =>
        exact run_boxes lay r k hs _ (ih fun c => hk ((Steps.refl.tail hl hs).log.2.2 k c))
      | panic t =>
        exact panic_boxes lay r k hs _ (ih fun c => hk ((Steps.refl.tail hl hs).log.2.2 k c))
      | dropArena k' =>
        obtain ⟨_, _, h2, h3⟩ := C36_drop_frees_exactly lay r hs
        simp only [step] at hs
        split at hs
        · cases hs
          have hkk : k ≠ k' := fun c => hk (by rw [c]; exact h3)
          have := ih fun c => hk (List.mem_cons_of_mem _ c)
          unfold boxes inFlight at this ⊢
          simp only [leaks] at this h2 ⊢
          rw [h2, List.countP_filter]
          simp only [State.setTable, if_neg hkk]
          rw [Nat.add_zero, ← this]
          congr 1
          funext o
          by_cases e : o.pool = k
          · simp [e, hkk]
          · simp [e]
        · cases hs
      | read k' p => exact hl.elim
  rw [key, (h.reach.inv lay).tab k hk, List.length_map]

/-- **C53, arenas leak nothing**, not even when user code panics. -/
theorem C53_arena_never_leaks [EquivBEq V] [LawfulHashable V] {cfg : Cfg K V} (lay : cfg.Layout) {s : State K V}
    (h : Reach cfg s) {k : K} (hk : k ∉ s.gone) (ho : cfg.owns k = true) :
    boxes s k = (interned s.log k).length + inFlight s k := by
  obtain ⟨f, h⟩ := h.counted
  rw [C53_memory lay h hk]
  have : f k = 0 := by
    clear hk
    induction h with
    | init => rfl
    | @step s s' a f h0 hl hs ih =>
      simp only [ih h0.reach, leaks]
      cases a with
      | panic t =>
        simp only
        cases s.threads[t]? with
        | none => rfl
        | some pc => simp [ho]
      | _ => rfl
  omega

/-- **C53, only new values are allocated**: a step that puts a new box in memory is a step of a call whose value is not
interned (no call that has taken effect interned an equal value). -/
theorem C53_only_new_values_allocate [EquivBEq V] [LawfulHashable V] {cfg : Cfg K V} (lay : cfg.Layout) {s s' : State K V}
    (h : Reach cfg s) {a : Act K V} (hs : step cfg s a = .ok s') (hl : a.Lawful) (hn : s.heap.length < s'.heap.length) :
    ∃ t n k q v, a = .run t n ∧ s.threads[t]? = some (.build k q v) ∧ ∀ x ∈ interned s.log k, (x.2 == v) = false := by
  have I := h.inv lay
  cases a with
  | spawn => cases hs; exact absurd hn (Nat.lt_irrefl _)
  | call t o =>
    simp only [step] at hs
    cases ht : s.threads[t]? with
    | none => rw [ht] at hs; cases hs
    | some pc =>
      rw [ht] at hs
      cases pc with
      | idle =>
        simp only at hs
        split at hs
        · cases hs
        · cases hs; exact absurd hn (Nat.lt_irrefl _)
      | _ => cases hs
  | panic t =>
    simp only [step] at hs
    cases ht : s.threads[t]? with
    | none => rw [ht] at hs; cases hs
    | some pc =>
      rw [ht] at hs
      cases pc with
      | idle => cases hs
      | want o => cases hs
      | leave o r => cases hs
      | inside o => cases hs; exact absurd hn (Nat.lt_irrefl _)
      | build k q v => cases hs; exact absurd hn (Nat.lt_irrefl _)
      | dropArg k q v p => cases hs; exact absurd hn (Nat.lt_irrefl _)
      | insert k q v p =>
        cases hs
        exfalso
        simp only [State.at, State.unlock] at hn
        split at hn
        · have := List.length_eraseP_le (p := Obj.is k p) (l := s.heap)
          unfold free at hn
          omega
        · omega
  | dropArena k =>
    have := C36_drop_frees_exactly lay h hs
    omega
  | read k p => exact hl.elim
  | run t n =>
    simp only [step] at hs
    cases ht : s.threads[t]? with
    | none => rw [ht] at hs; cases hs
    | some pc =>
      rw [ht] at hs
      simp only at hs
      cases pc with
      | idle => cases hs
      | want o =>
        simp only [Pool.run] at hs
        split at hs
        · cases hs
        · cases hs; exact absurd hn (Nat.lt_irrefl _)
      | inside o =>
        simp only [Pool.run] at hs
        split at hs
        · cases o with
          | intern k' q v =>
            simp only at hs
            cases hf : find s k' q <;> rw [hf] at hs <;> cases hs <;> exact absurd hn (Nat.lt_irrefl _)
          | query k' q => simp only at hs; cases hs; exact absurd hn (Nat.lt_irrefl _)
          | len k' => simp only at hs; cases hs; exact absurd hn (Nat.lt_irrefl _)
          | clear k' =>
            simp only at hs
            split at hs <;> cases hs
            exact absurd hn (Nat.lt_irrefl _)
        · cases hs
      | build k q v =>
        refine ⟨t, n, k, q, v, rfl, ht, fun x hx => ?_⟩
        have hk := I.alive t _ k ht rfl
        refine (I.pcs t _ ht).2 x.1 ?_ x.2 (I.vals k hk x hx)
        rw [I.tab k hk]
        exact List.mem_map.mpr ⟨x, hx, rfl⟩
      | insert k q v p =>
        exfalso
        simp only [Pool.run] at hs
        split at hs
        · cases hf : find s k (.ofVal v) with
          | some p' =>
            rw [hf] at hs
            cases hs
            simp only [State.commit] at hn
            split at hn
            · have := List.length_eraseP_le (p := Obj.is k p) (l := s.heap)
              unfold free at hn
              simp only at hn
              omega
            · exact absurd hn (Nat.lt_irrefl _)
          | none => rw [hf] at hs; cases hs; exact absurd hn (Nat.lt_irrefl _)
        · cases hs
      | dropArg k q v p => cases hs; exact absurd hn (Nat.lt_irrefl _)
      | leave o x => cases hs; exact absurd hn (Nat.lt_irrefl _)

/-- Running a script while counting. -/
def execRun (cfg : Cfg K V) (s : State K V) (f : K → Nat) : List (Act K V) → Option (State K V × (K → Nat))
  | [] => some (s, f)
  | a :: l => match step cfg s a with
    | .ok s' => execRun cfg s' (fun k => f k + leaks cfg s k a) l
    | _ => none

theorem execRun_run {cfg : Cfg K V} {s s' : State K V} {f f' : K → Nat} {l : List (Act K V)} (hl : ∀ a ∈ l, a.Lawful)
    (h : execRun cfg s f l = some (s', f')) (r : CountedRun cfg s f) : CountedRun cfg s' f' := by
  induction l generalizing s f with
  | nil => cases h; exact r
  | cons a l ih =>
    simp only [execRun] at h
    cases hs : step cfg s a with
    | ok s1 => rw [hs] at h; exact ih (fun a ha => hl a (List.mem_cons_of_mem _ ha)) h (r.step (hl a List.mem_cons_self) hs)
    | blocked => rw [hs] at h; cases h
    | ub => rw [hs] at h; cases h

/-- The demo execution, then one insertion into pool 0 and one into arena 2 panic, and another call has a box in flight:
pool 0 has 3 distinct values, one lost box and one box in flight; arena 2 has 3 distinct values. -/
def Demo.memScript : List Demo.Cmd := Demo.script ++
  [.new 0 0 ⟨9, 0⟩, .run 0 0, .run 0 0, .run 0 6000, .panic 0, .new 0 2 ⟨9, 0⟩, .run 0 0, .run 0 0, .run 0 7000, .panic 0,
   .new 1 0 ⟨11, 0⟩, .run 1 0, .run 1 0, .run 1 8000]

example : ∃ s f, CountedRun Demo.cfg s f ∧ 0 ∉ s.gone ∧ 2 ∉ s.gone ∧ boxes s 0 = 5 ∧ (interned s.log 0).length = 3 ∧ inFlight s 0 = 1 ∧
    f 0 = 1 ∧ boxes s 2 = 3 ∧ (interned s.log 2).length = 3 := by
  have h : ((execRun Demo.cfg init (fun _ => 0) (Demo.memScript.map Demo.Cmd.act)).map fun x => decide (0 ∉ x.1.gone ∧
      2 ∉ x.1.gone ∧ boxes x.1 0 = 5 ∧ (interned x.1.log 0).length = 3 ∧ inFlight x.1 0 = 1 ∧ x.2 0 = 1 ∧ boxes x.1 2 = 3 ∧
      (interned x.1.log 2).length = 3)) = some true := by decide
  cases hx : execRun Demo.cfg init (fun _ => 0) (Demo.memScript.map Demo.Cmd.act) with
  | none => rw [hx] at h; cases h
  | some x =>
    rw [hx] at h
    exact ⟨x.1, x.2, execRun_run (Demo.lawful _) hx .init, of_decide_eq_true (Option.some.inj h)⟩

end Pool
