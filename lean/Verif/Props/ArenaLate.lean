import Verif.Pool.LateFacts
/-
Property C75: `Arena` drops the argument of a call that found its value after it has released its mutex (src/arena.rs).

Reading guide. `LateReach cfg x`: `x` is reached by any interleaving of any number of threads making lawful calls on any
pools, also from the destructors of arguments, with panics in user code anywhere (`Verif/Pool/Late.lean`). `x.late`: the
arena calls whose argument is being dropped; `x.base.threads[t]? = some .idle`: thread `t` is not inside a call, except
for such destructors; `x.base.done`: the calls that have returned; `x.base.gone`: the arenas that have been dropped.
-/
namespace Pool
variable {K V : Type} [DecidableEq K] [BEq V] [Hashable V] [EquivBEq V] [LawfulHashable V]

/-- **C75, no lock is held.** While user code runs in the destructor of an argument of an arena call (the thread is
between calls), its thread holds no mutex at all. -/
theorem C75_destructor_holds_no_lock {cfg : Cfg K V} (lay : cfg.Layout) {x : LateState K V} (r : LateReach cfg x)
    {e : Entry K V} (_he : e ∈ x.late) (ht : x.base.threads[e.tid]? = some .idle) (i : Nat) :
    x.base.lock i ≠ some e.tid := by
  obtain ⟨b, rb, c⟩ := r.covered
  intro h
  have hb : b.lock i = some e.tid := by rw [c.same]; exact h
  obtain ⟨pc, h1, h2⟩ := (rb.inv lay).held i e.tid hb
  have h1' : x.base.threads[e.tid]? = some pc := by rw [c.same] at h1; exact h1
  rw [ht] at h1'
  cases h1'
  cases h2

/-- **C75, the destructor may intern.** From the destructor of an argument any lawful call on any arena or `Intern` pool
that is not being used by another thread — in particular on the very same arena, which cannot have been dropped —
returns after at most five steps of the thread, and leaves the pending destructors as they were. -/
theorem C75_destructor_may_intern {cfg : Cfg K V} (lay : cfg.Layout) {x : LateState K V} (r : LateReach cfg x)
    {e : Entry K V} (he : e ∈ x.late) (ht : x.base.threads[e.tid]? = some .idle) {o : Op K V} (hl : o.Lawful)
    (hg : o.pool = e.op.pool ∨ o.pool ∉ x.base.gone) (hlock : x.base.lock (cfg.lockOf o.pool) = none) :
    ∃ x1 n x2 v, lateStep cfg x (.call e.tid o) = .ok x1 ∧ n ≤ 5 ∧ LateSolo cfg e.tid n x1 x2 ∧
      x2.base.threads[e.tid]? = some .idle ∧ x2.base.done = ⟨e.tid, o, v⟩ :: x.base.done ∧ x2.late = x.late := by
  have hg' : o.pool ∉ x.base.gone := hg.elim (fun h => h ▸ (r.late_ok lay e he).2) id
  have h1 : lateStep cfg x (.call e.tid o) = .ok { x with base := x.base.at e.tid (.want o) } := by
    simp only [lateStep, step, ht, if_neg hg', LateState.lift]
  have r1 := r.step (a := .call e.tid o) hl h1
  have ht1 : (x.base.at e.tid (.want o)).threads[e.tid]? = some (.want o) := getElem?_set_self' ht
  have h2 : ∃ x2, lateStep cfg { x with base := x.base.at e.tid (.want o) } (.run e.tid 0) = .ok x2 ∧
      x2.base.threads[e.tid]? = some (.inside o) ∧ x2.base.done = x.base.done ∧ x2.late = x.late := by
    simp only [lateStep, ht1, step, run]
    rw [if_neg (by show ¬ (x.base.lock _).isSome = true; rw [hlock]; simp)]
    exact ⟨_, rfl, getElem?_set_self' ht1, rfl, rfl⟩
  obtain ⟨x2, h2, ht2, hd2, hl2⟩ := h2
  have r2 := r1.step (a := .run e.tid 0) True.intro h2
  obtain ⟨n, x3, v, hn, hsolo, hidle, hd, hlate⟩ := late_finishes lay 4 r2 ht2 rfl rfl (Nat.le_refl 4)
  exact ⟨_, n + 1, x3, v, h1, by omega, .head h2 hsolo, hidle, by rw [hd, hd2], by rw [hlate, hl2]⟩

/-- **C75, contrast.** In an `Intern` pool the destructor of the argument runs (and may panic) under the lock: while it
runs, every call that needs the mutex of that pool, by whichever thread, is stuck. -/
theorem C75_intern_destructor_locks {cfg : Cfg K V} (lay : cfg.Layout) {x : LateState K V} (r : LateReach cfg x)
    {t : Tid} {k : K} {q : Query V} {v : V} {p : Ptr} (ht : x.base.threads[t]? = some (.dropArg k q v p))
    (hw : cfg.owns k = false) :
    (∃ x', lateStep cfg x (.panic t) = .ok x') ∧
    ∀ (u : Tid) (o : Op K V), x.base.threads[u]? = some (.want o) → cfg.lockOf o.pool = cfg.lockOf k → ∀ a,
      lateStep cfg x (.run u a) = .blocked := by
  obtain ⟨b, rb, c⟩ := r.covered
  have hb : b.threads[t]? = some (.dropArg k q v p) := by rw [c.same]; exact ht
  have hlock : b.lock (cfg.lockOf k) = some t := (rb.inv lay).holder t _ _ hb rfl
  have hx : x.base.lock (cfg.lockOf k) = some t := by rw [c.same] at hlock; exact hlock
  refine ⟨?_, fun u o hu hk a => ?_⟩
  · simp only [lateStep, ht, hw, step, runPanic]
    exact ⟨_, rfl⟩
  · simp only [lateStep, hu, step, run, hk, hx, Option.isSome_some, if_true, LateState.lift]

omit [DecidableEq K] [BEq V] [Hashable V] [EquivBEq V] [LawfulHashable V] in
/-- The innermost running destructor of a thread. -/
theorem innermost {l : List (Entry K V)} {t : Tid} (he : ∃ e ∈ l, e.tid = t) :
    ∃ newer e older, l = newer ++ e :: older ∧ e.tid = t ∧ (∀ e' ∈ newer, e'.tid ≠ t) ∧
      l.find? (fun e => decide (e.tid = t)) = some e ∧ l.eraseP (fun e => decide (e.tid = t)) = newer ++ older := by
  obtain ⟨e0, he0, ht0⟩ := he
  obtain ⟨e, newer, older, h1, h2, h3, h4⟩ := List.exists_of_eraseP he0 (p := fun e => decide (e.tid = t)) (by simpa using ht0)
  refine ⟨newer, e, older, h3, by simpa using h2, fun e' he' => by simpa using h1 e' he', ?_, h4⟩
  rw [h3, List.find?_append, List.find?_eq_none.mpr (fun e' he' => by simpa using h1 e' he')]
  simp only [List.find?_cons, h2]
  rfl

/-- **C75, a destructor ends:** whatever other threads are doing, in the next step of its thread the call that started
the innermost destructor returns the handle it found; nothing else changes. -/
theorem C75_destructor_ends {cfg : Cfg K V} {x : LateState K V} {t : Tid}
    (ht : x.base.threads[t]? = some .idle) (he : ∃ e ∈ x.late, e.tid = t) (a : Nat) :
    ∃ newer e older, x.late = newer ++ e :: older ∧ e.tid = t ∧ (∀ e' ∈ newer, e'.tid ≠ t) ∧
      lateStep cfg x (.run t a) =
        .ok { base := { x.base with done := e :: x.base.done }, late := newer ++ older } := by
  obtain ⟨newer, e, older, h1, h2, h3, h4, h5⟩ := innermost he
  exact ⟨newer, e, older, h1, h2, h3, by simp only [lateStep, ht, h4, h5]⟩

/-- **C75, a panicking destructor** changes nothing but that the call which started it does not return: memory, sets,
mutexes, all other calls and the results already given are untouched. -/
theorem C75_destructor_panic {cfg : Cfg K V} {x : LateState K V} {t : Tid}
    (ht : x.base.threads[t]? = some .idle) (he : ∃ e ∈ x.late, e.tid = t) :
    ∃ newer e older, x.late = newer ++ e :: older ∧ e.tid = t ∧ (∀ e' ∈ newer, e'.tid ≠ t) ∧
      lateStep cfg x (.panic t) = .ok { base := x.base, late := newer ++ older } := by
  obtain ⟨newer, e, older, h1, h2, h3, h4, h5⟩ := innermost he
  exact ⟨newer, e, older, h1, h2, h3, by simp only [lateStep, ht, h4, h5]⟩

/-- **C75, results.** All calls that have taken effect, including those still dropping their argument and those whose
destructor panicked, form a correct sequential history; what has been returned is part of it. -/
theorem C75_linearizable {cfg : Cfg K V} (lay : cfg.Layout) {x : LateState K V} (r : LateReach cfg x) :
    Sequential x.base.log ∧ (∀ e ∈ x.base.done, e ∈ x.base.log) ∧ ∀ e ∈ x.late, e ∈ x.base.log := by
  obtain ⟨b, rb, c⟩ := r.covered
  have e : b.log = x.base.log := by rw [c.same]; rfl
  rw [← e]
  exact ⟨(rb.inv lay).seq, fun e he => rb.done_sub (c.done e he), fun e he => rb.done_sub (c.late e he)⟩

/-- **C75, handles.** Handles of an arena that has not been dropped (and of `Intern` pools) are equal exactly when the
values they point to are equal, exactly when the values interned are equal, and keep pointing to the same value whatever
happens later. -/
theorem C75_handles {cfg : Cfg K V} (lay : cfg.Layout) {x x' : LateState K V} (r : LateReach cfg x)
    (st : LateSteps cfg x x') {k : K} (hk : k ∉ x'.base.gone) {v w : V} {p p' : Ptr} (h : Returned x.base k v p)
    (h' : Returned x.base k w p') :
    ∃ y z, deref x.base k p = some y ∧ deref x.base k p' = some z ∧ deref x'.base k p = some y ∧
      deref x'.base k p' = some z ∧ (p = p' ↔ (y == z) = true) ∧ (p = p' ↔ (v == w) = true) := by
  obtain ⟨b, rb, c⟩ := r.covered
  obtain ⟨b', st', c'⟩ := st.covered c
  have hk' : k ∉ b'.gone := by rw [c'.same]; exact hk
  have hk0 : k ∉ b.gone := fun hc => hk' (st'.log.2.2 k hc)
  have d : ∀ p, deref b k p = deref x.base k p := fun p => by rw [c.same]; rfl
  have d' : ∀ p, deref b' k p = deref x'.base k p := fun p => by rw [c'.same]; rfl
  have lift : ∀ {v p}, Returned x.base k v p → Returned b k v p := fun ⟨t, q, h⟩ => ⟨t, q, c.done _ h⟩
  obtain ⟨y, z, h1, h2, h3, h4⟩ := C35_pointer_eq_iff_value_eq lay rb hk0 (lift h) (lift h')
  obtain ⟨y', a1, a2, _⟩ := C36_valid_until_dropped lay rb st' hk' (lift h)
  obtain ⟨z', b1, b2, _⟩ := C36_valid_until_dropped lay rb st' hk' (lift h')
  rw [h1] at a1
  rw [h2] at b1
  cases a1; cases b1
  rw [d] at h1 h2
  rw [d'] at a2 b2
  exact ⟨y, z, h1, h2, a2, b2, h3, h4⟩

/-- **C75, memory safety.** No call, destructor or panic touches freed memory, and neither does a read through a handle
that has been returned, until the arena is dropped. -/
theorem C75_no_use_after_free {cfg : Cfg K V} (lay : cfg.Layout) {x : LateState K V} (r : LateReach cfg x) :
    (∀ a : Act K V, a.Lawful → lateStep cfg x a ≠ .ub) ∧
    ∀ k ∉ x.base.gone, ∀ v p, Returned x.base k v p → lateStep cfg x (.read k p) = .ok x := by
  obtain ⟨b, rb, c⟩ := r.covered
  have nub : ∀ a : Act K V, a.Lawful → step cfg x.base a ≠ .ub := by
    intro a hl h
    -- undefined behaviour does not depend on the list of returned calls
    have : step cfg b a = .ub := by
      rw [c.same]
      cases a with
      | spawn => cases h
      | call t o =>
        simp only [step] at h
        split at h
        · split at h <;> cases h
        · cases h
      | run t a =>
        have e0 : (x.base.withDone b.done).threads = x.base.threads := rfl
        simp only [step, e0] at h ⊢
        split at h
        · rename_i pc ht
          cases pc with
          | idle => cases h
          | want o => simp only [run] at h; split at h <;> cases h
          | inside o =>
            have e1 : tableOk (x.base.withDone b.done) o.pool = tableOk x.base o.pool := rfl
            simp only [run, e1] at h ⊢
            split at h
            · cases o with
              | intern k q mk => simp only at h; split at h <;> cases h
              | query k q => cases h
              | len k => cases h
              | clear k => simp only at h; split at h <;> cases h
            · rename_i hc
              exact if_neg hc
          | build k q mk => simp only [run] at h; split at h <;> cases h
          | insert k q mk p =>
            have e1 : tableOk (x.base.withDone b.done) k = tableOk x.base k := rfl
            simp only [run, e1] at h ⊢
            split at h
            · split at h <;> cases h
            · rename_i hc
              exact if_neg hc
          | dropArg k q mk p => cases h
          | leave o v => cases h
        · cases h
      | panic t =>
        simp only [step] at h
        split at h
        · rename_i pc ht
          cases pc <;> cases h
        · cases h
      | dropArena k => simp only [step] at h; split at h <;> cases h
      | read k p => exact hl.elim
    exact C36_calls_never_ub lay rb hl this
  have lift : ∀ {a : Act K V}, a.Lawful → x.lift (step cfg x.base a) ≠ .ub := by
    intro a hl h
    have := nub a hl
    cases hs : step cfg x.base a with
    | ok s => rw [hs] at h; cases h
    | blocked => rw [hs] at h; cases h
    | ub => exact this hs
  refine ⟨fun a hl h => ?_, fun k hk v p h => ?_⟩
  · cases a with
    | spawn => exact lift hl h
    | call t o => exact lift hl h
    | read k p => exact hl.elim
    | dropArena k =>
      simp only [lateStep] at h
      split at h
      · cases h
      · exact lift hl h
    | panic t =>
      simp only [lateStep] at h
      split at h
      · split at h <;> cases h
      · split at h
        · cases h
        · exact lift hl h
      · exact lift hl h
    | run t a =>
      simp only [lateStep] at h
      split at h
      · split at h <;> cases h
      · split at h
        · cases h
        · exact lift hl h
      · exact lift hl h
  · obtain ⟨y, _, h1, _⟩ := C75_handles lay r .refl hk h h
    simp only [lateStep, step, h1, LateState.lift]

/-- **C75, deadlock freedom.** Whenever a call is unfinished or a destructor is running, some thread can take a step. -/
theorem C75_deadlock_free {cfg : Cfg K V} (lay : cfg.Layout) {x : LateState K V} (r : LateReach cfg x)
    (h : x.late ≠ [] ∨ ∃ (t : Tid) (pc : Pc K V), x.base.threads[t]? = some pc ∧ pc ≠ .idle) :
    ∃ t a x', lateStep cfg x (.run t a) = .ok x' := by
  have busy : (∃ (t : Tid) (pc : Pc K V), x.base.threads[t]? = some pc ∧ pc ≠ .idle) →
      ∃ t a x', lateStep cfg x (.run t a) = .ok x' := by
    rintro ⟨t, pc, ht, hne⟩
    obtain ⟨b, rb, c⟩ := r.covered
    obtain ⟨u, a, b', hs⟩ := C34_deadlock_free lay rb ⟨t, pc, by rw [c.same]; exact ht, hne⟩
    obtain ⟨l, _, hx⟩ := c.back hs
    refine ⟨u, a, ?_⟩
    simp only [lateStep]
    split
    · rename_i hu
      simp only [step, hu, run] at hx
      cases hx
    · split
      · exact ⟨_, rfl⟩
      · rw [hx]; exact ⟨_, rfl⟩
    · rw [hx]; exact ⟨_, rfl⟩
  rcases h with h | h
  · obtain ⟨e, he⟩ := List.exists_mem_of_ne_nil _ h
    have hlt := (r.late_ok lay e he).1
    by_cases hi : x.base.threads[e.tid]? = some .idle
    · refine ⟨e.tid, 0, ?_⟩
      simp only [lateStep, hi]
      cases hf : x.late.find? (fun e' => decide (e'.tid = e.tid)) with
      | some e1 => exact ⟨_, rfl⟩
      | none =>
        rw [List.find?_eq_none] at hf
        exact absurd (by simp) (hf e he)
    · exact busy ⟨e.tid, x.base.threads[e.tid], List.getElem?_eq_getElem hlt, fun c => hi (by rw [List.getElem?_eq_getElem hlt, c])⟩
  · exact busy h

/-! ### A concrete execution -/

/-- Arena 2. Thread 0 interns (5,1) and then the equal (5,2): the destructor of (5,2) runs. It interns (6,0), which is
new, and (5,3), a duplicate whose own destructor also runs, in the same arena; in the middle of this thread 1 interns
(5,4) and finishes. -/
def lateScript : List Demo.Cmd :=
  [.spawn, .spawn] ++ Demo.miss 0 2 ⟨5, 1⟩ 1000 ++ [.new 0 2 ⟨5, 2⟩, .run 0 0, .run 0 0, .run 0 0] ++
  Demo.miss 0 2 ⟨6, 0⟩ 2000 ++ [.new 0 2 ⟨5, 3⟩, .run 0 0, .run 0 0, .run 0 0] ++ Demo.hit 1 2 ⟨5, 4⟩

/-- In the middle: two destructors are running on thread 0, no mutex is held, three calls have returned. -/
theorem late_reach : ∃ x, LateReach Demo.cfg x ∧ x.base.threads[0]? = some .idle ∧
    x.late.map (fun e => (e.tid, e.op.pool, e.ret)) = [(0, 2, .ptr ⟨1000, 0⟩), (0, 2, .ptr ⟨1000, 0⟩)] ∧
    x.base.lock 102 = none ∧ 2 ∉ x.base.gone ∧
    Demo.results x.base = [(2, .ptr ⟨1000, 0⟩), (2, .ptr ⟨2000, 0⟩), (2, .ptr ⟨1000, 0⟩)] := by
  obtain ⟨x, h, c⟩ := lateScripted lateScript (fun x => (match x.base.threads[0]? with | some Pc.idle => true | _ => false) &&
    decide (x.late.map (fun e => (e.tid, e.op.pool, e.ret)) = [(0, 2, .ptr ⟨1000, 0⟩), (0, 2, .ptr ⟨1000, 0⟩)] ∧
      x.base.lock 102 = none ∧ 2 ∉ x.base.gone ∧
      Demo.results x.base = [(2, .ptr ⟨1000, 0⟩), (2, .ptr ⟨2000, 0⟩), (2, .ptr ⟨1000, 0⟩)])) (by decide)
  rw [Bool.and_eq_true, decide_eq_true_eq] at c
  refine ⟨x, h, ?_, c.2⟩
  have c1 := c.1
  split at c1
  · assumption
  · cases c1

/-- The hypotheses of `C75_destructor_holds_no_lock`, `C75_destructor_may_intern` (same arena),
`C75_destructor_ends`, `C75_destructor_panic` and `C75_deadlock_free` are met there. -/
example : ∃ x e, LateReach Demo.cfg x ∧ e ∈ x.late ∧ x.base.threads[e.tid]? = some .idle ∧
    x.base.lock (Demo.cfg.lockOf e.op.pool) = none ∧ x.late.length = 2 := by
  obtain ⟨x, h, h1, h2, h3, _⟩ := late_reach
  obtain ⟨e, l, he⟩ : ∃ e l, x.late = e :: l := by
    cases hl : x.late with
    | nil => rw [hl] at h2; cases h2
    | cons e l => exact ⟨e, l, rfl⟩
  have hlen := congrArg List.length h2
  rw [he] at h2
  simp only [List.map_cons, List.cons.injEq, Prod.mk.injEq] at h2
  refine ⟨x, e, h, by rw [he]; exact List.mem_cons_self, by rw [h2.1.1]; exact h1, ?_, by simpa using hlen⟩
  rw [h2.1.2.1]
  exact h3

/-- From there: the inner destructor panics, the outer one ends, its call returns the handle of (5,1), and a later call
counts two values. -/
example : ∃ x, LateReach Demo.cfg x ∧ x.late = [] ∧ Demo.results x.base =
    [(2, .ptr ⟨1000, 0⟩), (2, .ptr ⟨2000, 0⟩), (2, .ptr ⟨1000, 0⟩), (2, .ptr ⟨1000, 0⟩), (2, .num 2)] := by
  obtain ⟨x, h, c⟩ := lateScripted (lateScript ++ [.panic 0, .run 0 0, .len 0 2, .run 0 0, .run 0 0, .run 0 0])
    (fun x => x.late.isEmpty && decide (Demo.results x.base =
      [(2, .ptr ⟨1000, 0⟩), (2, .ptr ⟨2000, 0⟩), (2, .ptr ⟨1000, 0⟩), (2, .ptr ⟨1000, 0⟩), (2, .num 2)])) (by decide)
  rw [Bool.and_eq_true, decide_eq_true_eq] at c
  exact ⟨x, h, List.isEmpty_iff.mp c.1, c.2⟩

/-- The arena cannot be dropped while a destructor is running, and can afterwards. -/
example : ((lateExec Demo.cfg lateInit ((lateScript ++ [Demo.Cmd.dropArena 2]).map Demo.Cmd.act)).get?.isNone &&
    (lateExec Demo.cfg lateInit ((lateScript ++ [Demo.Cmd.run 0 0, .run 0 0, .dropArena 2]).map Demo.Cmd.act)).get?.isSome) = true := by
  decide

/-- The hypotheses of `C75_intern_destructor_locks`: thread 0 is dropping a duplicate of `Intern` pool 0, thread 1 wants to
intern in pool 1, which shares its mutex. -/
example : ∃ x, LateReach Demo.cfg x ∧ (∃ q v p, x.base.threads[0]? = some (.dropArg 0 q v p)) ∧
    ∃ o, x.base.threads[1]? = some (.want o) ∧ o.pool = 1 := by
  obtain ⟨x, h, c⟩ := lateScripted ([.spawn, .spawn] ++ Demo.miss 0 0 ⟨5, 1⟩ 1000 ++
      [.new 0 0 ⟨5, 2⟩, .run 0 0, .run 0 0, .new 1 1 ⟨7, 0⟩])
    (fun x => match x.base.threads with
      | [.dropArg 0 _ _ _, .want o] => decide (o.pool = 1)
      | _ => false) (by decide)
  split at c
  · rename_i q v p o ht
    exact ⟨x, h, ⟨q, v, p, by rw [ht]; rfl⟩, o, by rw [ht]; rfl, by simpa using c⟩
  · cases c

end Pool
