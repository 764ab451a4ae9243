import Verif.Pool.Demo
/-
The exact order in which `Arena` finishes a call that found its value (C75). In `Arena::intern(&self, val)` the guard `m`
is a local variable and `val` is a parameter (arena.rs:118-124; likewise `intern_from_owned`, arena.rs:156-166): on the
early `return` Rust drops locals before parameters, so the mutex is released first and the user's `Drop` of `val` runs
after that. `Verif/Pool/Model.lean` has the two steps in the opposite order for all pools (which is the order of
`Intern::new`, where `val` is captured by the closure that runs under the lock, intern.rs:210-213). Here the order is the
exact one for both, and the destructor, which runs unlocked, may itself call the interner, to any depth.
-/
namespace Pool
variable {K V : Type} [DecidableEq K]

/-- State. `base` is as in `Model.lean`: memory, sets, mutexes, and for each thread the innermost call it is executing
(`idle`: none). `late`: the arena calls that have found their value and released the mutex and whose argument is now
being dropped, newest first (a thread may have several: a destructor that interns a duplicate starts the next
destructor). `base.log` and `base.done` are the calls that have taken effect and those that have returned. -/
structure LateState (K V : Type) where
  base : State K V
  late : List (Entry K V)

def lateInit : LateState K V := { base := init, late := [] }

/-- A step of the base model. -/
def LateState.lift (x : LateState K V) : Res (State K V) → Res (LateState K V)
  | .ok s => .ok { x with base := s }
  | .blocked => .blocked
  | .ub => .ub

/-- The transition function; where nothing is said it is the one of `Model.lean`. -/
def lateStep [BEq V] [Hashable V] (cfg : Cfg K V) (x : LateState K V) : Act K V → Res (LateState K V)
  | .run t a => match x.base.threads[t]? with
    -- between calls: if a destructor is running on this thread it ends, and the call that started it returns
    -- (arena.rs:121-123)
    | some .idle => match x.late.find? (fun e => decide (e.tid = t)) with
      | some e => .ok { base := { x.base with done := e :: x.base.done },
                        late := x.late.eraseP (fun e => decide (e.tid = t)) }
      | none => .blocked
    -- the lookup in an arena hit `p`: the guard is dropped (arena.rs:119, 124), then the destructor of the argument starts
    | some (.dropArg k q mk p) =>
      if cfg.owns k then
        .ok { base := { (x.base.unlock (cfg.lockOf k)).at t .idle with
                        log := { tid := t, op := .intern k q mk, ret := .ptr p } :: x.base.log },
              late := { tid := t, op := .intern k q mk, ret := .ptr p } :: x.late }
      else x.lift (step cfg x.base (.run t a))
    | _ => x.lift (step cfg x.base (.run t a))
  | .panic t => match x.base.threads[t]? with
    -- a running destructor panics: the call that started it does not return
    | some .idle => match x.late.find? (fun e => decide (e.tid = t)) with
      | some _ => .ok { x with late := x.late.eraseP (fun e => decide (e.tid = t)) }
      | none => .blocked
    -- no user code runs between an arena's lookup and the release of its mutex
    | some (.dropArg k _ _ _) => if cfg.owns k then .blocked else x.lift (step cfg x.base (.panic t))
    | _ => x.lift (step cfg x.base (.panic t))
  -- a call that is dropping its argument still borrows the arena
  | .dropArena k =>
    if x.late.any (fun e => decide (e.op.pool = k)) then .blocked else x.lift (step cfg x.base (.dropArena k))
  -- calls may be made between calls and from running destructors
  | .call t o => x.lift (step cfg x.base (.call t o))
  | .spawn => x.lift (step cfg x.base .spawn)
  | .read k p => x.lift (step cfg x.base (.read k p))

variable [BEq V] [Hashable V]

/-- Reachable by any interleaving of lawful calls, with panics in user code anywhere. -/
inductive LateReach (cfg : Cfg K V) : LateState K V → Prop where
  | init : LateReach cfg lateInit
  | step {x x' a} : LateReach cfg x → Act.Lawful a → lateStep cfg x a = .ok x' → LateReach cfg x'

inductive LateSteps (cfg : Cfg K V) : LateState K V → LateState K V → Prop where
  | refl {x} : LateSteps cfg x x
  | tail {x x' x'' a} : LateSteps cfg x x' → Act.Lawful a → lateStep cfg x' a = .ok x'' → LateSteps cfg x x''

/-- Executions in which only thread `t` runs, without panics, with the number of steps. -/
inductive LateSolo (cfg : Cfg K V) (t : Tid) : Nat → LateState K V → LateState K V → Prop where
  | refl {x} : LateSolo cfg t 0 x x
  | head {x x' x'' a n} : lateStep cfg x (.run t a) = .ok x' → LateSolo cfg t n x' x'' → LateSolo cfg t (n + 1) x x''

/-! ### The base model covers the exact one -/

omit [DecidableEq K] [BEq V] [Hashable V] in
theorem lift_ok {x x' : LateState K V} {r : Res (State K V)} (h : x.lift r = .ok x') :
    ∃ s, r = .ok s ∧ x' = { x with base := s } := by
  cases r with
  | ok s => cases h; exact ⟨s, rfl, rfl⟩
  | blocked => cases h
  | ub => cases h

def State.withDone (s : State K V) (d : List (Entry K V)) : State K V := { s with done := d }

/-- What a step of the base model does, does not depend on the list of returned calls, to which it only adds. -/
theorem run_done {cfg : Cfg K V} {s s' : State K V} {t : Tid} {a : Nat} {pc : Pc K V} (h : run cfg s t a pc = .ok s')
    (d : List (Entry K V)) : ∃ l, s'.done = l ++ s.done ∧ run cfg (s.withDone d) t a pc = .ok (s'.withDone (l ++ d)) := by
  cases pc with
  | idle => cases h
  | want o =>
    simp only [run] at h ⊢
    split at h
    · cases h
    · rename_i hc
      cases h
      exact ⟨[], rfl, if_neg hc⟩
  | inside o =>
    have e1 : tableOk (s.withDone d) o.pool = tableOk s o.pool := rfl
    simp only [run, e1] at h ⊢
    split at h
    · rename_i hc
      simp only [hc, if_true]
      cases o with
      | intern k q mk =>
        have e2 : find (s.withDone d) k q = find s k q := rfl
        simp only [e2] at h ⊢
        cases hf : find s k q with
        | some p => rw [hf] at h; cases h; exact ⟨[], rfl, rfl⟩
        | none => rw [hf] at h; cases h; exact ⟨[], rfl, rfl⟩
      | query k q => cases h; exact ⟨[], rfl, rfl⟩
      | len k => cases h; exact ⟨[], rfl, rfl⟩
      | clear k =>
        simp only at h ⊢
        split at h
        · cases h
        · rename_i hc2
          cases h
          exact ⟨[], rfl, if_neg hc2⟩
    · cases h
  | build k q mk =>
    have e1 : allocAt cfg (s.withDone d) k mk a = allocAt cfg s k mk a := rfl
    simp only [run, e1] at h ⊢
    split at h
    · cases h
    · rename_i addr ha
      cases h
      exact ⟨[], rfl, rfl⟩
  | insert k q mk p =>
    have e1 : tableOk (s.withDone d) k = tableOk s k := rfl
    have e2 : find (s.withDone d) k (.ofVal mk) = find s k (.ofVal mk) := rfl
    simp only [run, e1, e2] at h ⊢
    split at h
    · rename_i hc
      simp only [hc, if_true]
      cases hf : find s k (.ofVal mk) with
      | some p' =>
        rw [hf] at h
        cases ho : cfg.owns k with
        | true => simp only [ho, if_true] at h ⊢; cases h; exact ⟨[], rfl, rfl⟩
        | false => simp only [ho] at h ⊢; cases h; exact ⟨[], rfl, rfl⟩
      | none => rw [hf] at h; cases h; exact ⟨[], rfl, rfl⟩
    · cases h
  | dropArg k q mk p => cases h; exact ⟨[], rfl, rfl⟩
  | leave o r => cases h; exact ⟨[_], rfl, rfl⟩

theorem step_done {cfg : Cfg K V} {s s' : State K V} {a : Act K V} (h : step cfg s a = .ok s') (d : List (Entry K V)) :
    ∃ l, s'.done = l ++ s.done ∧ step cfg (s.withDone d) a = .ok (s'.withDone (l ++ d)) := by
  cases a with
  | spawn => cases h; exact ⟨[], rfl, rfl⟩
  | call t o =>
    have e1 : (s.withDone d).threads = s.threads := rfl
    simp only [step, e1] at h ⊢
    split at h
    · rename_i ht
      split at h
      · cases h
      · rename_i hg
        cases h
        exact ⟨[], rfl, if_neg hg⟩
    · cases h
  | run t a =>
    have e1 : (s.withDone d).threads = s.threads := rfl
    simp only [step, e1] at h ⊢
    split at h
    · rename_i pc ht
      exact run_done h d
    · cases h
  | panic t =>
    have e1 : (s.withDone d).threads = s.threads := rfl
    simp only [step, e1] at h ⊢
    split at h
    · rename_i pc ht
      cases pc <;> cases h <;> exact ⟨[], rfl, rfl⟩
    · cases h
  | dropArena k =>
    simp only [step] at h ⊢
    split at h
    · rename_i hc
      cases h
      exact ⟨[], rfl, if_pos hc⟩
    · cases h
  | read k p =>
    have e1 : deref (s.withDone d) k p = deref s k p := rfl
    simp only [step, e1] at h ⊢
    split at h
    · rename_i hd
      cases h
      exact ⟨[], rfl, rfl⟩
    · cases h

/-- The base state `b` covers the exact state `x`: it is the same except that it may have more returned calls, among
them those still dropping their argument in `x`. -/
structure Covers (b : State K V) (x : LateState K V) : Prop where
  same : b = x.base.withDone b.done
  done : ∀ e ∈ x.base.done, e ∈ b.done
  late : ∀ e ∈ x.late, e ∈ b.done

theorem Covers.lift {cfg : Cfg K V} {b : State K V} {x : LateState K V} (c : Covers b x) {s : State K V} {a : Act K V}
    (hl : a.Lawful) (h : step cfg x.base a = .ok s) : ∃ b', Steps cfg b b' ∧ Covers b' { x with base := s } := by
  obtain ⟨l, h1, h2⟩ := step_done h b.done
  rw [← c.same] at h2
  refine ⟨_, .tail .refl hl h2, ⟨rfl, fun e he => ?_, fun e he => List.mem_append_right _ (c.late e he)⟩⟩
  have he : e ∈ l ++ x.base.done := by rw [← h1]; exact he
  rcases List.mem_append.mp he with he | he
  · exact List.mem_append_left _ he
  · exact List.mem_append_right _ (c.done e he)

theorem Covers.step {cfg : Cfg K V} {b : State K V} {x x' : LateState K V} (c : Covers b x) {a : Act K V}
    (hl : a.Lawful) (h : lateStep cfg x a = .ok x') : ∃ b', Steps cfg b b' ∧ Covers b' x' := by
  have lift : ∀ {r}, r = Pool.step cfg x.base a → x.lift r = .ok x' → ∃ b', Steps cfg b b' ∧ Covers b' x' := by
    rintro r rfl h
    obtain ⟨s, h1, rfl⟩ := lift_ok h
    exact c.lift hl h1
  cases a with
  | spawn => exact lift rfl h
  | call t o => exact lift rfl h
  | read k p => exact lift rfl h
  | dropArena k =>
    simp only [lateStep] at h
    split at h
    · cases h
    · exact lift rfl h
  | panic t =>
    simp only [lateStep] at h
    split at h
    · split at h
      · cases h
        exact ⟨b, .refl, ⟨c.same, c.done, fun e he => c.late e (List.mem_of_mem_eraseP he)⟩⟩
      · cases h
    · split at h
      · cases h
      · exact lift rfl h
    · exact lift rfl h
  | run t a =>
    simp only [lateStep] at h
    split at h
    · split at h
      · rename_i e he
        cases h
        refine ⟨b, .refl, ⟨c.same, fun e' he' => ?_, fun e he => c.late e (List.mem_of_mem_eraseP he)⟩⟩
        rcases List.mem_cons.mp he' with rfl | he'
        · exact c.late _ (List.mem_of_find?_eq_some he)
        · exact c.done _ he'
      · cases h
    · rename_i k q mk p ht
      split at h
      · cases h
        have hb : b.threads[t]? = some (.dropArg k q mk p) := by rw [c.same]; exact ht
        have h1 : Pool.step cfg b (.run t 0) = .ok (b.commit t (.intern k q mk) (.ptr p)) := by
          simp only [Pool.step, hb, run]
        have hb1 : (b.commit t (.intern k q mk) (.ptr p)).threads[t]? = some (.leave (.intern k q mk) (.ptr p)) := by
          show (b.threads.set t _)[t]? = _
          rw [List.getElem?_set_self (List.getElem?_eq_some_iff.mp hb).1]
        have h2 := show Pool.step cfg (b.commit t (.intern k q mk) (.ptr p)) (.run t 0) = .ok _ by
          simp only [Pool.step, hb1, run]; rfl
        refine ⟨_, .tail (.tail .refl (a := .run t 0) True.intro h1) (a := .run t 0) True.intro h2, ⟨?_, fun e he => ?_, fun e he => ?_⟩⟩
        · obtain ⟨d, hd⟩ : ∃ d, b = x.base.withDone d := ⟨_, c.same⟩
          subst hd
          simp only [State.withDone, State.commit, State.unlock, State.at, List.set_set]
          rfl
        · exact List.mem_cons_of_mem _ (c.done e he)
        · rcases List.mem_cons.mp he with rfl | he
          · exact List.mem_cons_self
          · exact List.mem_cons_of_mem _ (c.late e he)
      · exact lift rfl h
    · exact lift rfl h

theorem steps_trans {cfg : Cfg K V} {s s' s'' : State K V} (h : Steps cfg s s') (h' : Steps cfg s' s'') :
    Steps cfg s s'' := by
  induction h' with
  | refl => exact h
  | tail _ hl hs ih => exact ih.tail hl hs

theorem LateReach.covered {cfg : Cfg K V} {x : LateState K V} (h : LateReach cfg x) :
    ∃ b, Reach cfg b ∧ Covers b x := by
  induction h with
  | init => exact ⟨Pool.init, .init, ⟨rfl, fun _ h => h, fun _ h => h⟩⟩
  | step _ hl hs ih =>
    obtain ⟨b, rb, c⟩ := ih
    obtain ⟨b', st, c'⟩ := c.step hl hs
    exact ⟨b', st.reach rb, c'⟩

theorem LateSteps.covered {cfg : Cfg K V} {x x' : LateState K V} (h : LateSteps cfg x x') {b : State K V}
    (c : Covers b x) : ∃ b', Steps cfg b b' ∧ Covers b' x' := by
  induction h with
  | refl => exact ⟨b, .refl, c⟩
  | tail _ hl hs ih =>
    obtain ⟨b1, st1, c1⟩ := ih
    obtain ⟨b2, st2, c2⟩ := c1.step hl hs
    exact ⟨b2, steps_trans st1 st2, c2⟩

end Pool
