import Verif.Arc.ReentrantInv
import Verif.Props.ArcSafety
/-!
C79: `ArcIntern` when destructors use the interner. Model in `Verif/Arc/Reentrant.lean`: destructors of interned values and of unused
arguments intern, clone and drop handles, take handles out of the value being destroyed and put others in, nested to any depth, in any
number of threads.
-/
namespace Arc.Re
variable {V : Type} [BEq V] [Hashable V] [EquivBEq V] [LawfulHashable V]

/-! ### Checked executions for the examples -/

/-- Not a panic. -/
def Act.plain : Act V → Bool
  | .act a => a.plain
  | _ => true

/-- Run actions, checking that each is allowed and that no object has too many handles. -/
def checkedRe (cfg : Cfg V) (r : State V) : List (Act V) → Option (State V)
  | [] => some r
  | a :: as => match step cfg r a with
    | .ok r' =>
      if a.plain && decide ((allHandles cfg r'.base).length < cfg.W) then checkedRe cfg r' as else none
    | _ => none

omit [EquivBEq V] [LawfulHashable V] in
theorem checkedRe_reach {cfg : Cfg V} (as : List (Act V)) :
    ∀ {r r' : State V}, ReachND cfg r → checkedRe cfg r as = some r' → ReachND cfg r' := by
  induction as with
  | nil => intro r r' h e; cases e; exact h
  | cons a as ih =>
    intro r r' h e
    simp only [checkedRe] at e
    cases hs : step cfg r a with
    | ok r1 =>
      rw [hs] at e
      simp only at e
      split at e
      · rename_i hc
        rw [Bool.and_eq_true] at hc
        refine ih (.step h ?_ ?_ hs (small_of_length (by simpa using hc.2))) e
        · cases a with
          | act a => cases a <;> simp_all [Act.Sane, Arc.Act.Sane, Act.plain, Arc.Act.plain]
          | _ => trivial
        · cases a with
          | act a => cases a <;> simp_all [dropPanic, Arc.dropPanic, Act.plain, Arc.Act.plain]
          | _ => exact id
      · cases e
    | blocked => rw [hs] at e; cases e
    | ub => rw [hs] at e; cases e

def demoRe (as : List (Act Val)) : State Val := (checkedRe demoCfg init as).getD init

theorem demoRe_reach {as : List (Act Val)} (h : (checkedRe demoCfg init as).isSome = true) : ReachND demoCfg (demoRe as) := by
  cases e : checkedRe demoCfg init as with
  | none => rw [e] at h; cases h
  | some r => simp only [demoRe, e, Option.getD_some]; exact checkedRe_reach as .init e

/-- An object at 20 that holds the last handle to one at 10 dies. Its destructor starts to make calls (as thread 1), takes the handle
out, and interns a new value that holds it (at 30). -/
def rescueTrace : List (Act Val) :=
  (nestedTrace ++ [.drop 0 10, r 0, .drop 0 20, r 0, r 0, r 0]).map .act ++
  [.enter 0, .take 0 10, .act (.new 1 ⟨7, 0, [10]⟩ false), .act (r 1), .act (r 1 30), .act (r 1)]

/-- … and finishes; the new object survives and holds the old inner one. -/
def rescuedTrace : List (Act Val) := rescueTrace ++ [.act (r 1), .act (r 1), .act (r 1), .leave 1]

/-- The destructor drops the handle it took itself, and the destructor of the inner object makes calls too (as thread 2). -/
def deepTrace : List (Act Val) :=
  (nestedTrace ++ [.drop 0 10, r 0, .drop 0 20, r 0, r 0, r 0]).map .act ++
  [.enter 0, .take 0 10, .act (.drop 1 10), .act (r 1), .act (r 1), .act (r 1), .enter 1, .act (.new 2 ⟨5, 9, []⟩ false)]

example : (demoRe rescueTrace).nested = [(1, 0)] ∧ (demoRe rescueTrace).base.locks 1 = some 1 := by decide
example : (demoRe deepTrace).nested = [(2, 1), (1, 0)] ∧ (demoRe deepTrace).base.threads.map (·.isIdle) = [true, true, false] := by decide

/-! ### The properties -/

omit [EquivBEq V] [LawfulHashable V] in
/-- The executions of `Verif/Arc/Model.lean` are executions here. -/
theorem C79_extends {cfg : Cfg V} {s : Arc.State V} (h : Arc.Reach cfg s) : Reach cfg ⟨s, []⟩ := by
  induction h with
  | init => exact .init
  | @step s s' a _ hs h hsm ih =>
    refine .step (a := .act a) ih hs ?_ hsm
    cases ht : a.tid <;> simp [step, suspended, h, ht]

/-- C79 (a). No step touches freed memory. -/
theorem C79_no_use_after_free {cfg : Cfg V} (hv : cfg.Valid) {r : State V} (h : Reach cfg r) (a : Act V) (hs : a.Sane) :
    step cfg r a ≠ .ub :=
  step_no_ub hv (reach_re hv h) hs

/-- C79 (b). Every existing handle — of clients, of running calls, in values, in values being destroyed — points to an allocated,
registered object, and `refcount()` is the number of handles to it. -/
theorem C79_handles {cfg : Cfg V} (hv : cfg.Valid) {r : State V} (h : Reach cfg r) {p : Addr} (hp : p ∈ allHandles cfg r.base) :
    (deref r.base p).isSome = true ∧ p ∈ r.base.table ∧ refcount r.base p = some ((allHandles cfg r.base).count p) := by
  have hI := (reach_re hv h).base
  obtain ⟨x, hx⟩ := hI.deref_some hp
  exact ⟨by rw [hx]; rfl, hI.in_table hp, inv_refcount_exact hI hp⟩

/-- C79 (c). Handles are equal exactly when their values are. -/
theorem C79_canonical {cfg : Cfg V} (hv : cfg.Valid) {r : State V} (h : Reach cfg r) {a b : Addr}
    (ha : a ∈ allHandles cfg r.base) (hb : b ∈ allHandles cfg r.base) :
    ∃ x y, deref r.base a = some x ∧ deref r.base b = some y ∧ (handleEq a b = true ↔ (x == y) = true) :=
  inv_canonical (reach_re hv h).base ha hb

example : ReachND demoCfg (demoRe rescueTrace) ∧ 10 ∈ allHandles demoCfg (demoRe rescueTrace).base :=
  ⟨demoRe_reach (by decide), by decide⟩
example : ReachND demoCfg (demoRe deepTrace) := demoRe_reach (by decide)

/-- C79 (d). While an object continuously has a handle its value stays the very same. -/
theorem C79_value_stable {cfg : Cfg V} (hv : cfg.Valid) {r r' : State V} (h : Reach cfg r) {p : Addr}
    (e : ExecIn cfg (fun x => p ∈ allHandles cfg x.base) r r') :
    (deref r.base p).isSome = true ∧ deref r'.base p = deref r.base p := by
  have key : p ∈ allHandles cfg r.base ∧ p ∈ allHandles cfg r'.base ∧ deref r'.base p = deref r.base p := by
    induction e with
    | refl hP => exact ⟨hP, hP, rfl⟩
    | step e' h1 h2 h3 hP ih =>
      obtain ⟨i1, i2, i3⟩ := ih
      have hI := reach_re hv (ExecIn.reach h e')
      exact ⟨i1, hP, (re_data hI h1 h2 (hI.base.in_table i2)).trans i3⟩
  exact ⟨(C79_handles hv h key.1).1, key.2.2⟩

/-- C79 (e). A call `new(v)`, made by a client or by a destructor, during which destructors run, returns a handle to a value equal to
`v`, counted. -/
theorem C79_new_returns_equal {cfg : Cfg V} (hv : cfg.Valid) {r0 r1 r2 r3 : State V} (h : Reach cfg r0) {t : Tid} {v : V} {dst : Bool}
    {a p : Addr} (hcall : step cfg r0 (.act (.new t v dst)) = .ok r1) (hs1 : Small cfg r1.base)
    (hrun : ExecIn cfg (fun r => InCall t r.base) r1 r2)
    (hlast : step cfg r2 (.act (.run t a)) = .ok r3) (hs3 : Small cfg r3.base) (hret : r3.base.handles = p :: r2.base.handles) :
    (∃ x, deref r3.base p = some x ∧ (x == v) = true) ∧ refcount r3.base p = some ((allHandles cfg r3.base).count p) := by
  have hr1 : Reach cfg r1 := .step h (by simp [Act.Sane, Arc.Act.Sane]) hcall hs1
  have hr2 := ExecIn.reach hr1 hrun
  have hr3 : Reach cfg r3 := .step hr2 (by simp [Act.Sane, Arc.Act.Sane]) hlast hs3
  have harg : ∃ th, r2.base.threads[t]? = some th ∧ (th.arg = some v ∨ th.arg = none) := by
    clear hlast hr2 hret
    induction hrun with
    | refl hP =>
      have hR := step_StepR hcall
      cases hR with
      | act _ s h0 hn =>
        have hR := step_R h0
        cases hR with
        | new _ _ _ th0 ht0 => exact ⟨_, set_self ht0, Or.inl rfl⟩
    | @step r r' ac e hsane hst hsm hP ih =>
      have hre := reach_re hv (ExecIn.reach hr1 e)
      obtain ⟨th, ht, harg⟩ := ih
      have hid : th.isIdle = false := by
        have : InCall t r.base := by cases e <;> assumption
        obtain ⟨th', ht', hid⟩ := this
        rw [ht] at ht'; cases ht'; exact hid
      have hR := step_StepR hst
      cases hR with
      | act ac s h0 hn =>
        obtain ⟨th', ht', hid'⟩ := hP
        refine ⟨th', ht', ?_⟩
        by_cases htid : ac.tid = some t
        · rcases (step_own hre.base hsane h0 htid ht hid ht' hid').1 with h | h
          · rw [h]; exact harg
          · exact Or.inr h
        · have := step_other h0 htid ht
          rw [ht'] at this; cases this
          exact harg
      | enter u thu hu hd hn =>
        exact ⟨th, by simp only; rw [List.getElem?_append_left (getElem?_lt ht)]; exact ht, harg⟩
      | leave => exact ⟨th, ht, harg⟩
      | take u q thu hu hm hq =>
        simp only [State.setThread]
        rw [set_getElem? _ _ _ _ _ hu]
        by_cases e : t = u
        · subst e; rw [ht] at hu; cases hu
          exact ⟨_, if_pos rfl, harg⟩
        · exact ⟨th, by rw [if_neg e]; exact ht, harg⟩
      | put u q thu hu hm hq =>
        simp only [State.setThread]
        rw [set_getElem? _ _ _ _ _ hu]
        by_cases e : t = u
        · subst e; rw [ht] at hu; cases hu
          exact ⟨_, if_pos rfl, harg⟩
        · exact ⟨th, by rw [if_neg e]; exact ht, harg⟩
  obtain ⟨th, ht, harg⟩ := harg
  have hR := step_StepR hlast
  cases hR with
  | act _ s h0 hn =>
    obtain ⟨th', ht', hpc, htodo, hret', hs3'⟩ := ret_step h0 hret
    rw [ht] at ht'; cases ht'
    obtain ⟨w, hw, hm, x, hx, hxw⟩ := ((reach_re hv hr2).base.th t th ht).ret p hret'
    have hwv : w = v := by
      rcases harg with h | h <;> rw [h] at hw <;> cases hw; rfl
    subst hwv
    refine ⟨⟨x.data, by simp [deref, hs3', State.setThread, hx], hxw⟩, ?_⟩
    exact inv_refcount_exact (reach_re hv hr3).base (by simp only [allHandles]; rw [hret]; simp)

/-- The call of the destructor in the example returns 30. -/
example : (demoRe (rescueTrace ++ [.act (r 1), .act (r 1), .act (r 1)])).base.handles =
    30 :: (demoRe (rescueTrace ++ [.act (r 1), .act (r 1)])).base.handles := by decide

/-- C79 (f). When nothing is in progress, the registered objects are exactly those that can be reached from handles of clients through
handles stored in values; if clients hold none, the table is empty and all memory has been freed. -/
theorem C79_reclaimed {cfg : Cfg V} (hv : cfg.Valid) {r : State V} (h : ReachND cfg r) (hq : Quiescent r) :
    (∀ q, q ∈ r.base.table ↔ ∃ p ∈ r.base.handles, Points cfg r.base p q) ∧
    (r.base.handles = [] → numObjects r.base = 0 ∧ r.base.heap = []) := by
  have hI := (reach_re hv h.reach).base
  exact ⟨inv_nested_exact hI h.zombies hq.1, inv_no_leak hI h.zombies hq.1⟩

example : ReachND demoCfg (demoRe rescuedTrace) ∧ Quiescent (demoRe rescuedTrace) ∧ (demoRe rescuedTrace).base.handles = [30] ∧
    (demoRe rescuedTrace).base.table = [30, 10] :=
  ⟨demoRe_reach (by decide), ⟨by unfold Arc.Quiescent; decide, by decide⟩, by decide, by decide⟩

/-- C79 (g). Deadlock freedom: if something is in progress, an unfinished call or destruction that is not suspended can take a step, or a
destructor whose calls are finished can return. -/
theorem C79_deadlock_free {cfg : Cfg V} (hv : cfg.Valid) {r : State V} (h : Reach cfg r) (hq : ¬ Quiescent r) :
    (∃ t a r', suspended r t = false ∧ InCall t r.base ∧ step cfg r (.act (.run t a)) = .ok r') ∨
    (∃ u r', step cfg r (.leave u) = .ok r') := by
  have hI := reach_re hv h
  have lift : ∀ {t : Tid} {a : Addr} {s : Arc.State V}, suspended r t = false → Arc.step cfg r.base (.run t a) = .ok s →
      step cfg r (.act (.run t a)) = .ok ⟨s, r.nested⟩ := by
    intro t a s h1 h2
    simp [step, Arc.Act.tid, h1, h2]
  by_cases hl : ∃ i u, r.base.locks i = some u
  · obtain ⟨i, u, hl⟩ := hl
    obtain ⟨s', hs'⟩ := holder_enabled hv hI.base hl 0
    obtain ⟨th, hu, hh⟩ := (hI.base.lk i u).mp hl
    have hsus : suspended r u = false := by
      rw [suspended_not]
      intro hm
      obtain ⟨x, hx, rfl⟩ := List.mem_map.mp hm
      obtain ⟨th', hu', hd⟩ := hI.idle x hx
      rw [hu] at hu'; cases hu'
      rw [hd] at hh; cases hh
    exact .inl ⟨u, 0, _, hsus, ⟨th, hu, holds_notIdle hh⟩, lift hsus hs'⟩
  · have hnone : ∀ i, r.base.locks i = none := by
      intro i
      cases hi : r.base.locks i with
      | none => rfl
      | some u => exact absurd ⟨i, u, hi⟩ hl
    by_cases hrun : ∃ (t : Tid) (th : Thread V), suspended r t = false ∧ r.base.threads[t]? = some th ∧ th.isIdle = false
    · obtain ⟨t, th, hsus, ht, hid⟩ := hrun
      obtain ⟨a, ha⟩ := fresh_addr r.base.heap
      obtain ⟨s', hs'⟩ := run_enabled hv hI.base ht hid (Or.inl ha) (fun i _ => hnone i)
      exact .inl ⟨t, a, _, hsus, ⟨th, ht, hid⟩, lift hsus hs'⟩
    · have hidle : ∀ (t : Tid) (th : Thread V), suspended r t = false → r.base.threads[t]? = some th → th.isIdle = true := by
        intro t th h1 h2
        cases hid : th.isIdle with
        | true => rfl
        | false => exact absurd ⟨t, th, h1, h2, hid⟩ hrun
      cases hnest : r.nested with
      | nil =>
        refine absurd ⟨fun th hth => ?_, hnest⟩ hq
        obtain ⟨t, ht⟩ := List.getElem?_of_mem hth
        exact hidle t th (by simp [suspended, hnest]) ht
      | cons x l =>
        have h1 : suspended r x.1 = false := suspended_not.mpr (head_free hI hnest)
        have hlt := (hI.num x (by simp [hnest])).1
        have hth := List.getElem?_eq_getElem hlt
        have h2 := hidle _ _ h1 hth
        refine .inr ⟨x.1, ⟨r.base, r.nested.filter fun y => y.1 != x.1⟩, ?_⟩
        have h3 : (r.nested.any fun y => y.1 == x.1) = true := by simp [hnest]
        simp [step, hth, h1, h2, h3]

/-- C79 (h). From every reachable state (with room in the counters for the running calls) everything in progress can be completed: the
running calls and drops by running them, the destructors by returning. -/
theorem C79_completable {cfg : Cfg V} (hv : cfg.Valid) {r : State V} (h : ReachND cfg r)
    (hroom : ∀ p, (allHandles cfg r.base).count p + pendingNews r.base < cfg.W) :
    ∃ r', Runs cfg r r' ∧ Quiescent r' :=
  re_complete hv _ (Nat.lt_succ_self _) (reach_re hv h.reach) ⟨(reach_re hv h.reach).base, hroom, h.zombies⟩

/-- The hypotheses are met by a state with two nested destructors, the inner one in the middle of a call. -/
example : ReachND demoCfg (demoRe deepTrace) ∧ ¬ Quiescent (demoRe deepTrace) ∧
    ∀ p, (allHandles demoCfg (demoRe deepTrace).base).count p + pendingNews (demoRe deepTrace).base < demoCfg.W :=
  ⟨demoRe_reach (by decide), fun h => absurd h.2 (by decide), fun p => by
    have : allHandles demoCfg (demoRe deepTrace).base = [] := by decide
    rw [this, List.count_nil]; decide⟩

end Arc.Re
