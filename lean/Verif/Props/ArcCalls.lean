import Verif.Arc.Effects
import Verif.Arc.Demo
/-!
C06, C08, C09: what one complete call does. Vocabulary in `Verif/Arc/Spec.lean`.
-/
namespace Arc
variable {V : Type} [BEq V] [Hashable V]

/-! ### Auxiliary: the thread of a running call -/

omit [BEq V] [Hashable V] in
theorem setThread_get {s : State V} {u : Tid} {th' th : Thread V} (hu : s.threads[u]? = some th) (t : Tid) :
    (s.setThread u th').threads[t]? = if t = u then some th' else s.threads[t]? := by
  simp only [State.setThread]; exact set_getElem? _ _ _ _ _ hu

theorem step_other {cfg : Cfg V} {s s' : State V} {act : Act V} (h : step cfg s act = .ok s') {t : Tid}
    (hne : act.tid ≠ some t) {th : Thread V} (ht : s.threads[t]? = some th) : s'.threads[t]? = some th := by
  have hR := step_R h
  have key : ∀ {u : Tid} {x y : Thread V}, u ≠ t → s.threads[u]? = some x → (s.threads.set u y)[t]? = some th := by
    intro u x y hu hx
    rw [set_getElem? _ _ _ _ _ hx, if_neg (Ne.symm hu)]; exact ht
  cases hR with
  | spawn =>
    have : t < s.threads.length := by
      rcases Nat.lt_or_ge t s.threads.length with h | h
      · exact h
      · rw [List.getElem?_eq_none h] at ht; cases ht
    simp only; rw [List.getElem?_append_left this]; exact ht
  | run u a th' _ hu hr =>
    have hut : u ≠ t := fun e => hne (by simp [Act.tid, e])
    cases hr <;> exact key hut hu
  | new u v dst th' hu => exact key (fun e => hne (by simp [Act.tid, e])) hu
  | clone u => exact ht
  | read u => exact ht
  | drop u p th' hu => exact key (fun e => hne (by simp [Act.tid, e])) hu
  | len u lo up th' hu => exact key (fun e => hne (by simp [Act.tid, e])) hu
  | shrink u lo up th' hu => exact key (fun e => hne (by simp [Act.tid, e])) hu
  | panicLoop u th' c hu => exact key (fun e => hne (by simp [Act.tid, e])) hu
  | panicEntry u th' c b hu => exact key (fun e => hne (by simp [Act.tid, e])) hu
  | panicRemove u th' b hu => exact key (fun e => hne (by simp [Act.tid, e])) hu
  | panicShrink u th' i m hu => exact key (fun e => hne (by simp [Act.tid, e])) hu
  | panicInsert u th' c sh b hu => exact key (fun e => hne (by simp [Act.tid, e])) hu

/-- What an own step does to a thread in the middle of a call. -/
theorem effect_tid {cfg : Cfg V} {s : State V} {act : Act V} {o : Op V} (h : effect cfg s act = some o) :
    act.tid = some o.tid := by
  cases act with
  | clone t path =>
    simp only [effect] at h
    split at h <;> cases h
    rfl
  | run t a =>
    simp only [effect] at h
    split at h
    · cases h
    · split at h
      · split at h
        · split at h <;> cases h
          rfl
        · cases h
      · cases h; rfl
      · cases h; rfl
      · cases h
  | _ => simp [effect] at h

/-- The handle a call of `new` is committed to returning. -/
def Thread.done (th : Thread V) : Option Addr :=
  match th.pc with
  | .newHit _ _ b | .newInserted _ _ b => some b
  | _ => th.ret

/-- One own step of a thread inside a call: ghost argument, and interning effects against `done`. -/
theorem step_own {cfg : Cfg V} {s s' : State V} (hI : Inv cfg s) {act : Act V} (hsane : act.Sane)
    (h : step cfg s act = .ok s') {t : Tid} (htid : act.tid = some t) {th th' : Thread V}
    (ht : s.threads[t]? = some th) (hid : th.isIdle = false) (ht' : s'.threads[t]? = some th')
    (hid' : th'.isIdle = false) :
    (th'.arg = th.arg ∨ th'.arg = none) ∧
    (match effect cfg s act with
     | some (.intern _ v b) => th.done = none ∧ th'.done = some b ∧ th.arg = some v
     | some (.clone _ _) => False
     | some (.drop _ _) => th'.done = th.done
     | none => th'.done = th.done) := by
  have hR := step_R h
  have noidle : ∀ {th0 : Thread V}, s.threads[t]? = some th0 → th0.isIdle = true → False := by
    intro th0 h1 h2; rw [ht] at h1; cases h1; rw [hid] at h2; cases h2
  have new : ∀ {th0 x : Thread V} {l : List (Thread V)}, s.threads[t]? = some th0 →
      (s.threads.set t x)[t]? = some th' → x = th' := by
    intro th0 x l h1 h2
    rw [set_getElem? _ _ _ _ _ h1, if_pos rfl] at h2; cases h2; rfl
  cases hR with
  | spawn => cases htid
  | new u v dst th0 hu hi => cases htid; exact (noidle hu hi).elim
  | clone u p th0 _ _ hu hi => cases htid; exact (noidle hu hi).elim
  | read u p th0 _ hu hi => cases htid; exact (noidle hu hi).elim
  | drop u p th0 hu hi => cases htid; exact (noidle hu hi).elim
  | len u lo up th0 hu hi => cases htid; exact (noidle hu hi).elim
  | shrink u lo up th0 hu hi => cases htid; exact (noidle hu hi).elim
  | panicInsert => exact hsane.elim
  | panicLoop u th0 c hu hpc =>
    cases htid
    rw [ht] at hu; cases hu
    have := new (l := []) ht ht'; subst this
    have hnr := (hI.th t th ht).empty (by rw [hpc]; rfl)
    refine ⟨Or.inr rfl, ?_⟩
    simp only [effect, Thread.done, hpc, hnr.2, unwindCall]
    cases c.conv <;> rfl
  | panicEntry u th0 c b hu hpc =>
    cases htid
    rw [ht] at hu; cases hu
    have := new (l := []) ht ht'; subst this
    have hnr := (hI.th t th ht).empty (by rw [hpc]; rfl)
    refine ⟨Or.inr rfl, ?_⟩
    simp only [effect, Thread.done, hpc, hnr.2]
  | panicShrink u th0 i m hu hpc =>
    cases htid
    rw [ht] at hu; cases hu
    have := new (l := []) ht ht'; subst this
    have hnr := (hI.th t th ht).empty (by rw [hpc]; rfl)
    refine ⟨Or.inl rfl, ?_⟩
    simp only [effect, Thread.done, hpc, hnr.2]
  | panicRemove u th0 b hu hpc =>
    cases htid
    rw [ht] at hu; cases hu
    have := new (l := []) ht ht'; subst this
    refine ⟨Or.inl rfl, ?_⟩
    simp only [effect, Thread.done, hpc]
  | run u a th0 _ hu hr =>
    cases htid
    rw [ht] at hu; cases hu
    have hth := hI.th t th ht
    have hpi := hth.pc
    have hemp := hth.empty
    simp only [effect, ht]
    cases hr with
    | ret b hpc htodo hret =>
      have := new (l := []) ht ht'; subst this
      simp [Thread.isIdle] at hid'
    | hitRet c sh b hpc =>
      have := new (l := []) ht ht'; subst this
      refine ⟨Or.inl rfl, ?_⟩
      simp only [hpc, Thread.done, unwindCall]
      cases c.conv <;> rfl
    | inserted c sh b hpc =>
      have := new (l := []) ht ht'; subst this
      refine ⟨Or.inl rfl, ?_⟩
      simp only [hpc, Thread.done]
    | hit c sh b x hpc hx hc =>
      have := new (l := []) ht ht'; subst this
      rw [hpc] at hpi hemp
      refine ⟨Or.inl rfl, ?_⟩
      simp only [hpc, hx, if_pos hc]
      refine ⟨?_, rfl, hpi.1.1⟩
      simp only [Thread.done, hpc, (hemp rfl).2]
    | dying c sh b x hpc hx hc =>
      have := new (l := []) ht ht'; subst this
      refine ⟨Or.inl rfl, ?_⟩
      simp only [hpc, hx, hc, ne_eq, not_true_eq_false, if_false, Thread.done]
    | insert c sh b hpc =>
      have := new (l := []) ht ht'; subst this
      rw [hpc] at hpi hemp
      refine ⟨Or.inl rfl, ?_⟩
      simp only [hpc]
      refine ⟨?_, rfl, hpi.1.1⟩
      simp only [Thread.done, hpc, (hemp rfl).2]
    | _ =>
      have := new (l := []) ht ht'; subst this
      refine ⟨Or.inl rfl, ?_⟩
      simp only [Thread.done, *]

variable [EquivBEq V] [LawfulHashable V]

theorem RunOps.reach {cfg : Cfg V} {P : State V → Prop} {s s' : State V} {os : List (Op V)} (h : Reach cfg s)
    (e : RunOps cfg P s os s') : Reach cfg s' := by
  induction e with
  | refl _ => exact h
  | step _ h1 h2 h3 _ ih => exact .step ih h1 h2 h3

/-- Everything we need to know about thread `t` during a call `new(v)`. -/
theorem new_call {cfg : Cfg V} (hv : cfg.Valid) {s0 s1 s2 : State V} (h : Reach cfg s0) {t : Tid} {v : V} {dst : Bool}
    (h1 : step cfg s0 (.new t v dst) = .ok s1) (hs1 : Small cfg s1) {os : List (Op V)}
    (e : RunOps cfg (InCall t) s1 os s2) :
    ∃ th, s2.threads[t]? = some th ∧ (th.arg = some v ∨ th.arg = none) ∧
      (opsOf t os).filter (fun o => match o with | .drop _ _ => false | _ => true) =
        (th.done.map (Op.intern t v)).toList := by
  have hr1 : Reach cfg s1 := .step h (by simp [Act.Sane]) h1 hs1
  induction e with
  | refl hP =>
    obtain ⟨th, ht, hid⟩ := hP
    refine ⟨th, ht, ?_⟩
    have hR := step_R h1
    cases hR with
    | new _ _ _ th0 ht0 =>
      rw [show ∀ (s : State V) x hh, ({ s.setThread t x with handles := hh } : State V).threads = s.threads.set t x from
        fun _ _ _ => rfl] at ht
      rw [set_getElem? _ _ _ _ _ ht0, if_pos rfl] at ht; cases ht
      exact ⟨Or.inl rfl, rfl⟩
  | @step s' s'' os a e hsane hst hsm hP ih =>
    obtain ⟨th, ht, harg, hops⟩ := ih
    obtain ⟨th', ht', hid'⟩ := hP
    have hI := reach_inv hv (RunOps.reach hr1 e)
    refine ⟨th', ht', ?_⟩
    have hin : InCall t s' := by cases e <;> assumption
    obtain ⟨thx, htx, hid⟩ := hin
    rw [ht] at htx; cases htx
    by_cases htid : a.tid = some t
    · have hown := step_own hI hsane hst htid ht hid ht' hid'
      refine ⟨?_, ?_⟩
      · rcases hown.1 with h | h
        · rw [h]; exact harg
        · exact Or.inr h
      · have h2 := hown.2
        simp only [opsOf, List.filter_append] at hops ⊢
        rw [hops]
        cases he : effect cfg s' a with
        | none => rw [he] at h2; simp only at h2; simp [h2]
        | some o =>
          rw [he] at h2
          have hot := effect_tid he
          rw [htid, Option.some.injEq] at hot
          cases o with
          | clone => exact h2.elim
          | drop u q => simp only at h2; simp [h2]
          | intern u w b =>
            simp only at h2
            obtain ⟨d1, d2, d3⟩ := h2
            have : w = v := by
              rcases harg with h | h
              · rw [h] at d3; cases d3; rfl
              · rw [h] at d3; cases d3
            subst this
            simp only [Op.tid] at hot
            subst hot
            simp [d1, d2, Op.tid]
    · have := step_other hst htid ht
      rw [ht'] at this; cases this
      refine ⟨harg, ?_⟩
      rw [← hops]
      simp only [opsOf, List.filter_append]
      cases he : effect cfg s' a with
      | none => simp
      | some o =>
        have hot := effect_tid he
        have : o.tid ≠ t := fun e => htid (by rw [hot, e])
        simp [this]

/-- A step that hands a new handle to the client is a `new` returning it. -/
theorem ret_step {cfg : Cfg V} {s s' : State V} {t : Tid} {a p : Addr} (h : step cfg s (.run t a) = .ok s')
    (hret : s'.handles = p :: s.handles) :
    ∃ th, s.threads[t]? = some th ∧ th.pc = .idle ∧ th.todo = [] ∧ th.ret = some p ∧
      s' = { s.setThread t {} with handles := p :: s.handles } := by
  have hR := step_R h
  have no : s.handles = p :: s.handles → False := by
    intro h; have := congrArg List.length h; simp at this
  cases hR with
  | run _ _ th _ ht hr =>
    cases hr <;> first | (exact (no hret).elim) | skip
    rename_i b hpc htodo hret'
    simp only [List.cons.injEq, and_true] at hret
    subst hret
    exact ⟨th, ht, hpc, htodo, hret', rfl⟩

/-- C06. When `new(v)` (any constructor: `dst` is either) returns `p`: `p` dereferences to a value equal to
`v`; its count is positive and includes `p`; nobody is about to decrement it to zero and remove it, to free it, or has
abandoned its removal. -/
theorem C06_new_returns_live_equal {cfg : Cfg V} (hv : cfg.Valid) {s0 s1 s2 s3 : State V} (h : Reach cfg s0)
    {t : Tid} {v : V} {dst : Bool} {a p : Addr} {os : List (Op V)}
    (hcall : step cfg s0 (.new t v dst) = .ok s1) (hs1 : Small cfg s1)
    (hrun : RunOps cfg (InCall t) s1 os s2)
    (hlast : step cfg s2 (.run t a) = .ok s3) (hs3 : Small cfg s3) (hret : s3.handles = p :: s2.handles) :
    (∃ x, deref s3 p = some x ∧ (x == v) = true) ∧
    (∃ n, refcount s3 p = some n ∧ n = (allHandles cfg s3).count p ∧ 0 < n) ∧
    (∀ th ∈ s3.threads, th.pc ≠ .dropRemove p ∧ th.pc ≠ .dropFree p) ∧ p ∉ s3.zombies := by
  have hr1 : Reach cfg s1 := .step h (by simp [Act.Sane]) hcall hs1
  have hr2 := RunOps.reach hr1 hrun
  have hr3 : Reach cfg s3 := .step hr2 (by simp [Act.Sane]) hlast hs3
  have hI2 := reach_inv hv hr2
  have hI3 := reach_inv hv hr3
  obtain ⟨th, ht, harg, _⟩ := new_call hv h hcall hs1 hrun
  obtain ⟨th', ht', hpc, htodo, hret', hs3'⟩ := ret_step hlast hret
  rw [ht] at ht'; cases ht'
  obtain ⟨w, hw, hm, x, hx, hxw⟩ := (hI2.th t th ht).ret p hret'
  have hwv : w = v := by
    rcases harg with h | h <;> rw [h] at hw <;> cases hw; rfl
  subst hwv
  have hp : p ∈ allHandles cfg s3 := by simp [allHandles, hret]
  have hA : 0 < A cfg s3 p := List.count_pos_iff.mpr hp
  have hpend := hI3.pend p
  rw [if_neg (by omega)] at hpend
  refine ⟨⟨x.data, by simp [deref, hs3', State.setThread, hx], hxw⟩, ?_, ?_, ?_⟩
  · obtain ⟨y, hy⟩ := hI3.deref hA
    have h1 := hI3.cnt p y (hI3.live p hA) hy
    have h2 := hI3.undo p
    have h3 : U s3 p = 0 := by omega
    exact ⟨y.count, by simp only [refcount, hy, Option.map_some], by rw [h1, h3]; rfl, by omega⟩
  · intro th' hth'
    obtain ⟨u, hu⟩ := List.getElem?_of_mem hth'
    constructor
    · intro hc
      have : 0 < R s3 p := (count_flatMap_pos _ p s3.threads).mpr ⟨u, th', hu, by simp [hc, Pc.removing]⟩
      omega
    · intro hc
      exact hI3.not_priv (hI3.in_table hp) hu (by simp [hc, Pc.priv])
  · intro hz
    have : 0 < Z s3 p := List.count_pos_iff.mpr hz
    omega

/-- Program counters of a `new` that has not yet obtained its result. -/
def Pc.interning : Pc V → Bool
  | .newLoop _ | .newFound _ _ _ | .newUndo _ _ _ | .newRelease _ _ | .newHit _ _ _ | .newAlloc _ | .newEntry _ _
  | .newVacant _ _ _ | .newInserted _ _ _ | .newOccupied _ _ _ | .newUnbox _ _ => true
  | _ => false

omit [EquivBEq V] [LawfulHashable V] in
/-- One step of a call `new` that does not panic: it goes on, or hands over its result. -/
theorem new_goes_on {cfg : Cfg V} {s s' : State V} {act : Act V} (hsane : act.Sane) (h : step cfg s act = .ok s')
    {t : Tid} (hnp : act ≠ .panic t) {th : Thread V} (ht : s.threads[t]? = some th)
    (hw : th.pc.interning = true ∨ th.ret.isSome = true) :
    (∃ th', s'.threads[t]? = some th' ∧ (th'.pc.interning = true ∨ th'.ret.isSome = true)) ∨
    ∃ a p, act = .run t a ∧ s'.handles = p :: s.handles := by
  have hnid : th.isIdle ≠ true := by
    intro hid
    have hid := isIdle_iff.mp hid
    rcases hw with hw | hw
    · rw [hid.1] at hw; cases hw
    · rw [hid.2.2] at hw; cases hw
  have other : ∀ {u : Tid} {thu th' : Thread V} {s0 : State V}, s.threads[u]? = some thu → s0.threads = s.threads → u ≠ t →
      ∃ th'', (s0.setThread u th').threads[t]? = some th'' ∧ (th''.pc.interning = true ∨ th''.ret.isSome = true) := by
    intro u thu th' s0 hu h0 hne
    refine ⟨th, ?_, hw⟩
    rw [setThread_get (by rw [h0]; exact hu), if_neg (Ne.symm hne), h0, ht]
  have same : ∀ {th' : Thread V} {s0 : State V}, s0.threads = s.threads → (th'.pc.interning = true ∨ th'.ret.isSome = true) →
      ∃ th'', (s0.setThread t th').threads[t]? = some th'' ∧ (th''.pc.interning = true ∨ th''.ret.isSome = true) := by
    intro th' s0 h0 h1
    refine ⟨th', ?_, h1⟩
    rw [setThread_get (by rw [h0]; exact ht), if_pos rfl]
  have idle : ∀ {u : Tid} {thu : Thread V}, s.threads[u]? = some thu → thu.isIdle = true → u ≠ t := by
    rintro u thu hu hid rfl
    rw [ht] at hu; cases hu; exact hnid hid
  have hR := step_R h
  cases hR with
  | spawn =>
    refine .inl ⟨th, ?_, hw⟩
    have : t < s.threads.length := (List.getElem?_eq_some_iff.mp ht).1
    simp only [List.getElem?_append_left this, ht]
  | new u v dst thu hu hid => exact .inl (other (s0 := s) hu rfl (idle hu hid))
  | clone u path thu p x hu hid => exact .inl ⟨th, ht, hw⟩
  | read => exact .inl ⟨th, ht, hw⟩
  | drop u p thu hu hid => exact .inl (other (s0 := s) hu rfl (idle hu hid))
  | len u lo up thu hu hid => exact .inl (other (s0 := s) hu rfl (idle hu hid))
  | shrink u lo up thu hu hid => exact .inl (other (s0 := s) hu rfl (idle hu hid))
  | panicLoop u thu c hu hpc =>
    exact .inl (other (s0 := s) hu rfl (by rintro rfl; exact hnp rfl))
  | panicEntry u thu c b hu hpc => exact .inl (other (s0 := s) hu rfl (by rintro rfl; exact hnp rfl))
  | panicShrink u thu i m hu hpc => exact .inl (other (s0 := s) hu rfl (by rintro rfl; exact hnp rfl))
  | panicRemove u thu b hu hpc => exact .inl (other (s0 := s) hu rfl (by rintro rfl; exact hnp rfl))
  | panicInsert => exact absurd hsane (by simp [Act.Sane])
  | run u a thu s' hu hr =>
    by_cases hut : u = t
    · subst hut
      rw [ht] at hu; cases hu
      cases hr with
      | ret b hpc htodo hret => exact .inr ⟨a, b, rfl, rfl⟩
      | hitRet c sh b hpc => exact .inl (same (s0 := s.unlock sh) rfl (.inr rfl))
      | inserted c sh b hpc => exact .inl (same (s0 := s.unlock sh) rfl (.inr rfl))
      | _ =>
        refine .inl (same (by first | rfl | simp [State.lock, State.unlock]) ?_)
        first
          | exact .inl rfl
          | (refine .inr (hw.resolve_left ?_); simp [*, Pc.interning])
    · cases hr with
      | ret => exact .inl (other (s0 := s) hu rfl hut)
      | _ => exact .inl (other hu (by first | rfl | simp [State.lock, State.unlock]) hut)

/-- C06 (b). A call `new(v)` during which none of its user code panics can end only by returning a handle, for which
C06 (a) holds. -/
theorem C06_new_returns {cfg : Cfg V} (hv : cfg.Valid) {s0 s1 s2 s3 : State V} (h : Reach cfg s0)
    {t : Tid} {v : V} {dst : Bool} (hcall : step cfg s0 (.new t v dst) = .ok s1) (hs1 : Small cfg s1)
    (hrun : CallRun cfg t s1 s2) {act : Act V} (hsane : act.Sane) (hnp : act ≠ .panic t)
    (hlast : step cfg s2 act = .ok s3) (hs3 : Small cfg s3) (hend : ¬ InCall t s3) :
    ∃ p, s3.handles = p :: s2.handles ∧ (∃ x, deref s3 p = some x ∧ (x == v) = true) ∧
    (∃ n, refcount s3 p = some n ∧ n = (allHandles cfg s3).count p ∧ 0 < n) ∧
    (∀ th ∈ s3.threads, th.pc ≠ .dropRemove p ∧ th.pc ≠ .dropFree p) ∧ p ∉ s3.zombies := by
  have key : (∃ os, RunOps cfg (InCall t) s1 os s2) ∧
      ∃ th, s2.threads[t]? = some th ∧ (th.pc.interning = true ∨ th.ret.isSome = true) := by
    clear hlast
    induction hrun with
    | refl hP =>
      refine ⟨⟨[], .refl hP⟩, ?_⟩
      have hR := step_R hcall
      cases hR with
      | new _ _ _ th0 ht0 =>
        refine ⟨_, setThread_get (s := s0) ht0 t |>.trans (if_pos rfl), .inl rfl⟩
    | step e h1 h2 h3 h4 hP ih =>
      obtain ⟨⟨os, i1⟩, th, ht, hw⟩ := ih
      refine ⟨⟨_, i1.step h1 h3 h4 hP⟩, ?_⟩
      rcases new_goes_on h1 h3 h2 ht hw with h5 | ⟨a, p, rfl, h5⟩
      · exact h5
      · obtain ⟨thx, htx, hpc, htodo, hret, hs'⟩ := ret_step h3 h5
        obtain ⟨th', ht', hid'⟩ := hP
        rw [hs'] at ht'
        have := (setThread_get (th' := {}) htx t).trans (if_pos rfl)
        have e := Option.some.inj (ht'.symm.trans this)
        subst e; cases hid'
  obtain ⟨⟨os, hro⟩, th, ht, hw⟩ := key
  rcases new_goes_on hsane hlast hnp ht hw with ⟨th', h1, h2⟩ | ⟨a, p, rfl, h5⟩
  · exfalso
    refine hend ⟨th', h1, ?_⟩
    cases hid : th'.isIdle with
    | false => rfl
    | true =>
      have hid := isIdle_iff.mp hid
      rcases h2 with h2 | h2
      · rw [hid.1] at h2; cases h2
      · rw [hid.2.2] at h2; cases h2
  · exact ⟨p, h5, C06_new_returns_live_equal hv h hcall hs1 hro hlast hs3 h5⟩

/-- C08 (a). Every execution is, step by step, an execution of the atomic specification performing the
operations that took effect, in that order. -/
theorem C08_refines_atomic {cfg : Cfg V} (hv : cfg.Valid) {s s' : State V} (h : Reach cfg s) {os : List (Op V)}
    (e : RunOps cfg (fun _ => True) s os s') : SpecRun (abs cfg s) os (abs cfg s') := by
  have snoc : ∀ {a b c : Abs V} {os : List (Op V)}, SpecRun a os b → b.stutters c → SpecRun a os c := by
    intro a b c os h1 h2
    induction h1 with
    | done => exact .stutter h2 .done
    | stutter h _ ih => exact .stutter h (ih h2)
    | op h _ ih => exact .op h (ih h2)
  have snocOp : ∀ {a b c : Abs V} {o : Op V} {os : List (Op V)}, SpecRun a os b → b.does o c → SpecRun a (os ++ [o]) c := by
    intro a b c o os h1 h2
    induction h1 with
    | done => exact .op h2 .done
    | stutter h _ ih => exact .stutter h (ih h2)
    | op h _ ih => exact .op h (ih h2)
  induction e with
  | refl _ => exact .done
  | step e' h1 h2 h3 _ ih =>
    have hI := reach_inv hv (RunOps.reach h e')
    have := step_abs hI h1 h2
    rename_i a _
    cases he : effect cfg _ a with
    | none => rw [he] at this; simpa [he] using snoc ih this
    | some o => rw [he] at this; simpa [he] using snocOp ih this

/-- C08 (b). A call `new(v)` that returns `p` took effect exactly once, between its invocation and its return, as
"intern `v`, giving `p`" (all its other operations are drops of handles inside a discarded argument). -/
theorem C08_new_once {cfg : Cfg V} (hv : cfg.Valid) {s0 s1 s2 s3 : State V} (h : Reach cfg s0)
    {t : Tid} {v : V} {dst : Bool} {a p : Addr} {os : List (Op V)}
    (hcall : step cfg s0 (.new t v dst) = .ok s1) (hs1 : Small cfg s1)
    (hrun : RunOps cfg (InCall t) s1 os s2)
    (hlast : step cfg s2 (.run t a) = .ok s3) (hret : s3.handles = p :: s2.handles) :
    (opsOf t os).filter (fun o => match o with | .drop _ _ => false | _ => true) = [.intern t v p] ∧
    effect cfg s0 (.new t v dst) = none ∧ effect cfg s2 (.run t a) = none := by
  obtain ⟨th, ht, harg, hops⟩ := new_call hv h hcall hs1 hrun
  obtain ⟨th', ht', hpc, htodo, hret', hs3'⟩ := ret_step hlast hret
  rw [ht] at ht'; cases ht'
  refine ⟨?_, rfl, by simp [effect, ht, hpc]⟩
  rw [hops]; simp [Thread.done, hpc, hret']

omit [EquivBEq V] [LawfulHashable V] in
/-- C08 (c). `clone` takes effect exactly once. -/
theorem C08_clone_once {cfg : Cfg V} {s s' : State V} {t : Tid} {path : List Addr}
    (h : step cfg s (.clone t path) = .ok s') :
    ∃ p, effect cfg s (.clone t path) = some (.clone t p) ∧ s'.handles = p :: s.handles := by
  have hR := step_R h
  cases hR with
  | clone _ _ th p x ht hid hp hx => exact ⟨p, by simp [effect, hp], rfl⟩

/-- C08 (d). A call `drop(p)` that completes takes effect as "drop `p`" first; all its other operations are drops (of handles
stored in destroyed values). -/
theorem C08_drop_once {cfg : Cfg V} (hv : cfg.Valid) {s0 s1 s2 s3 : State V} (h : Reach cfg s0)
    {t : Tid} {a p : Addr} {os : List (Op V)}
    (hcall : step cfg s0 (.drop t p) = .ok s1) (hs1 : Small cfg s1)
    (hrun : RunOps cfg (InCall t) s1 os s2)
    (_hlast : step cfg s2 (.run t a) = .ok s3) (_hdone : ¬ InCall t s3) :
    ∃ rest, opsOf t (os ++ (effect cfg s2 (.run t a)).toList) = .drop t p :: rest ∧
      ∀ o ∈ rest, ∃ q, o = .drop t q := by
  have hr1 : Reach cfg s1 := .step h (by simp [Act.Sane]) hcall hs1
  have key : ∃ th, s2.threads[t]? = some th ∧ th.done = none ∧ th.pc.dropping = true ∧
      ((opsOf t os = [] ∧ th.pc = .dropSub p) ∨
       ∃ rest, opsOf t os = .drop t p :: rest ∧ ∀ o ∈ rest, ∃ q, o = .drop t q) := by
    clear _hlast _hdone
    induction hrun with
    | refl hP =>
      obtain ⟨th, ht, hid⟩ := hP
      refine ⟨th, ht, ?_⟩
      have hR := step_R hcall
      cases hR with
      | drop _ _ th0 ht0 =>
        rw [show ∀ (s : State V) x hh, ({ s.setThread t x with handles := hh } : State V).threads = s.threads.set t x from
          fun _ _ _ => rfl] at ht
        rw [set_getElem? _ _ _ _ _ ht0, if_pos rfl] at ht; cases ht
        exact ⟨rfl, rfl, Or.inl ⟨rfl, rfl⟩⟩
    | @step s' s'' os a e hsane hst hsm hP ih =>
      obtain ⟨th, ht, hdn, hdr, hops⟩ := ih
      obtain ⟨th', ht', hid'⟩ := hP
      have hI := reach_inv hv (RunOps.reach hr1 e)
      refine ⟨th', ht', ?_⟩
      have hin : InCall t s' := by cases e <;> assumption
      obtain ⟨thx, htx, hid⟩ := hin
      rw [ht] at htx; cases htx
      by_cases htid : a.tid = some t
      · have hown := (step_own hI hsane hst htid ht hid ht' hid').2
        have hdr' : th'.pc.dropping = true ∧ ((∃ q, th.pc = .dropSub q ∧ effect cfg s' a = some (.drop t q)) ∨
            ((∀ q, th.pc ≠ .dropSub q) ∧ effect cfg s' a = none)) := by
          have hR := step_R hst
          cases hR with
          | run u a' th0 _ hu hr =>
            cases htid
            rw [ht] at hu; cases hu
            cases hr <;> (rename_i hpc; simp [Pc.dropping, *] at hdr) <;>
              (simp only [State.setThread, State.unlock] at ht'; rw [set_getElem? _ _ _ _ _ ht, if_pos rfl] at ht'; cases ht') <;>
              simp_all [Pc.dropping, effect]
          | panicRemove u th0 b hu hpc =>
            cases htid
            rw [ht] at hu; cases hu
            simp only [State.setThread] at ht'; rw [set_getElem? _ _ _ _ _ ht, if_pos rfl] at ht'; cases ht'
            simp_all [Pc.dropping, effect]
          | panicLoop u th0 c hu hpc => cases htid; rw [ht] at hu; cases hu; simp [hpc, Pc.dropping] at hdr
          | panicShrink u th0 i m hu hpc => cases htid; rw [ht] at hu; cases hu; simp [hpc, Pc.dropping] at hdr
          | panicEntry u th0 c b hu hpc => cases htid; rw [ht] at hu; cases hu; simp [hpc, Pc.dropping] at hdr
          | panicInsert u th0 c sh b hu hpc => cases htid; rw [ht] at hu; cases hu; simp [hpc, Pc.dropping] at hdr
          | spawn => cases htid
          | new u v dst th0 hu hi => cases htid; rw [ht] at hu; cases hu; rw [hid] at hi; cases hi
          | clone u _ th0 _ _ hu hi => cases htid; rw [ht] at hu; cases hu; rw [hid] at hi; cases hi
          | read u _ th0 _ hu hi => cases htid; rw [ht] at hu; cases hu; rw [hid] at hi; cases hi
          | drop u _ th0 hu hi => cases htid; rw [ht] at hu; cases hu; rw [hid] at hi; cases hi
          | len u lo up th0 hu hi => cases htid; rw [ht] at hu; cases hu; rw [hid] at hi; cases hi
          | shrink u lo up th0 hu hi => cases htid; rw [ht] at hu; cases hu; rw [hid] at hi; cases hi
        obtain ⟨d1, d2⟩ := hdr'
        rcases d2 with ⟨q, d2, d3⟩ | ⟨d2, d3⟩
        · rw [d3] at hown; simp only at hown
          refine ⟨by rw [hown, hdn], d1, Or.inr ?_⟩
          rw [d3]
          simp only [opsOf, List.filter_append, Option.toList] at hops ⊢
          rcases hops with ⟨h1, h2⟩ | ⟨rest, h1, h2⟩
          · rw [d2] at h2; cases h2
            exact ⟨[], by rw [h1]; simp [Op.tid], by simp⟩
          · refine ⟨rest ++ [.drop t q], by rw [h1]; simp [Op.tid], ?_⟩
            intro o ho
            rcases List.mem_append.mp ho with ho | ho
            · exact h2 o ho
            · exact ⟨q, by simpa using ho⟩
        · rw [d3] at hown; simp only at hown
          refine ⟨by rw [hown, hdn], d1, Or.inr ?_⟩
          rw [d3]
          rcases hops with ⟨h1, h2⟩ | h1
          · exact absurd h2 (d2 p)
          · simpa using h1
      · have := step_other hst htid ht
        rw [ht'] at this; cases this
        refine ⟨hdn, hdr, ?_⟩
        have : opsOf t (os ++ (effect cfg s' a).toList) = opsOf t os := by
          simp only [opsOf, List.filter_append]
          cases he : effect cfg s' a with
          | none => simp
          | some o =>
            have hot := effect_tid he
            have : o.tid ≠ t := fun e => htid (by rw [hot, e])
            simp [this]
        rw [this]; exact hops
  obtain ⟨th, ht, hdn, hdr, hops⟩ := key
  cases hpc : th.pc <;> simp only [hpc, Pc.dropping] at hdr <;> first | (cases hdr; done) | skip
  case dropSub b =>
    have he : effect cfg s2 (.run t a) = some (.drop t b) := by simp [effect, ht, hpc]
    rw [he]
    simp only [opsOf, List.filter_append, Option.toList] at hops ⊢
    rcases hops with ⟨h1, h2⟩ | ⟨rest, h1, h2⟩
    · rw [hpc] at h2; cases h2
      exact ⟨[], by rw [h1]; simp [Op.tid], by simp⟩
    · refine ⟨rest ++ [.drop t b], by rw [h1]; simp [Op.tid], ?_⟩
      intro o ho
      rcases List.mem_append.mp ho with ho | ho
      · exact h2 o ho
      · exact ⟨b, by simpa using ho⟩
  all_goals
    have he : effect cfg s2 (.run t a) = none := by simp [effect, ht, hpc]
    rw [he]
    rcases hops with ⟨h1, h2⟩ | h1
    · rw [hpc] at h2; cases h2
    · simpa using h1

/-! ### The hypotheses are met -/

/-- Is `t` inside a call? -/
def busy (t : Tid) (s : State V) : Bool := match s.threads[t]? with | some th => !th.isIdle | none => false

omit [BEq V] [Hashable V] [EquivBEq V] [LawfulHashable V] in
theorem busy_iff {t : Tid} {s : State V} : busy t s = true ↔ InCall t s := by
  unfold busy InCall
  cases s.threads[t]? <;> simp

/-- Run actions during which `t` stays inside its call, collecting the operations that take effect. -/
def checkedOps (t : Tid) (cfg : Cfg V) (s : State V) (os : List (Op V)) : List (Act V) → Option (State V × List (Op V))
  | [] => some (s, os)
  | a :: as => match step cfg s a with
    | .ok s' => if a.sane && decide ((allHandles cfg s').length < cfg.W) && busy t s' then
        checkedOps t cfg s' (os ++ (effect cfg s a).toList) as else none
    | _ => none

omit [EquivBEq V] [LawfulHashable V] in
theorem checkedOps_ok {cfg : Cfg V} {t : Tid} {s0 : State V} (as : List (Act V)) :
    ∀ {s s' : State V} {os os' : List (Op V)}, RunOps cfg (InCall t) s0 os s →
    checkedOps t cfg s os as = some (s', os') → RunOps cfg (InCall t) s0 os' s' := by
  induction as with
  | nil =>
    intro s s' os os' h e
    simp only [checkedOps, Option.some.injEq, Prod.mk.injEq] at e
    obtain ⟨rfl, rfl⟩ := e; exact h
  | cons a as ih =>
    intro s s' os os' h e
    simp only [checkedOps] at e
    cases hs : step cfg s a with
    | ok s1 =>
      simp only [hs] at e
      split at e
      · rename_i hc
        simp only [Bool.and_eq_true, decide_eq_true_eq] at hc
        refine ih (.step h ?_ hs (small_of_length hc.1.2) ?_) e
        · cases a <;> simp_all [Act.Sane, Act.sane]
        · exact busy_iff.mp hc.2
      · cases e
    | blocked => simp [hs] at e
    | ub => simp [hs] at e

/-- Thread 1's call in the race: it starts after thread 0's, loses, and returns thread 0's object. -/
example : ∃ s0 s1 s2 s3 : State Val, Reach demoCfg s0 ∧ step demoCfg s0 (.new 1 ⟨5, 2, []⟩ false) = .ok s1 ∧ Small demoCfg s1 ∧
    RunOps demoCfg (InCall 1) s1 [.intern 0 ⟨5, 1, []⟩ 10, .intern 1 ⟨5, 2, []⟩ 10] s2 ∧
    step demoCfg s2 (.run 1 0) = .ok s3 ∧ Small demoCfg s3 ∧ s3.handles = 10 :: s2.handles := by
  refine ⟨demo (raceTrace.take 3), demo (raceTrace.take 4), demo (raceTrace.take 18), demo raceTrace,
    demo_reach (by decide), rfl, small_of_length (by decide), ?_, rfl, small_of_length (by decide), by decide⟩
  refine checkedOps_ok ((raceTrace.drop 4).take 14) (.refl ⟨_, rfl, rfl⟩) ?_
  rfl

/-- Is `a` a panic of user code of `t`'s call? -/
def Act.isPanic (t : Tid) : Act V → Bool
  | .panic u => u == t
  | _ => false

/-- Run actions during which `t` stays inside its call and does not panic. -/
def checkedCall (t : Tid) (cfg : Cfg V) (s : State V) : List (Act V) → Option (State V)
  | [] => some s
  | a :: as => match step cfg s a with
    | .ok s' => if a.sane && !a.isPanic t && decide ((allHandles cfg s').length < cfg.W) && busy t s' then
        checkedCall t cfg s' as else none
    | _ => none

omit [EquivBEq V] [LawfulHashable V] in
theorem checkedCall_ok {cfg : Cfg V} {t : Tid} {s0 : State V} (as : List (Act V)) :
    ∀ {s s' : State V}, CallRun cfg t s0 s → checkedCall t cfg s as = some s' → CallRun cfg t s0 s' := by
  induction as with
  | nil =>
    intro s s' h e
    simp only [checkedCall, Option.some.injEq] at e
    subst e; exact h
  | cons a as ih =>
    intro s s' h e
    simp only [checkedCall] at e
    cases hs : step cfg s a with
    | ok s1 =>
      simp only [hs] at e
      split at e
      · rename_i hc
        simp only [Bool.and_eq_true, decide_eq_true_eq] at hc
        refine ih (.step h ?_ ?_ hs (small_of_length hc.1.2) (busy_iff.mp hc.2)) e
        · cases a <;> simp_all [Act.Sane, Act.sane]
        · rintro rfl; simp [Act.isPanic] at hc
      · cases e
    | blocked => simp [hs] at e
    | ub => simp [hs] at e

/-- The call of thread 1 in the race, no user code panicking: it ends. -/
example : ∃ s0 s1 s2 s3 : State Val, Reach demoCfg s0 ∧ step demoCfg s0 (.new 1 ⟨5, 2, []⟩ false) = .ok s1 ∧ Small demoCfg s1 ∧
    CallRun demoCfg 1 s1 s2 ∧ step demoCfg s2 (.run 1 0) = .ok s3 ∧ Small demoCfg s3 ∧ ¬ InCall 1 s3 := by
  refine ⟨demo (raceTrace.take 3), demo (raceTrace.take 4), demo (raceTrace.take 18), demo raceTrace,
    demo_reach (by decide), rfl, small_of_length (by decide), ?_, rfl, small_of_length (by decide), ?_⟩
  · refine checkedCall_ok ((raceTrace.drop 4).take 14) (.refl ⟨_, rfl, rfl⟩) ?_
    rfl
  · rw [← busy_iff]; decide

def nestedTrace' : List (Act Val) := nestedTrace ++ [.drop 0 10, r 0]

/-- A completed drop that frees a nested value. -/
example : ∃ s0 s1 s2 s3 : State Val, Reach demoCfg s0 ∧ step demoCfg s0 (.drop 0 20) = .ok s1 ∧ Small demoCfg s1 ∧
    RunOps demoCfg (InCall 0) s1 [.drop 0 20, .drop 0 10] s2 ∧
    step demoCfg s2 (.run 0 0) = .ok s3 ∧ ¬ InCall 0 s3 := by
  refine ⟨demo nestedTrace', demo (nestedTrace' ++ [.drop 0 20]),
    demo (nestedTrace' ++ [.drop 0 20, r 0, r 0, r 0, r 0, r 0, r 0]),
    demo (nestedTrace' ++ [.drop 0 20, r 0, r 0, r 0, r 0, r 0, r 0, r 0]),
    demo_reach (by decide), rfl, small_of_length (by decide), ?_, rfl, ?_⟩
  · refine checkedOps_ok [r 0, r 0, r 0, r 0, r 0, r 0] (.refl (busy_iff.mp rfl)) ?_
    rfl
  · rw [← busy_iff]; decide

end Arc
