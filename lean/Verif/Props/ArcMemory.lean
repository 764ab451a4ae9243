import Verif.Props.ArcSafety
import Verif.Props.ArcCalls
import Verif.Arc.Fair
/-
Property C56: memory use of `ArcIntern`.
-/
namespace Arc
variable {V : Type} [BEq V] [Hashable V]

/-- Number of calls in progress. -/
def running (s : State V) : Nat := s.threads.countP fun th => !th.isIdle

/-- Executions with the number of drops so far that were stopped by a panic of user `Hash`/`Eq`. -/
inductive PanicRun (cfg : Cfg V) : State V → Nat → Prop
  | init : PanicRun cfg init 0
  | step {s s' : State V} {a : Act V} {n : Nat} : PanicRun cfg s n → a.Sane → ¬ dropPanic s a → step cfg s a = .ok s' →
      Small cfg s' → PanicRun cfg s' n
  | panic {s s' : State V} {a : Act V} {n : Nat} : PanicRun cfg s n → a.Sane → dropPanic s a → step cfg s a = .ok s' →
      Small cfg s' → PanicRun cfg s' (n + 1)

theorem PanicRun.reach {cfg : Cfg V} {s : State V} {n : Nat} (h : PanicRun cfg s n) : Reach cfg s := by
  induction h with
  | init => exact .init
  | step _ h1 _ h2 h3 ih => exact .step ih h1 h2 h3
  | panic _ h1 _ h2 h3 ih => exact .step ih h1 h2 h3

/-- Every reachable state is reached with some number of panics. -/
theorem Reach.panicRun {cfg : Cfg V} {s : State V} (h : Reach cfg s) : ∃ n, PanicRun cfg s n := by
  induction h with
  | init => exact ⟨0, .init⟩
  | @step s s' a _ h1 h2 h3 ih =>
    obtain ⟨n, hn⟩ := ih
    by_cases hd : dropPanic s a
    · exact ⟨n + 1, .panic hn h1 hd h2 h3⟩
    · exact ⟨n, .step hn h1 hd h2 h3⟩

theorem PanicRun.zombies {cfg : Cfg V} {s : State V} {n : Nat} (h : PanicRun cfg s n) : s.zombies.length = n := by
  induction h with
  | init => rfl
  | step _ h1 hd h2 h3 ih =>
    rcases step_zombies h2 with e | e
    · rw [e]; exact ih
    · obtain ⟨t, th, b, rfl, e1, e2, _⟩ := e
      exact absurd ⟨th, b, e1, e2⟩ hd
  | @panic s s' a n _ h1 hd h2 h3 ih =>
    cases a with
    | panic t =>
      obtain ⟨th, b, ht, hpc⟩ := hd
      simp only [Arc.step, ht, runPanic, hpc] at h2
      cases h2
      simp [ih]
    | _ => exact hd.elim

omit [BEq V] [Hashable V] in
theorem flatMap_length_le {s : State V} :
    (s.threads.flatMap fun th => th.pc.priv).length + (s.threads.flatMap fun th => th.pc.removing).length ≤ running s := by
  unfold running
  induction s.threads with
  | nil => simp
  | cons th l ih =>
    simp only [List.flatMap_cons, List.length_append, List.countP_cons]
    have : th.pc.priv.length + th.pc.removing.length ≤ if !th.isIdle then 1 else 0 := by
      have hi : th.isIdle = true → th.pc = .idle := fun h => (isIdle_iff.mp h).1
      by_cases h : th.isIdle = true
      · rw [hi h]; simp [Pc.priv, Pc.removing]
      · rw [if_pos (by simpa using h)]
        cases th.pc <;> simp [Pc.priv, Pc.removing] <;> rename_i c _ _ <;> cases c.conv <;> simp
    omega

variable [EquivBEq V] [LawfulHashable V]

/-- **C56, memory bound.** At any moment the interner's allocations are: one for each distinct value that has a handle, at
most one for each call in progress, and one for each drop stopped by a panic of user code. Here `vals` lists the distinct
values: pairwise unequal, each the value of some handle, and every handle's value is listed. -/
theorem C56_memory_bound {cfg : Cfg V} (hv : cfg.Valid) {s : State V} {n : Nat} (h : PanicRun cfg s n) :
    ∃ vals : List V, vals.Pairwise (fun x y => (x == y) = false) ∧
      (∀ v ∈ vals, ∃ p ∈ allHandles cfg s, deref s p = some v) ∧
      (∀ p ∈ allHandles cfg s, ∃ v ∈ vals, deref s p = some v) ∧
      vals.length + n ≤ s.heap.length ∧ s.heap.length ≤ vals.length + running s + n := by
  have hI := reach_inv hv h.reach
  have hnd : s.table.Nodup := by
    rw [List.nodup_iff_count]
    intro a
    have h1 := hI.split a
    have h2 := hI.nd a
    simp only [T] at h1; omega
  let live := s.table.filter fun p => decide (p ∈ allHandles cfg s)
  let dead := s.table.filter fun p => !decide (p ∈ allHandles cfg s)
  have hlen1 : s.heap.length = s.table.length + (s.threads.flatMap fun th => th.pc.priv).length := by
    have : (keys s.heap).Perm (s.table ++ s.threads.flatMap fun th => th.pc.priv) := by
      rw [List.perm_iff_count]
      intro a
      rw [List.count_append]
      exact hI.split a
    have := this.length_eq
    simpa [keys] using this
  have hlen2 : dead.length = (s.threads.flatMap fun th => th.pc.removing).length + s.zombies.length := by
    have : dead.Perm ((s.threads.flatMap fun th => th.pc.removing) ++ s.zombies) := by
      rw [List.perm_iff_count]
      intro a
      rw [List.count_append]
      have h1 := hI.pend a
      have h2 : dead.count a = if 0 < T s a ∧ A cfg s a = 0 then 1 else 0 := by
        have hle := List.nodup_iff_count.mp hnd a
        by_cases hc : 0 < T s a ∧ A cfg s a = 0
        · rw [if_pos hc]
          have : a ∉ allHandles cfg s := List.count_eq_zero.mp hc.2
          rw [List.count_filter (by simpa using this)]
          have := hc.1
          simp only [T] at this
          omega
        · rw [if_neg hc]
          apply List.count_eq_zero.mpr
          intro hm
          obtain ⟨m1, m2⟩ := List.mem_filter.mp hm
          exact hc ⟨List.count_pos_iff.mpr m1, List.count_eq_zero.mpr (by simpa using m2)⟩
      rw [h2]; exact h1.symm
    simpa using this.length_eq
  have hlen3 : live.length + dead.length = s.table.length := by
    have := List.length_eq_countP_add_countP (fun p => decide (p ∈ allHandles cfg s)) (l := s.table)
    simp only [live, dead, ← List.countP_eq_length_filter]
    rw [this]
    congr 1
    apply List.countP_congr
    intro x _
    simp
  have hlen4 : (live.filterMap (deref s)).length = live.length := by
    have : ∀ l : List Addr, (∀ p ∈ l, p ∈ s.table) → (l.filterMap (deref s)).length = l.length := by
      intro l
      induction l with
      | nil => intro _; rfl
      | cons p l ih =>
        intro hl
        obtain ⟨x, hx⟩ := exists_get (hI.mem_keys (hl p (by simp)))
        have : deref s p = some x.data := by simp [deref, hx]
        rw [List.filterMap_cons, this]
        simp [ih (fun q hq => hl q (by simp [hq]))]
    exact this live (fun p hp => (List.mem_filter.mp hp).1)
  have hf := flatMap_length_le (s := s)
  have hz := h.zombies
  refine ⟨live.filterMap (deref s), ?_, ?_, ?_, by omega, by omega⟩
  · rw [List.pairwise_filterMap]
    refine List.Pairwise.imp_of_mem ?_ (List.nodup_iff_pairwise_ne.mp (hnd.filter _))
    intro p q hp hq hne x hx y hy
    cases hc : (x == y)
    · rfl
    · exfalso
      obtain ⟨cx, h1, rfl⟩ := deref_get hx
      obtain ⟨cy, h2, rfl⟩ := deref_get hy
      exact hne (hI.uniq p q cx cy (List.mem_filter.mp hp).1 (List.mem_filter.mp hq).1 h1 h2 hc)
  · intro v hv'
    obtain ⟨p, hp, hd⟩ := List.mem_filterMap.mp hv'
    exact ⟨p, by simpa using (List.mem_filter.mp hp).2, hd⟩
  · intro p hp
    obtain ⟨v, hd⟩ := hI.deref_some hp
    exact ⟨v, List.mem_filterMap.mpr ⟨p, List.mem_filter.mpr ⟨hI.in_table hp, by simpa using hp⟩, hd⟩, hd⟩

/-- Two racing calls, each with a box of its own, while another value is interned: three boxes. -/
example : let s := demo [.spawn, .spawn, .new 0 ⟨7, 0, []⟩ false, r 0, r 0 10, r 0, r 0, r 0, r 0,
      .new 0 ⟨5, 1, []⟩ false, .new 1 ⟨5, 2, []⟩ false, r 0, r 1, r 0 11, r 1 12]
    s.heap.length = 3 ∧ running s = 2 ∧ (allHandles demoCfg s).length = 1 := by decide
/-- The two other summands: a drop that panicked, and one that is about to free the box. -/
example : let s := demo [.spawn, .new 0 ⟨5, 1, []⟩ false, r 0, r 0 10, r 0, r 0, r 0, r 0, .drop 0 10, r 0, .panic 0,
      .new 0 ⟨6, 1, []⟩ false, r 0, r 0 11, r 0, r 0, r 0, r 0, .drop 0 11, r 0, r 0]
    s.heap.length = 2 ∧ running s = 1 ∧ allHandles demoCfg s = [] ∧ s.zombies.length = 1 := by decide
example : ∃ n, PanicRun demoCfg (demo raceTrace) n := race_reach.panicRun

omit [EquivBEq V] [LawfulHashable V] in
theorem find_live [EquivBEq V] [LawfulHashable V] {cfg : Cfg V} {s : State V} (hI : Inv cfg s) {p b : Addr} {v w : V}
    (hp : p ∈ allHandles cfg s) (hw : deref s p = some w) (hwv : (w == v) = true) (hm : matches' s b v) : b = p := by
  obtain ⟨x, hx, rfl⟩ := deref_get hw
  obtain ⟨h1, y, h2, h3⟩ := hm
  exact hI.uniq b p y x h1 (hI.in_table hp) h2 hx (BEq.trans h3 (BEq.symm hwv))

omit [EquivBEq V] [LawfulHashable V] in
theorem ExecIn.last {cfg : Cfg V} {P : State V → Prop} {s s' : State V} (e : ExecIn cfg P s s') : P s' := by
  cases e with
  | refl h => exact h
  | step _ _ _ _ h => exact h

/-- **C56, live values cost nothing.** While some handle `p` to a value equal to `v` exists, a call of `new(v)` on thread
`t` allocates nothing: none of its steps makes the interner's memory grow. (`s` is the state in which the call starts, `s'`
any later state during the call; other threads do anything.) -/
theorem C56_no_allocation_when_live {cfg : Cfg V} (hv : cfg.Valid) {s0 s s' s'' : State V} (h : Reach cfg s)
    {t : Tid} {v w : V} {dst : Bool} (hnew : step cfg s0 (.new t v dst) = .ok s) {p : Addr}
    (hw : deref s p = some w) (hwv : (w == v) = true)
    (e : ExecIn cfg (fun u => p ∈ allHandles cfg u ∧ InCall t u) s s') {a : Addr}
    (hs : step cfg s' (.run t a) = .ok s'') : s''.heap.length ≤ s'.heap.length := by
  have key : Reach cfg s' ∧ p ∈ allHandles cfg s' ∧ deref s' p = some w ∧ ∃ th, s'.threads[t]? = some th ∧
      (th.pc = .newLoop ⟨v, dst, none⟩ ∨ (∃ sh, th.pc = .newFound ⟨v, dst, none⟩ sh p) ∨
        (∃ sh, th.pc = .newHit ⟨v, dst, none⟩ sh p) ∨ th.pc.dropping = true) := by
    clear hs
    induction e with
    | refl hP =>
      refine ⟨h, hP.1, hw, ?_⟩
      cases step_R hnew with
      | new _ _ _ th ht => exact ⟨_, set_getElem? _ _ t _ _ ht |>.trans (if_pos rfl), .inl rfl⟩
    | @step u u' act e' hsane hst hsm hP ih =>
      obtain ⟨hr, hp, hd, th, ht, hpc⟩ := ih
      have hI := reach_inv hv hr
      refine ⟨.step hr hsane hst hsm, hP.1, (step_data hI hsane hst (hI.in_table hp)).trans hd, ?_⟩
      by_cases htid : act.tid = some t
      · have hidle : th.isIdle = false := by
          obtain ⟨th', ht', hid⟩ := ExecIn.last e' |>.2
          rw [ht] at ht'; cases ht'; exact hid
        have noidle : ∀ {th0 : Thread V}, u.threads[t]? = some th0 → th0.isIdle = true → False := by
          intro th0 h1 h2; rw [ht] at h1; cases h1; rw [hidle] at h2; cases h2
        have own : ∀ {x : Thread V}, (u.threads.set t x)[t]? = some x := fun {x} => by
          rw [set_getElem? _ _ t _ x ht, if_pos rfl]
        have hth := hI.th t th ht
        cases step_R hst with
        | spawn => cases htid
        | new _ v dst th0 hu hi => cases htid; exact (noidle hu hi).elim
        | clone _ p th0 _ _ hu hi => cases htid; exact (noidle hu hi).elim
        | read _ p th0 _ hu hi => cases htid; exact (noidle hu hi).elim
        | drop _ p th0 hu hi => cases htid; exact (noidle hu hi).elim
        | len _ _ _ th0 hu hi => cases htid; exact (noidle hu hi).elim
        | shrink _ _ _ th0 hu hi => cases htid; exact (noidle hu hi).elim
        | panicInsert => exact hsane.elim
        | panicLoop _ th0 c hu hpc' =>
          cases htid
          exact ⟨_, own, .inr (.inr (.inr (by unfold unwindCall; cases c.conv <;> rfl)))⟩
        | panicEntry _ th0 c b hu hpc' => cases htid; exact ⟨_, own, .inr (.inr (.inr rfl))⟩
        | panicRemove _ th0 b hu hpc' => cases htid; exact ⟨_, own, .inr (.inr (.inr rfl))⟩
        | panicShrink _ th0 i m hu hpc' => cases htid; exact ⟨_, own, .inr (.inr (.inr rfl))⟩
        | run _ a th0 _ hu hr0 =>
          cases htid
          rw [ht] at hu; cases hu
          have hpi := hth.pc
          rcases hpc with hpc | ⟨sh, hpc⟩ | ⟨sh, hpc⟩ | hpc
          · cases hr0 with
            | found c b hpc' hl hf =>
              rw [hpc] at hpc'; cases hpc'
              have := find_live hI hp hd hwv (find_some hf)
              subst this
              exact ⟨_, own, .inr (.inl ⟨_, rfl⟩)⟩
            | cached c b hpc' hl hf hc => rw [hpc] at hpc'; cases hpc'; cases hc
            | missing c hpc' hl hf =>
              rw [hpc] at hpc'; cases hpc'
              obtain ⟨x, hx, rfl⟩ := deref_get hd
              have := find_none hf p x (hI.in_table hp) hx
              rw [hwv] at this; cases this
            | _ => simp_all
          · cases hr0 with
            | hit c sh b x hpc' hx hc => rw [hpc] at hpc'; cases hpc'; exact ⟨_, own, .inr (.inr (.inl ⟨_, rfl⟩))⟩
            | dying c sh b x hpc' hx hc =>
              rw [hpc] at hpc'; cases hpc'
              have hA : 0 < A cfg u p := List.count_pos_iff.mpr hp
              have := hI.cnt p x (hI.live p hA) hx
              omega
            | _ => simp_all
          · cases hr0 with
            | hitRet c sh b hpc' => exact ⟨_, own, .inr (.inr (.inr (by unfold unwindCall; cases c.conv <;> rfl)))⟩
            | _ => simp_all
          · cases hr0 <;> (rename_i hpc'; simp_all [Pc.dropping]) <;>
              exact ⟨_, own, .inr (.inr (.inr rfl))⟩
      · exact ⟨th, step_other hst htid ht, hpc⟩
  obtain ⟨hr, hp, hd, th, ht, hpc⟩ := key
  cases step_R hs with
  | run _ _ th0 _ ht0 hr0 =>
    rw [ht] at ht0; cases ht0
    have hset : ∀ b n, (setCount s'.heap b n).length = s'.heap.length := by
      intro b n
      have := congrArg List.length (keys_setCount s'.heap b n)
      simpa only [keys, List.length_map] using this
    cases hr0 with
    | alloc c hpc' =>
      rcases hpc with h | ⟨_, h⟩ | ⟨_, h⟩ | h <;> rw [hpc'] at h <;> cases h
    | unbox c b x hpc' hx => exact Nat.le_of_lt (length_free (mem_keys_of_get hx))
    | free b x hpc' hx => exact Nat.le_of_lt (length_free (mem_keys_of_get hx))
    | _ => first | exact Nat.le_refl _ | exact Nat.le_of_eq (hset _ _)

/-- Thread 0 holds 5 at address 10; thread 1 interns an equal 5 and is about to increment. -/
def liveTrace : List (Act Val) := [.spawn, .spawn, .new 0 ⟨5, 1, []⟩ false, r 0, r 0 10, r 0, r 0, r 0, r 0]
theorem demo_snoc (as : List (Act Val)) (a : Act Val) (h : (checked Act.sane demoCfg init (as ++ [a])).isSome = true) :
    step demoCfg (demo as) a = .ok (demo (as ++ [a])) := by
  have key : ∀ (as : List (Act Val)) (s : State Val), (checked Act.sane demoCfg s (as ++ [a])).isSome = true →
      ∃ s1 s2, checked Act.sane demoCfg s as = some s1 ∧ checked Act.sane demoCfg s (as ++ [a]) = some s2 ∧
        step demoCfg s1 a = .ok s2 := by
    intro as
    induction as with
    | nil =>
      intro s h
      simp only [List.nil_append, checked] at h ⊢
      cases hs : step demoCfg s a with
      | ok s1 =>
        simp only [hs] at h ⊢
        split at h
        · rename_i hc; rw [if_pos hc]; exact ⟨s, s1, rfl, rfl, hs⟩
        · cases h
      | blocked => simp [hs] at h
      | ub => simp [hs] at h
    | cons b as ih =>
      intro s h
      simp only [List.cons_append, checked] at h ⊢
      cases hs : step demoCfg s b with
      | ok s1 =>
        simp only [hs] at h ⊢
        split at h
        · rename_i hc; rw [if_pos hc, if_pos hc]; exact ih s1 h
        · cases h
      | blocked => simp [hs] at h
      | ub => simp [hs] at h
  obtain ⟨s1, s2, h1, h2, h3⟩ := key as init h
  simp only [demo, h1, h2, Option.getD_some, h3]

theorem inCall_of_any {t : Tid} {s : State V} (h : (s.threads[t]?.any fun th => !th.isIdle) = true) : InCall t s := by
  cases ht : s.threads[t]? with
  | none => simp [ht] at h
  | some th => exact ⟨th, ht, by simpa [ht] using h⟩

example : ∃ s0 s s' s'', step demoCfg s0 (.new 1 ⟨5, 2, []⟩ false) = .ok s ∧ Reach demoCfg s ∧
    deref s 10 = some ⟨5, 1, []⟩ ∧ ((⟨5, 1, []⟩ : Val) == ⟨5, 2, []⟩) = true ∧
    ExecIn demoCfg (fun u => 10 ∈ allHandles demoCfg u ∧ InCall 1 u) s s' ∧ step demoCfg s' (.run 1 0) = .ok s'' := by
  let l1 := liveTrace ++ [.new 1 ⟨5, 2, []⟩ false]
  let l2 := l1 ++ [r 1]
  have e1 : step demoCfg (demo liveTrace) (.new 1 ⟨5, 2, []⟩ false) = .ok (demo l1) := demo_snoc _ _ (by decide)
  have e2 : step demoCfg (demo l1) (r 1) = .ok (demo l2) := demo_snoc _ _ (by decide)
  have e3 : step demoCfg (demo l2) (r 1) = .ok (demo (l2 ++ [r 1])) := demo_snoc _ _ (by decide)
  have h1 : Reach demoCfg (demo l1) := demo_reach (by decide)
  have m1 : 10 ∈ allHandles demoCfg (demo l1) := by decide
  have m2 : 10 ∈ allHandles demoCfg (demo l2) := by decide
  have c1 : InCall 1 (demo l1) := inCall_of_any (by decide)
  have c2 : InCall 1 (demo l2) := inCall_of_any (by decide)
  have d1 : deref (demo l1) 10 = some ⟨5, 1, []⟩ := by decide
  have sm : Small demoCfg (demo l2) := small_of_length (by decide)
  exact ⟨_, _, _, _, e1, h1, d1, by decide, .step (a := r 1) (.refl ⟨m1, c1⟩) trivial e2 sm ⟨m2, c2⟩, e3⟩

end Arc
