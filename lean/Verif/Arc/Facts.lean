import Verif.Arc.Rel
/-! Consequences of the invariant used by the property theorems. -/
namespace Arc
variable {V : Type} [BEq V] [Hashable V]

theorem exec_append {cfg : Cfg V} (as bs : List (Act V)) :
    ∀ s : State V, exec cfg s (as ++ bs) = match exec cfg s as with
      | .ok s' => exec cfg s' bs
      | .blocked => .blocked
      | .ub => .ub := by
  induction as with
  | nil => intro s; simp [exec]
  | cons a as ih =>
    intro s
    simp only [List.cons_append, exec]
    cases step cfg s a with
    | ok s' => simp only; exact ih s'
    | blocked => rfl
    | ub => rfl

omit [BEq V] [Hashable V] in
theorem A_heap {cfg : Cfg V} {s s' : State V} {t : Tid} {th th' : Thread V} (ht : s.threads[t]? = some th)
    (hs : s'.threads = s.threads.set t th') (p : Addr) :
    A cfg s' p + (th.owned cfg).count p + s.handles.count p + (storedHandles cfg s.heap).count p =
    A cfg s p + (th'.owned cfg).count p + s'.handles.count p + (storedHandles cfg s'.heap).count p := by
  have h1 := owned_set cfg s.threads th' ht p
  rw [A_eq, A_eq, hs]; omega

/-- Reachability without drop panics. -/
theorem ReachND.reach {cfg : Cfg V} {s : State V} (h : ReachND cfg s) : Reach cfg s := by
  induction h with
  | init => exact .init
  | step _ h1 _ h3 h4 ih => exact .step ih h1 h3 h4

theorem step_zombies {cfg : Cfg V} {s s' : State V} {act : Act V} (h : step cfg s act = .ok s') :
    s'.zombies = s.zombies ∨ ∃ t th b, act = .panic t ∧ s.threads[t]? = some th ∧ th.pc = .dropRemove b ∧
      s'.zombies = b :: s.zombies := by
  have hR := step_R h
  cases hR with
  | run t a th _ ht hr => cases hr <;> exact Or.inl rfl
  | panicRemove t th b ht hpc => exact Or.inr ⟨t, th, b, rfl, ht, hpc, rfl⟩
  | _ => exact Or.inl rfl

theorem ReachND.zombies {cfg : Cfg V} {s : State V} (h : ReachND cfg s) : s.zombies = [] := by
  induction h with
  | init => rfl
  | step _ h1 h2 h3 h4 ih =>
    rcases step_zombies h3 with h | ⟨t, th, b, rfl, h5, h6, h7⟩
    · rw [h, ih]
    · exact absurd ⟨th, b, h5, h6⟩ h2

/-- Data of registered boxes never changes in a step. -/
theorem step_data {cfg : Cfg V} {s s' : State V} (hI : Inv cfg s) {act : Act V} (hsane : act.Sane)
    (h : step cfg s act = .ok s') {b : Addr} (hb : b ∈ s.table) : deref s' b = deref s b := by
  have hset : ∀ a n, (get (setCount s.heap a n) b).map (·.data) = (get s.heap b).map (·.data) :=
    fun a n => get_data_setCount s.heap a n b
  have hfree : ∀ (t : Tid) (th : Thread V) a, s.threads[t]? = some th → a ∈ th.pc.priv →
      get (free s.heap a) b = get s.heap b := by
    intro t th a ht ha
    rw [get_free, if_neg]
    rintro rfl; exact hI.not_priv hb ht ha
  have hk := hI.mem_keys hb
  have hR := step_R h
  cases hR with
  | run t a th _ ht hr =>
    cases hr with
    | unbox c r x hpc hx =>
      simp only [deref, State.setThread]
      rw [hfree t th r ht (by simp [hpc, Pc.priv])]
    | free r x hpc hx =>
      simp only [deref, State.setThread]
      rw [hfree t th r ht (by simp [hpc, Pc.priv])]
    | alloc c hpc h0 hk' =>
      simp only [deref, State.setThread, get]
      rw [if_neg]; rintro rfl; exact hk' hk
    | _ => first | rfl | exact hset _ _
  | panicInsert t => exact absurd hsane (by simp [Act.Sane])
  | _ => first | rfl | exact hset _ _

theorem Inv.deref_some {cfg : Cfg V} {s : State V} (hI : Inv cfg s) {p : Addr} (h : p ∈ allHandles cfg s) :
    ∃ v, Arc.deref s p = some v := by
  obtain ⟨x, hx⟩ := hI.deref (List.count_pos_iff.mpr h)
  exact ⟨x.data, by simp [Arc.deref, hx]⟩

theorem Inv.in_table {cfg : Cfg V} {s : State V} (hI : Inv cfg s) {p : Addr} (h : p ∈ allHandles cfg s) :
    p ∈ s.table := List.count_pos_iff.mp (hI.live p (List.count_pos_iff.mpr h))

omit [BEq V] [Hashable V] in
theorem deref_get {s : State V} {p : Addr} {v : V} (h : deref s p = some v) :
    ∃ x, get s.heap p = some x ∧ x.data = v := by
  unfold deref at h
  cases hg : get s.heap p with
  | none => simp [hg] at h
  | some x => simp [hg] at h; exact ⟨x, rfl, h⟩

omit [BEq V] [Hashable V] in
/-- In a quiescent state threads own nothing. -/
theorem quiescent_counts {cfg : Cfg V} {s : State V} (h : Quiescent s) (p : Addr) :
    (s.threads.flatMap (Thread.owned cfg)).count p = 0 ∧ P s p = 0 ∧ U s p = 0 ∧ R s p = 0 := by
  refine ⟨?_, ?_, ?_, ?_⟩ <;>
  · rcases Nat.eq_zero_or_pos _ with h0 | h0
    · exact h0
    · obtain ⟨t, th, ht, hp⟩ := (count_flatMap_pos _ p s.threads).mp h0
      have h1 := isIdle_iff.mp (h th (mem_of_getElem? ht))
      simp [Thread.owned, Pc.owned, Pc.priv, Pc.undoing, Pc.removing, h1] at hp

end Arc
