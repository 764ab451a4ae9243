import Verif.Arc.Complete
import Verif.Props.ArcSafety
import Verif.Arc.Demo
/-!
C10–C12: deadlock freedom, completion and retry-free solo calls. Vocabulary in `Verif/Arc/Spec.lean`.
-/
namespace Arc
variable {V : Type} [BEq V] [Hashable V] [EquivBEq V] [LawfulHashable V]

/-- C10 (a). If some call is unfinished, some unfinished call can take a step. -/
theorem C10_deadlock_free {cfg : Cfg V} (hv : cfg.Valid) {s : State V} (h : Reach cfg s) (hq : ¬ Quiescent s) :
    ∃ t a s', InCall t s ∧ step cfg s (.run t a) = .ok s' := by
  have hI := reach_inv hv h
  by_cases hl : ∃ i u, s.locks i = some u
  · obtain ⟨i, u, hl⟩ := hl
    obtain ⟨s', hs'⟩ := holder_enabled hv hI hl 0
    obtain ⟨th, hu, hh⟩ := (hI.lk i u).mp hl
    exact ⟨u, 0, s', ⟨th, hu, holds_notIdle hh⟩, hs'⟩
  · have hnone : ∀ i, s.locks i = none := by
      intro i
      cases hi : s.locks i with
      | none => rfl
      | some u => exact absurd ⟨i, u, hi⟩ hl
    unfold Quiescent at hq
    rw [Classical.not_forall] at hq
    obtain ⟨th, hq⟩ := hq
    rw [Classical.not_imp] at hq
    obtain ⟨hth, hid⟩ := hq
    obtain ⟨t, ht⟩ := List.getElem?_of_mem hth
    obtain ⟨a, ha⟩ := fresh_addr s.heap
    have hid' : th.isIdle = false := by simpa using hid
    obtain ⟨s', hs'⟩ := run_enabled hv hI ht hid' (Or.inl ha) (fun i _ => hnone i)
    exact ⟨t, a, s', ⟨th, ht, hid'⟩, hs'⟩

/-- C10 (b). An unfinished call that cannot step (although memory is available) is waiting for a shard lock held by
another thread, and that thread can step. -/
theorem C10_blocked_only_by_runnable {cfg : Cfg V} (hv : cfg.Valid) {s : State V} (h : Reach cfg s)
    {t : Tid} (ht : InCall t s) {a : Addr} (ha : a ≠ 0 ∧ a ∉ keys s.heap)
    (hb : step cfg s (.run t a) = .blocked) :
    ∃ i u, s.locks i = some u ∧ u ≠ t ∧ ∀ a', ∃ s', step cfg s (.run u a') = .ok s' := by
  have hI := reach_inv hv h
  obtain ⟨th, ht, hid⟩ := ht
  by_cases hw : ∀ i, th.pc.wants cfg s = some i → s.locks i = none
  · obtain ⟨s', hs'⟩ := run_enabled hv hI ht hid (Or.inl ha) hw
    rw [hs'] at hb; cases hb
  · rw [Classical.not_forall] at hw
    obtain ⟨i, hw⟩ := hw
    rw [Classical.not_imp] at hw
    obtain ⟨hw, hl⟩ := hw
    cases hi : s.locks i with
    | none => exact absurd hi hl
    | some u =>
      refine ⟨i, u, hi, ?_, holder_enabled hv hI hi⟩
      rintro rfl
      obtain ⟨th', hu, hh⟩ := (hI.lk i u).mp hi
      rw [ht] at hu; cases hu
      rw [(holds_wants (cfg := cfg) (s := s) hh).1] at hw; cases hw

/-- C10 (c). A thread holding a shard lock is not running destructors: it has no pending drops and is not in the middle of
one (so user `Drop` code, including nested `ArcIntern` drops, never runs under a lock). -/
theorem C10_no_lock_in_destructors {cfg : Cfg V} (hv : cfg.Valid) {s : State V} (h : Reach cfg s)
    {i : Nat} {t : Tid} (hl : s.locks i = some t) :
    ∃ th, s.threads[t]? = some th ∧ th.todo = [] ∧
      ∀ b, th.pc ≠ .dropSub b ∧ th.pc ≠ .dropRemove b ∧ th.pc ≠ .dropFree b := by
  have hI := reach_inv hv h
  obtain ⟨th, ht, hh⟩ := (hI.lk i t).mp hl
  have hd : th.pc.dropping = false := by
    cases hpc : th.pc <;> simp [hpc, Pc.holds] at hh <;> rfl
  refine ⟨th, ht, ((hI.th t th ht).empty hd).1, fun b => ⟨?_, ?_, ?_⟩⟩ <;>
  · intro e; rw [e] at hd; cases hd

/-- The hypotheses are met: thread 0 holds a lock and thread 1 waits for it. -/
def waitTrace : List (Act Val) :=
  [.spawn, .spawn, .new 0 ⟨5, 1, []⟩ false, .new 1 ⟨5, 2, []⟩ false, r 0, r 0 10, r 0]
example : Reach demoCfg (demo waitTrace) ∧ (demo waitTrace).locks 1 = some 0 ∧
    (match step demoCfg (demo waitTrace) (.run 1 30) with | .blocked => true | _ => false) = true :=
  ⟨demo_reach (by decide), by decide, by decide⟩

/-- C11. From every reachable state (with room in the counters for the running calls, and no abandoned removal) the
running calls can all be completed by running them, without any new client call. -/
theorem C11_completable {cfg : Cfg V} (hv : cfg.Valid) {s : State V} (h : ReachND cfg s)
    (hroom : ∀ p, (allHandles cfg s).count p + pendingNews s < cfg.W) :
    ∃ s', Runs cfg s s' ∧ Quiescent s' :=
  complete hv _ s (Nat.lt_succ_self _) ⟨reach_inv hv h.reach, hroom, h.zombies⟩

/-- C11 (b). The same whatever addresses the allocator returns: the order in which the threads run can be chosen as we go,
so that every possible sequence of (fresh) addresses leads to a state in which no call is running. -/
theorem C11_completable_any_addresses {cfg : Cfg V} (hv : cfg.Valid) {s : State V} (h : ReachND cfg s)
    (hroom : ∀ p, (allHandles cfg s).count p + pendingNews s < cfg.W) : Must cfg Quiescent s :=
  must_complete hv _ s (Nat.lt_succ_self _) ⟨reach_inv hv h.reach, hroom, h.zombies⟩

/-- The hypotheses are met by a state with a drop between its decrement and its removal and another call spinning. -/
example : ReachND demoCfg (demoND (reviveTrace.take 14)) ∧
    (demoND (reviveTrace.take 14)).threads.map (fun th => th.isIdle) = [false, false] ∧
    ∀ p, (allHandles demoCfg (demoND (reviveTrace.take 14))).count p + pendingNews (demoND (reviveTrace.take 14)) < demoCfg.W :=
  ⟨demoND_reach (by decide), by decide, fun p => by
    have : allHandles demoCfg (demoND (reviveTrace.take 14)) = [] := by decide
    rw [this, List.count_nil]; decide⟩

/-! ### C12 -/

omit [EquivBEq V] [LawfulHashable V] in
theorem exec_cons {cfg : Cfg V} {s s' : State V} {a : Act V} {as : List (Act V)} (h : step cfg s a = .ok s') :
    exec cfg s (a :: as) = exec cfg s' as := by simp [exec, h]

theorem quiescent_locks {cfg : Cfg V} {s : State V} (hI : Inv cfg s) (hq : Quiescent s) (i : Nat) : s.locks i = none := by
  cases hi : s.locks i with
  | none => rfl
  | some u =>
    obtain ⟨th, hu, hh⟩ := (hI.lk i u).mp hi
    have := holds_notIdle hh
    rw [hq th (mem_of_getElem? hu)] at this; cases this

/-- C12 (a). Hit: if an equal value has a handle, `new(v)` started when nothing else runs obtains that object in
exactly three steps (lookup, increment, unlock), and then only drops its own argument. -/
theorem C12_solo_hit {cfg : Cfg V} (hv : cfg.Valid) {s s1 : State V} (h : Reach cfg s) (hq : Quiescent s)
    {t : Tid} {v : V} {dst : Bool} (hcall : step cfg s (.new t v dst) = .ok s1) (hs1 : Small cfg s1)
    {p : Addr} {x : V} (hp : p ∈ allHandles cfg s) (hx : deref s p = some x) (hxv : (x == v) = true)
    (a1 a2 a3 : Addr) :
    ∃ s2, exec cfg s1 [.run t a1, .run t a2, .run t a3] = .ok s2 ∧
      s2.threads[t]? = some { pc := .idle, todo := cfg.kids v, ret := some p, arg := some v } ∧ deref s2 p = some x := by
  have hI := reach_inv hv h
  have hI1 := reach_inv hv (.step h (by simp [Act.Sane]) hcall hs1)
  obtain ⟨c, hc, rfl⟩ := deref_get hx
  have hlk := quiescent_locks hI hq
  have hR := step_R hcall
  cases hR with
  | new _ _ _ th ht hid hown hd =>
    have hcount : c.count ≠ 0 := by
      have hA : 0 < A cfg s p := List.count_pos_iff.mpr hp
      have := hI.cnt p c (hI.live p hA) hc
      omega
    have hf := find_some_of_matches hI1 (b := p) (v := v) ⟨hI.in_table hp, c, hc, hxv⟩
    have e1 := R_step hI1 (a := a1) (set_self ht) (.found _ p rfl (hlk _) hf)
    have e2 := then_R e1 (a := a2) (Or.inl rfl) (set_self (set_self ht)) (.hit _ _ p c rfl hc hcount)
    have e3 := then_R e2 (a := a3) (Or.inl rfl) (set_self (set_self (set_self ht))) (.hitRet _ _ p rfl)
    exact ⟨_, by rw [exec_cons e1, exec_cons e2, exec_cons e3]; rfl, set_self (set_self (set_self (set_self ht))), by
      refine (get_data_setCount _ _ _ _).trans ?_
      exact congrArg (Option.map (·.data)) hc⟩

/-- C12 (b). Miss: if no registered object equals `v`, `new(v)` started when nothing else runs obtains a fresh object, at
the address the allocator chooses, in exactly five steps (lookup, allocate, entry, insert, unlock), and returns it in the sixth. -/
theorem C12_solo_miss {cfg : Cfg V} (hv : cfg.Valid) {s s1 : State V} (h : Reach cfg s) (hq : Quiescent s)
    {t : Tid} {v : V} {dst : Bool} (hcall : step cfg s (.new t v dst) = .ok s1) (hs1 : Small cfg s1)
    (hno : ∀ p x, p ∈ s.table → deref s p = some x → (x == v) = false)
    {a : Addr} (ha : a ≠ 0 ∧ a ∉ keys s.heap) (a1 a3 a4 a5 a6 : Addr) :
    ∃ s2, exec cfg s1 [.run t a1, .run t a, .run t a3, .run t a4, .run t a5, .run t a6] = .ok s2 ∧
      s2.threads[t]? = some {} ∧ s2.handles = a :: s1.handles ∧ deref s2 a = some v ∧ refcount s2 a = some 1 := by
  have hI := reach_inv hv h
  have hI1 := reach_inv hv (.step h (by simp [Act.Sane]) hcall hs1)
  have hlk := quiescent_locks hI hq
  have hR := step_R hcall
  cases hR with
  | new _ _ _ th ht hid hown hd =>
    have hfn : ∀ s' : State V, s'.table = s.table → (∀ b ∈ s.table, get s'.heap b = get s.heap b) → find s' v = none := by
      intro s' h1 h2
      cases hf : find s' v with
      | none => rfl
      | some b =>
        obtain ⟨g1, y, g2, g3⟩ := find_some hf
        rw [h1] at g1
        rw [h2 b g1] at g2
        have := hno b y.data g1 (by rw [deref, g2]; rfl)
        rw [g3] at this; cases this
    have hne : ∀ b ∈ s.table, get ((a, ({ count := 1, data := v } : Cell V)) :: s.heap) b = get s.heap b := by
      intro b hb
      simp only [get]
      rw [if_neg]
      rintro rfl
      exact ha.2 (hI.mem_keys hb)
    have e1 := R_step hI1 (a := a1) (set_self ht) (.missing _ rfl (hlk _) (hfn _ rfl (fun _ _ => rfl)) rfl)
    have e2 := then_R e1 (a := a) (Or.inl rfl) (set_self (set_self ht)) (.alloc _ rfl ha.1 ha.2)
    have e3 := then_R e2 (a := a3) (Or.inr ?_) (set_self (set_self (set_self ht)))
      (.vacant _ a ⟨1, v⟩ rfl (by simp [State.setThread, get]) (hlk _) (hfn _ rfl hne))
    have e4 := then_R e3 (a := a4) (Or.inl rfl) (set_self (set_self (set_self (set_self ht)))) (.insert _ _ a rfl)
    have e5 := then_R e4 (a := a5) (Or.inl rfl) (set_self (set_self (set_self (set_self (set_self ht))))) (.inserted _ _ a rfl)
    have e6 := then_R e5 (a := a6) (Or.inl rfl) (set_self (set_self (set_self (set_self (set_self (set_self ht)))))) (.ret a rfl rfl rfl)
    refine ⟨_, by rw [exec_cons e1, exec_cons e2, exec_cons e3, exec_cons e4, exec_cons e5, exec_cons e6]; rfl, ?_, rfl, ?_, ?_⟩
    · exact set_self (set_self (set_self (set_self (set_self (set_self (set_self ht))))))
    · simp [deref, State.setThread, State.lock, State.unlock, get]
    · simp [refcount, State.setThread, State.lock, State.unlock, get]
    · have := hI1.tableOk
      simp only [Arc.tableOk, State.setThread, List.all_eq_true] at this ⊢
      intro b hb
      rw [hne b hb]; exact this b hb

/-- C12 (c). There is no third case: started when nothing else runs (and no removal was ever abandoned, see C20), `new(v)` has
obtained its object after at most six of its own steps, whatever is registered. Either that object already had a handle, and all that is left
to do is to drop the argument, or it is a new one holding `v`, and the call has returned. -/
theorem C12_solo {cfg : Cfg V} (hv : cfg.Valid) {s s1 : State V} (h : ReachND cfg s) (hq : Quiescent s)
    {t : Tid} {v : V} {dst : Bool} (hcall : step cfg s (.new t v dst) = .ok s1) (hs1 : Small cfg s1)
    {a : Addr} (ha : a ≠ 0 ∧ a ∉ keys s.heap) :
    ∃ n ≤ 6, ∃ s2 p x, exec cfg s1 (List.replicate n (.run t a)) = .ok s2 ∧ deref s2 p = some x ∧ (x == v) = true ∧
      ((p ∈ allHandles cfg s ∧ s2.threads[t]? = some { pc := .idle, todo := cfg.kids v, ret := some p, arg := some v }) ∨
       (p ∉ allHandles cfg s ∧ s2.threads[t]? = some {} ∧ s2.handles = p :: s1.handles ∧ x = v)) := by
  by_cases hm : ∃ p x, p ∈ s.table ∧ deref s p = some x ∧ (x == v) = true
  · obtain ⟨p, x, hp, hx, hxv⟩ := hm
    have hA := (C05_table_exact hv h hq p).mp hp
    obtain ⟨s2, e, e2, e3⟩ := C12_solo_hit hv h.reach hq hcall hs1 hA hx hxv a a a
    exact ⟨3, by decide, s2, p, x, e, e3, hxv, Or.inl ⟨hA, e2⟩⟩
  · have hno : ∀ p x, p ∈ s.table → deref s p = some x → (x == v) = false := by
      intro p x h1 h2
      cases h3 : x == v with
      | false => rfl
      | true => exact absurd ⟨p, x, h1, h2, h3⟩ hm
    obtain ⟨s2, e, e2, e3, e4, _⟩ := C12_solo_miss hv h.reach hq hcall hs1 hno ha a a a a a
    refine ⟨6, Nat.le_refl _, s2, a, v, e, e4, BEq.rfl, Or.inr ⟨fun hA => ha.2 ?_, e2, e3, rfl⟩⟩
    have hI := reach_inv hv h.reach
    exact hI.mem_keys (hI.in_table hA)

/-- The proviso is needed: after a panic in the removal of a `drop`, `new` of an equal value goes round its loop (C20). -/
example : let s := demo [.spawn, .new 0 ⟨5, 1, []⟩ false, r 0, r 0 10, r 0, r 0, r 0, r 0, .drop 0 10, r 0, .panic 0,
      .new 0 ⟨5, 2, []⟩ false, r 0, r 0, r 0]
    s.handles = [] ∧ s.threads.map (fun th => th.isIdle) = [false] := by decide

/-- Both cases occur. -/
example : Reach demoCfg (demo raceTrace) ∧ (∀ th ∈ (demo raceTrace).threads, th.isIdle = true) ∧
    10 ∈ allHandles demoCfg (demo raceTrace) ∧ ((demo raceTrace).table.filterMap (deref (demo raceTrace))) = [⟨5, 1, []⟩] :=
  ⟨race_reach, by decide, by decide, by decide⟩

end Arc
