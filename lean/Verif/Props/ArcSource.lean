import Verif.Src.ArcMain
import Verif.Src.ArcDemo
import Verif.Props.ArcProgress
/-!
C80: `ArcIntern`, with the functions as they are written. Vocabulary in `Verif/Src/ArcSpec.lean`, the code in `Verif/Src/ArcCode.lean`, the
rules of the language in `Verif/Src/Lang.lean`.
-/
namespace Src.ArcCode
open Arc (Addr Tid Cell Cfg Res demoCfg)

variable {V : Type} [BEq V] [Hashable V] [EquivBEq V] [LawfulHashable V] {cfg : Cfg V}

/-- C80 (a). No step uses memory that is not allocated, or a variable that has been moved from. -/
theorem C80_no_ub (hv : cfg.Valid) {S : State V} (h : Reach cfg S) (act : Act V) (hs : act.Sane) : step cfg S act ≠ .ub := by
  obtain ⟨s, h1, h2⟩ := reach_sim hv h
  exact (sim_step h1 (fun a ha => (Arc.step_kept hv (Arc.reach_inv hv h2) ha).1) act hs).1

example : Reach demoCfg (demo (raceTrace true)) := demo_reach (by decide +kernel)

/-- C80 (b). A client's handle leads to a value and is registered, and two of them are equal as pointers iff their values are equal. -/
theorem C80_canonical (hv : cfg.Valid) {S : State V} (h : Reach cfg S) {p q : Addr} (hp : p ∈ S.handles) (hq : q ∈ S.handles) :
    p ∈ S.mem.table ∧ ∃ x y, deref S p = some x ∧ deref S q = some y ∧ (p = q ↔ (x == y) = true) := by
  obtain ⟨s, h1, h2⟩ := reach_sim hv h
  have key : ∀ p ∈ S.handles, p ∈ Arc.allHandles cfg s := by
    intro p hp
    simp only [Arc.allHandles, List.mem_append]; rw [h1.handles]; exact .inl (.inl hp)
  obtain ⟨x, y, e1, e2, e3⟩ := Arc.inv_canonical (Arc.reach_inv hv h2) (key p hp) (key q hq)
  refine ⟨?_, x, y, h1.deref e1, h1.deref e2, ?_⟩
  · rw [← h1.shared.table]; exact (Arc.reach_inv hv h2).in_table (key p hp)
  · rw [← e3]; simp [Arc.handleEq]

/-- Thread 1 has lost the race and got the handle of thread 0. -/
example : (demo (raceTrace true ++ runs 1 30 26)).handles = [10, 10] ∧ (demo (raceTrace false ++ runs 1 30 24)).handles = [10, 10] := by
  decide +kernel

/-- C80 (c). The count of an object is at least the number of handles of clients to it. -/
theorem C80_count_covers (hv : cfg.Valid) {S : State V} (h : Reach cfg S) {p : Addr} (hp : p ∈ S.handles) :
    ∃ n, refcount S p = some n ∧ S.handles.count p ≤ n := by
  obtain ⟨s, h1, h2⟩ := reach_sim hv h
  have hm : p ∈ Arc.allHandles cfg s := by
    simp only [Arc.allHandles, List.mem_append]; rw [h1.handles]; exact .inl (.inl hp)
  refine ⟨_, h1.refcount (Arc.inv_refcount_exact (Arc.reach_inv hv h2) hm), ?_⟩
  simp only [Arc.allHandles, List.count_append, h1.handles]; omega

/-- C80 (d). When no function is running, the count is exactly the number of handles, of clients and inside values, and all locks are free. -/
theorem C80_quiet_exact (hv : cfg.Valid) {S : State V} (h : Reach cfg S) (hq : Quiet S) :
    (∀ p ∈ allHandles cfg S, p ∈ S.mem.table ∧ refcount S p = some ((allHandles cfg S).count p)) ∧ ∀ i, S.mem.locks i = none := by
  obtain ⟨s, h1, h2⟩ := reach_sim hv h
  have hI := Arc.reach_inv hv h2
  refine ⟨fun p hp => ?_, fun i => ?_⟩
  · have hm : p ∈ Arc.allHandles cfg s := by
      rw [← List.count_pos_iff, h1.quiet_handles hq, List.count_pos_iff]; exact hp
    refine ⟨?_, ?_⟩
    · rw [← h1.shared.table]; exact hI.in_table hm
    · rw [← h1.quiet_handles hq]; exact h1.refcount (Arc.inv_refcount_exact hI hm)
  · rw [← h1.shared.locks]; exact Arc.quiescent_locks hI (h1.quiet hq) i

example : Quiet (demo nestedTrace) ∧ allHandles demoCfg (demo nestedTrace) = [20, 10, 10] ∧ refcount (demo nestedTrace) 10 = some 2 := by
  refine ⟨?_, by decide +kernel, by decide +kernel⟩
  have : (demo nestedTrace).threads.map List.length = [0, 0] := by decide +kernel
  intro fs hfs
  have := this ▸ List.mem_map_of_mem (f := List.length) hfs
  simp at this; exact this

/-- C80 (e). When no function is running and no client has a handle, everything has been released: unless user code panicked in the
removal of a `drop` (C20). -/
theorem C80_no_leak (hv : cfg.Valid) {S : State V} (h : ReachND cfg S) (hq : Quiet S) (hh : S.handles = []) :
    S.mem.heap = [] ∧ S.mem.table = [] := by
  obtain ⟨s, h1, h2⟩ := reachND_sim hv h
  have hI := Arc.reach_inv hv h2.reach
  obtain ⟨e1, e2⟩ := Arc.inv_no_leak hI h2.zombies (h1.quiet hq) (by rw [h1.handles]; exact hh)
  refine ⟨by rw [← h1.quiet_heap hq]; exact e2, ?_⟩
  rw [← h1.shared.table]
  simpa [Arc.numObjects] using e1

example : ReachND demoCfg (demoND dropTrace) ∧ (demoND dropTrace).handles = [] ∧
    (demoND dropTrace).threads.map List.length = [0, 0] ∧ (demoND dropTrace).mem.table = [] ∧
    (demoND (dropTrace.take 82)).mem.heap.length = 2 := by
  refine ⟨demoND_reach (by decide +kernel), by decide +kernel, by decide +kernel, by decide +kernel, by decide +kernel⟩

/-- The destructor of the outer value panics; the handle in it is dropped, and its memory released, all the same. -/
example : let as := dropTrace.take 72 ++ [.panic 1] ++ runs 1 0 17
    ReachND demoCfg (demoND as) ∧ (demoND as).threads.map List.length = [0, 0] ∧
      (demoND as).mem.heap.length = 0 ∧ (demoND (dropTrace.take 72 ++ [.panic 1])).mem.heap.length = 2 := by
  refine ⟨demoND_reach (by decide +kernel), by decide +kernel, by decide +kernel, by decide +kernel⟩

/-- C80 (f). A thread between two calls holds no lock, whatever way the calls ended. -/
theorem C80_locks_released (hv : cfg.Valid) {S : State V} (h : Reach cfg S) {t : Tid} (ht : S.threads[t]? = some []) (i : Nat) :
    S.mem.locks i ≠ some t := by
  intro hl
  obtain ⟨s, h1, h2⟩ := reach_sim hv h
  obtain ⟨th, hth, hR⟩ := h1.thread ht
  rw [← h1.shared.locks] at hl
  obtain ⟨th', h3, h4⟩ := ((Arc.reach_inv hv h2).lk i t).mp hl
  rw [hth] at h3; cases h3
  have := Arc.holds_notIdle h4
  rw [hR.idle] at this; cases this

/-- A panic in the second lookup, with a box and the first lock taken and released. -/
example : (demo ([.spawn, .new 0 ⟨5, 1, []⟩ false] ++ runs 0 10 5 ++ [.panic 0] ++ runs 0 10 9)).threads.map List.length = [0] := by
  decide +kernel

/-- C80 (g). A thread that is about to destroy a value, or is inside the `drop` function of a value being destroyed, holds no lock. -/
theorem C80_no_lock_in_destructor (hv : cfg.Valid) {S : State V} (h : Reach cfg S) {t : Tid} {fs : Stack V} (ht : S.threads[t]? = some fs)
    (hd : Destroying fs) (i : Nat) : S.mem.locks i ≠ some t := by
  intro hl
  obtain ⟨s, h1, h2⟩ := reach_sim hv h
  obtain ⟨th, hth, hR⟩ := h1.thread ht
  rw [← h1.shared.locks] at hl
  obtain ⟨th', h3, h4⟩ := ((Arc.reach_inv hv h2).lk i t).mp hl
  rw [hth] at h3; cases h3
  cases hR with
  | leave _ _ => cases h4
  | destroy _ _ => cases h4
  | unlock hw hlen =>
    rcases hd with ⟨f, g, r, e1, e2, e3⟩ | hd
    · cases fs with
      | nil => cases e1
      | cons f' fs =>
        cases e1
        obtain ⟨g1, G1, e4, hw, _, _, _⟩ := hw.tail
        rw [e2, wind_glue, Option.map_eq_some_iff] at hw
        obtain ⟨_, _, e⟩ := hw
        rw [← e] at e4
        exact e3 _ (List.cons.inj e4).1.symm
    · omega
  | drop hA _ _ =>
    cases hA with
    | @test b n => by_cases h1 : n = 1 <;> simp [h1, Arc.Pc.holds] at h4
    | _ => cases h4
  | new hA =>
    rcases hd with ⟨f, g, r, e1, e2, e3⟩ | hd
    · cases e1
      cases hA with
      | undo4 _ => cases e2; exact e3 _ rfl
      | vac3 _ _ => cases e2; exact e3 _ rfl
      | @miss1 c _ => simp [missing] at e2
      | miss2 _ _ => simp [missing] at e2
      | _ => first | (cases e2; done) | (simp [found, missing, rest, after] at e2; done)
    · simp at hd

/-- Thread 1 drops the value with key 7; it is about to drop the handle inside it, then inside that drop. -/
example : Reach demoCfg (demo (dropTrace.take 73)) ∧ (∃ fs, (demo (dropTrace.take 73)).threads[1]? = some fs ∧ Destroying fs) ∧
    ((demo (dropTrace.take 78)).threads.getD 1 []).length = 2 := by
  refine ⟨demo_reach (by decide +kernel), ⟨_, rfl, .inl ⟨_, .handle 10, _, rfl, rfl, by simp⟩⟩, by decide +kernel⟩

/-- C80 (h). If some function is running, some function can take a step, whatever (fresh) address the allocator would return. -/
theorem C80_deadlock_free (hv : cfg.Valid) {S : State V} (h : Reach cfg S) (hq : ¬ Quiet S) :
    ∃ t, ∀ a, a ≠ 0 → a ∉ Arc.keys S.mem.heap → ∃ S', step cfg S (.run t a) = .ok S' := by
  obtain ⟨s, h1, h2⟩ := reach_sim hv h
  have hI := Arc.reach_inv hv h2
  have hub : ∀ t a, Arc.step cfg s (.run t a) ≠ .ub := fun t a => (Arc.step_kept hv hI (act := .run t a) trivial).1
  by_cases hQ : Arc.Quiescent s
  · unfold Quiet at hq
    rw [Classical.not_forall] at hq
    obtain ⟨fs, hq⟩ := hq
    rw [Classical.not_imp] at hq
    obtain ⟨hfs, hne⟩ := hq
    obtain ⟨t, ht⟩ := List.getElem?_of_mem hfs
    refine ⟨t, fun a a1 a2 => ?_⟩
    obtain ⟨th, hth, _⟩ := h1.thread ht
    have hid := hQ th (List.mem_of_getElem? hth)
    rcases sim_run h1 t a (hub t a) with ⟨_, e⟩ | ⟨S', _, _, _, e, _⟩
    · exfalso
      rcases e with e | e | e | ⟨th', e1, e2, _⟩
      · rw [ht] at e; cases e
      · rw [ht] at e; cases e; exact hne rfl
      · exact e.elim a1 a2
      · rw [hth] at e1; cases e1; rw [hid] at e2; cases e2
    · exact ⟨S', e⟩
  · obtain ⟨t, a0, s', ⟨th, hth, hid⟩, e0⟩ := Arc.C10_deadlock_free hv h2 hQ
    refine ⟨t, fun a a1 a2 => ?_⟩
    rcases sim_run h1 t a (hub t a) with ⟨_, e⟩ | ⟨S', _, _, _, e, _⟩
    · exfalso
      rcases e with e | e | e | ⟨th', e1, _, e2⟩
      · have : t < S.threads.length := by rw [← h1.len]; exact (List.getElem?_eq_some_iff.mp hth).1
        rw [List.getElem?_eq_getElem this] at e; cases e
      · obtain ⟨th', hth', hR⟩ := h1.thread e
        rw [hth] at hth'; cases hth'
        rw [hR.idle] at hid; cases hid
      · exact e.elim a1 a2
      · rw [hth] at e1; cases e1
        simp only [Arc.step, hth, e2] at e0; cases e0
    · exact ⟨S', e⟩

/-- Thread 1 waits for the lock that thread 0 holds. -/
example : let S := demo ([.spawn, .spawn, .new 0 ⟨5, 1, []⟩ false, .new 1 ⟨5, 2, []⟩ false] ++ runs 0 10 6 ++ runs 1 20 3)
    S.mem.locks 1 = some 0 ∧ (match step demoCfg S (.run 1 20) with | .blocked => true | _ => false) = true := by
  decide +kernel

/-- C80 (i). When `new(v)` (or an unsized constructor) returns a handle, it leads to a value equal to `v`. -/
theorem C80_new_returns (hv : cfg.Valid) {S0 S1 S2 S3 : State V} (h : Reach cfg S0) {t : Tid} {v : V} {dst : Bool} {a b : Addr}
    (hcall : step cfg S0 (.new t v dst) = .ok S1) (hf : Few cfg S1) (hrun : During cfg t S1 S2)
    (hlast : step cfg S2 (.run t a) = .ok S3) (hret : S3.handles = b :: S2.handles) :
    S3.threads[t]? = some [] ∧ ∃ x, deref S3 b = some x ∧ (x == v) = true := by
  obtain ⟨s0, h0, hr0⟩ := reach_sim hv h
  obtain ⟨s1, h1, e⟩ := (sim_step h0 (fun a ha => (Arc.step_kept hv (Arc.reach_inv hv hr0) ha).1) (.new t v dst) trivial).2 S1 hcall
  rcases e with ⟨_, e⟩ | ⟨act', a1, a2, _, a3⟩
  · exact e.elim
  subst a3
  have hr1 : Arc.Reach cfg s1 := .step hr0 a1 a2 (h1.small hf)
  obtain ⟨s2, h2, hr2, hP⟩ := during_sim (v := v) hv hrun h1 hr1 (by
    have hR := Arc.step_R a2
    cases hR with
    | new _ _ _ th0 ht0 =>
      intro th hth
      have : (s0.threads.set t { pc := .newLoop { val := v, dst := dst, conv := none }, arg := some v })[t]? = some th := hth
      rw [Arc.set_getElem? _ _ _ _ _ ht0, if_pos rfl] at this
      cases this; exact .inl rfl)
  cases ht : S2.threads[t]? with
  | none => simp [step, ht] at hlast
  | some fs =>
    obtain ⟨th, hth, hR⟩ := h2.thread ht
    cases hX : (lang cfg).run S2.mem t a fs with
    | blocked => simp [step, ht, hX] at hlast
    | ub => simp [step, ht, hX] at hlast
    | ok y =>
      obtain ⟨m', fs', r⟩ := y
      simp only [step, ht, hX, Res.ok.injEq] at hlast
      subst hlast
      have hr : r = some (.handle b) := by
        simp only at hret
        cases r with
        | none => have := congrArg List.length hret; simp [result] at this
        | some w =>
          cases w with
          | handle c => simp only [result, List.cons_append, List.nil_append, List.cons.injEq, and_true] at hret; rw [hret]
          | _ => have := congrArg List.length hret; simp [result] at this
      subst hr
      obtain ⟨r1, r2, r3⟩ := returns_ret hR hX
      subst r2 r3
      obtain ⟨w, hw, _, x, hx, hxw⟩ := ((Arc.reach_inv hv hr2).th t th hth).ret b r1
      have hwv : w = v := by
        rcases hP th hth with e | e <;> rw [e] at hw <;> cases hw; rfl
      subst hwv
      refine ⟨?_, x.data, ?_, hxw⟩
      · simp only
        rw [Arc.set_getElem? _ _ _ _ _ ht, if_pos rfl]
      · simp [deref, (h2.shared.get hx).1]

/-- The last step of the loser of a race between two unsized constructors. -/
example : let S2 := demo (raceTrace true ++ runs 1 30 25)
    (match step demoCfg S2 (.run 1 0) with | .ok S3 => S3.handles == 10 :: S2.handles | _ => false) = true := by
  decide +kernel

/-- C80 (j). All running functions can be completed, by running them in a suitable order, whatever addresses the allocator returns
(if there is room in the counters, and no removal has been abandoned). -/
theorem C80_completable (hv : cfg.Valid) {S : State V} (h : ReachND cfg S)
    (hroom : ∀ p, (mentions cfg S).count p + S.threads.length < cfg.W) : Must cfg Quiet S := by
  obtain ⟨s, h1, h2⟩ := reachND_sim hv h
  refine must_code hv (Arc.C11_completable_any_addresses hv h2 fun p => ?_) _ S (Nat.lt_succ_self _) h1 (Arc.reach_inv hv h2.reach)
  have e1 := h1.count_le p
  have e2 := hroom p
  have e3 : Arc.pendingNews s ≤ S.threads.length := by
    rw [← h1.len]; exact List.countP_le_length
  omega

example : ReachND demoCfg (demoND (raceTrace true)) ∧ ∀ p, (mentions demoCfg (demoND (raceTrace true))).count p +
    (demoND (raceTrace true)).threads.length < demoCfg.W := by
  refine ⟨demoND_reach (by decide +kernel), fun p => ?_⟩
  have h1 : (mentions demoCfg (demoND (raceTrace true))).length + (demoND (raceTrace true)).threads.length < demoCfg.W := by decide +kernel
  have := List.count_le_length (a := p) (l := mentions demoCfg (demoND (raceTrace true)))
  omega

/-- C80 (k). The exception: if `Hash` panics inside the table insertion, the box is destroyed with the entry, and unwinding `new` then drops
the handle `p` to it: a use after free (C19). -/
theorem C80_insert_panic : ∃ S S' : State Arc.Val, Reach demoCfg S ∧ step demoCfg S (.panicInsert 0) = .ok S' ∧ runFor demoCfg 0 8 S' = .ub := by
  refine ⟨demo ([.spawn, .new 0 ⟨5, 1, []⟩ false] ++ runs 0 10 7), _, demo_reach (by decide +kernel), rfl, rfl⟩

end Src.ArcCode
