import Verif.Src.PoolMain
import Verif.Src.PoolDemo
/-!
C81: `Intern` and `Arena`, with the functions as they are written. Vocabulary in `Verif/Src/PoolSpec.lean`, the code in
`Verif/Src/PoolCode.lean`, the rules of the language in `Verif/Src/Lang.lean`.
-/
namespace Src.PoolCode
open Arc (Res)
open Pool (Tid Ptr Query Ret Obj Cfg Entry)

section
variable {K V : Type} [DecidableEq K] [BEq V] [Hashable V] [EquivBEq V] [LawfulHashable V] {cfg : Cfg K V}

/-- C81 (a). No step uses memory that contains no value, a variable that has been moved from, or frees memory twice. -/
theorem C81_no_ub (lay : cfg.Layout) {S : State K V} (h : Reach cfg S) (act : Act K V) : step cfg S act ≠ .ub := by
  obtain ⟨s, h1, h2⟩ := h.sim lay
  cases act with
  | spawn => simp [step]
  | call t o byRef => simp only [step]; repeat' split <;> simp
  | dropArena t k => simp only [step]; repeat' split <;> simp
  | run t a => exact (sim_run lay h1 h2 t a).1
  | panic t => exact (sim_panic h1 h2 t).1

example : Reach Pool.Demo.cfg (demo race) ∧ Reach Pool.Demo.cfg (demo dropping) := ⟨demo_reach (by decide +kernel), demo_reach (by decide +kernel)⟩

/-- C81 (b). Every handle that an interning function has returned leads to a value equal to the argument, until its arena is dropped. -/
theorem C81_handle_valid (lay : cfg.Layout) {S : State K V} (h : Reach cfg S) {j : Nat} {k : K} {q : Query V} {v : V} {r : Ret}
    (hr : Returned S ⟨j, .intern k q v, r⟩) (hk : k ∉ S.gone) : ∃ p x, r = .ptr p ∧ deref S k p = some x ∧ (x == v) = true := by
  obtain ⟨s, h1, h2⟩ := h.sim lay
  have hl := h2.done_sub (h1.lin.rets _ hr)
  obtain ⟨p, x, e1, _, e2, e3⟩ := h2.handle lay (by rw [h1.shared.gone]; exact hk) hl
  exact ⟨p, x, e1, by rw [h1.deref hk]; exact e2, e3⟩

/-- Thread 0 has stored its value at address 10; thread 1 has got the same handle for another, equal value. -/
theorem race_hist : (demo race).hist = [.ret ⟨1, .intern 0 (.ofVal ⟨5, 2⟩) ⟨5, 2⟩, .ptr ⟨10, 0⟩⟩, .ret ⟨0, .intern 0 (.ofVal ⟨5, 1⟩) ⟨5, 1⟩, .ptr ⟨10, 0⟩⟩,
    .call 1 (.intern 0 (.ofVal ⟨5, 2⟩) ⟨5, 2⟩), .call 0 (.intern 0 (.ofVal ⟨5, 1⟩) ⟨5, 1⟩)] := rfl

example : Returned (demo race) ⟨1, .intern 0 (.ofVal ⟨5, 2⟩) ⟨5, 2⟩, .ptr ⟨10, 0⟩⟩ ∧ 0 ∉ (demo race).gone ∧
    deref (demo race) 0 ⟨10, 0⟩ = some ⟨5, 1⟩ := by
  refine ⟨?_, by decide +kernel, by decide +kernel⟩
  rw [Returned, race_hist]; simp

/-- C81 (c). Two handles from the same pool are the same pointer iff the arguments are equal. -/
theorem C81_canonical (lay : cfg.Layout) {S : State K V} (h : Reach cfg S) {i j : Nat} {k : K} {q q' : Query V} {v w : V} {p p' : Ptr}
    (h1 : Returned S ⟨i, .intern k q v, .ptr p⟩) (h2 : Returned S ⟨j, .intern k q' w, .ptr p'⟩) (hk : k ∉ S.gone) :
    p = p' ↔ (v == w) = true := by
  obtain ⟨s, a1, a2⟩ := h.sim lay
  have hk' : k ∉ s.gone := by rw [a1.shared.gone]; exact hk
  obtain ⟨_, x, e1, b1, _, c1⟩ := a2.handle lay hk' (a2.done_sub (a1.lin.rets _ h1))
  obtain ⟨_, y, e2, b2, _, c2⟩ := a2.handle lay hk' (a2.done_sub (a1.lin.rets _ h2))
  cases e1; cases e2
  rw [a2.kept_inj lay hk' b1 b2]
  constructor
  · exact fun e => BEq.trans (BEq.trans (BEq.symm c1) e) c2
  · exact fun e => BEq.trans (BEq.trans c1 e) (BEq.symm c2)

example : Returned (demo race) ⟨0, .intern 0 (.ofVal ⟨5, 1⟩) ⟨5, 1⟩, .ptr ⟨10, 0⟩⟩ ∧
    Returned (demo race) ⟨1, .intern 0 (.ofVal ⟨5, 2⟩) ⟨5, 2⟩, .ptr ⟨10, 0⟩⟩ := by
  simp [Returned, race_hist]

/-- C81 (d). What a handle leads to never changes, whatever happens, until its arena is dropped. -/
theorem C81_handle_stable (lay : cfg.Layout) {S S' : State K V} (h : Reach cfg S) (hl : Later cfg S S') {j : Nat} {k : K} {q : Query V} {v : V}
    {p : Ptr} (hr : Returned S ⟨j, .intern k q v, .ptr p⟩) (hk : k ∉ S.gone) (hk' : k ∉ S'.gone) : deref S' k p = deref S k p := by
  obtain ⟨s, h1, h2⟩ := h.sim lay
  obtain ⟨s', h3, h4, h5⟩ := hl.sim lay h1 h2
  obtain ⟨_, x, e1, b1, c1, _⟩ := h2.handle lay (by rw [h1.shared.gone]; exact hk) (h2.done_sub (h1.lin.rets _ hr))
  cases e1
  rw [h1.deref hk, c1, h3.deref hk']
  obtain ⟨l, e⟩ := h5
  obtain ⟨m, em⟩ := Pool.interned_mono l s.log k
  have I := h4.inv lay
  refine (I.deref_iff lay k p x).mpr (I.vals k (by rw [h3.shared.gone]; exact hk') (p, x) ?_)
  rw [← e, em]
  exact List.mem_append_right _ b1

/-- The handle from before a whole arena came and went. -/
example : Later Pool.Demo.cfg (demo first) (demo (dropping ++ runs 1 0 12)) ∧ deref (demo (dropping ++ runs 1 0 12)) 0 ⟨10, 0⟩ = some ⟨5, 1⟩ ∧
    Returned (demo first) ⟨0, .intern 0 (.ofVal ⟨5, 1⟩) ⟨5, 1⟩, .ptr ⟨10, 0⟩⟩ := by
  refine ⟨?_, by decide +kernel, ?_⟩
  · exact script_later ((dropping ++ runs 1 0 12).drop 16) (.refl _) rfl
  · show _ ∈ [Event.ret _, Event.call _ _]
    exact List.mem_cons_self

/-- C81 (e). Linearizability, with calls inside calls: there is a sequential history with right answers, that contains every call that has
returned, with its result; only calls that have been made, each at most once; and a call that had returned before another was made comes first.
(Histories are newest first.) -/
theorem C81_linearizable (lay : cfg.Layout) {S : State K V} (h : Reach cfg S) : ∃ log : List (Entry K V), Pool.Sequential log ∧
    (∀ e, Returned S e → e ∈ log) ∧ (∀ e ∈ log, Called S e.tid e.op) ∧ (∀ j, log.countP (fun e => e.tid == j) ≤ 1) ∧
    (∀ j o o', Called S j o → Called S j o' → o = o') ∧
    ∀ e j, RetBefore S e j → ∀ newer e' older, log = newer ++ e' :: older → e'.tid = j → e ∈ older := by
  obtain ⟨s, h1, h2⟩ := h.sim lay
  refine ⟨s.log, (h2.inv lay).seq, fun e he => h2.done_sub (h1.lin.rets e he), h1.lin.log, fun j => ?_, (called_lt h).2, ?_⟩
  · by_cases hj : j < s.threads.length
    · have := h1.lin.once j _ (List.getElem?_eq_getElem hj)
      omega
    · have : s.log.countP (fun e => e.tid == j) = 0 := by
        rw [List.countP_eq_zero]
        intro e he
        have := h1.lin.calls _ _ (h1.lin.log e he)
        simp only [beq_iff_eq]
        intro e'; rw [e'] at this; exact hj this
      omega
  · rintro e j ⟨later, o, earlier, e1, e2⟩ newer e' older hl he
    exact h1.lin.order later j o earlier e newer e' older e1 e2 hl he

/-- In `nested`, a destructor that runs during call 2 makes the calls 3 and 4; they have returned before call 2 has. -/
example : RetBefore (demo nested) ⟨3, .intern 2 (.ofVal ⟨6, 3⟩) ⟨6, 3⟩, .ptr ⟨30, 0⟩⟩ 4 ∧ (demo nested).hist.head? = some (.ret ⟨2, .intern 2 (.ofVal ⟨5, 2⟩) ⟨5, 2⟩, .ptr ⟨20, 0⟩⟩) := by
  refine ⟨⟨(demo nested).hist.take 2, .intern 1 (.ofVal ⟨6, 0⟩) ⟨6, 0⟩, (demo nested).hist.drop 3, rfl, ?_⟩, rfl⟩
  exact List.mem_cons_self

/-- C81 (f). A function that comes to its end without a panic gives a result to its caller. -/
theorem C81_returns (lay : cfg.Layout) {S S' : State K V} (h : Reach cfg S) {t : Tid} {a : Nat} {c : Running K V} {cs : List (Running K V)}
    (ht : S.threads[t]? = some (c :: cs)) (hs : step cfg S (.run t a) = .ok S') (he : S'.threads[t]? = some cs) {o : Pool.Op K V} {byRef : Bool}
    (hc : c.call = .op o byRef) (hp : c.frame.panicking = false) : ∃ r, S'.hist = .ret ⟨c.id, o, r⟩ :: S.hist := by
  obtain ⟨s, h1, h2⟩ := h.sim lay
  have hmem := mem_calls ht List.mem_cons_self
  obtain ⟨pc, hpc, hR, hN⟩ := h1.rel c hmem
  have hout := run_rel (a := a) (h2.inv lay) lay hpc h1.shared (lock_model h1 (h2.inv lay)) t hN hR
    (fun k p hd => h1.acct.dealloc (mem_debts hmem hd)) (fun k hk => by rw [hc] at hk; cases hk) (fun k hk => by rw [hc] at hk; cases hk)
  simp only [step, ht] at hs
  generalize (lang cfg).run S.mem t a [c.frame] = X at hout hs
  cases hout with
  | ok _ =>
    cases hs
    exfalso
    rw [Pool.getElem?_set_self' ht] at he
    have := congrArg (Option.map List.length) he
    simp at this
  | pop _ _ hr =>
    cases hs
    have hr := hr hp
    rw [hc] at hr
    obtain ⟨x, r, e1, e2, _⟩ := hr
    refine ⟨r, ?_⟩
    simp [ends, hp, hc, e1, e2]
  | wait _ _ => cases hs
  | alloc _ => cases hs

example : ∃ S', step Pool.Demo.cfg (demo (race.take 16)) (.run 0 10) = .ok S' ∧ S'.threads[0]? = some [] ∧
    S'.hist.head? = some (.ret ⟨0, .intern 0 (.ofVal ⟨5, 1⟩) ⟨5, 1⟩, .ptr ⟨10, 0⟩⟩) :=
  ⟨_, rfl, rfl, rfl⟩

/-- C81 (g). A thread between two calls holds no lock, whatever way the calls ended. -/
theorem C81_locks_released (lay : cfg.Layout) {S : State K V} (h : Reach cfg S) {t : Tid} (ht : S.threads[t]? = some []) (i : Nat) :
    S.mem.lock i ≠ some t := by
  intro hl
  obtain ⟨s, h1, _⟩ := h.sim lay
  obtain ⟨cs, h3, c, h4, _⟩ := h1.lock_of hl
  rw [ht] at h3; cases h3; cases h4

/-- A panic in the comparison of a lookup, and one in a destructor that runs under the lock; then the calls end. -/
example : (demo ([.spawn, .new 0 0 ⟨5, 1⟩ false] ++ runs 0 10 3 ++ [.panic 0] ++ runs 0 10 10)).threads.map List.length = [0] ∧
    (demo (inDtor ++ [.panic 0] ++ runs 0 10 3)).threads.map List.length = [0, 0] ∧ (demo inDtor).mem.lock 7 = some 0 ∧
    (demo (inDtor ++ [.panic 0] ++ runs 0 10 3)).mem.lock 7 = none := by
  decide +kernel

/-- C81 (h). A function of an arena has released its lock when it runs a destructor, unless it is unwinding: locks that the thread holds
then have been taken by the calls around it. -/
theorem C81_arena_unlocks_first (lay : cfg.Layout) {S : State K V} (h : Reach cfg S) {t : Tid} {c : Running K V} {cs : List (Running K V)}
    (ht : S.threads[t]? = some (c :: cs)) (ho : cfg.owns c.call.pool = true) (hp : c.frame.panicking = false) (hd : Destroying c.frame) :
    locksOf c.frame = [] ∧ ∀ i, S.mem.lock i = some t → ∃ c' ∈ cs, i ∈ locksOf c'.frame := by
  obtain ⟨s, h1, h2⟩ := h.sim lay
  have key : locksOf c.frame = [] := by
    rw [List.eq_nil_iff_forall_not_mem]
    intro i hi
    rw [mem_locksOf] at hi
    obtain ⟨pc, hpc, hR, hN⟩ := h1.rel c (mem_calls ht List.mem_cons_self)
    exact hR.destroying hN ho hp hd i hi
  refine ⟨key, fun i hl => ?_⟩
  obtain ⟨ds, h3, d, h4, h5⟩ := h1.lock_of hl
  rw [ht] at h3; cases h3
  rcases List.mem_cons.mp h4 with rfl | h4
  · rw [key] at h5; cases h5
  · exact ⟨d, h4, h5⟩

example : Reach Pool.Demo.cfg (demo arenaDtor) ∧ ∃ c, (demo arenaDtor).threads[0]? = some [c] ∧ Pool.Demo.cfg.owns c.call.pool = true ∧
    c.frame.panicking = false ∧ Destroying c.frame :=
  ⟨demo_reach (by decide +kernel), _, rfl, by decide +kernel, by decide +kernel, _, .inl rfl⟩

/-- `Intern` is different: the argument is destroyed by the closure, and the lock is released after that; a destructor that interns something
can block forever. -/
theorem C81_intern_destructor_deadlock : ∃ S : State Nat Pool.Demo.Val, Reach Pool.Demo.cfg S ∧ ¬ Quiet S ∧
    ∀ t a, step Pool.Demo.cfg S (.run t a) = .blocked := by
  refine ⟨demo stuck, demo_reach (by decide +kernel), ?_, ?_⟩
  · intro h
    have h1 : (demo stuck).threads.all (fun cs => cs.isEmpty) = false := by decide +kernel
    have h2 : (demo stuck).threads.all (fun cs => cs.isEmpty) = true := List.all_eq_true.mpr fun cs hcs => by rw [h cs hcs]; rfl
    rw [h1] at h2; cases h2
  · intro t a
    match t with
    | 0 => rfl
    | 1 => rfl
    | _ + 2 => rfl

/-- C81 (i). Calls that respect a hierarchy of locks cannot deadlock, also if user code calls the functions again: if some function is
running, some function can take a step. -/
theorem C81_deadlock_free (lay : cfg.Layout) {S : State K V} (h : Reach cfg S) {rank : Nat → Nat} (hk : Ranked cfg rank S) (hq : ¬ Quiet S) :
    ∃ t, ∀ a, Fresh S a → ∃ S', step cfg S (.run t a) = .ok S' := by
  obtain ⟨s, h1, h2⟩ := h.sim lay
  exact h1.progress lay h2 hk hq

/-- The destructor of an argument of `Arena::intern` calls `Intern::new`; two functions are on the stack. -/
example : let S := demo (arenaDtor ++ [.new 0 1 ⟨6, 0⟩ false] ++ runs 0 40 4)
    Reach Pool.Demo.cfg S ∧ S.threads.map List.length = [2, 0] ∧ Ranked Pool.Demo.cfg id S ∧ S.mem.lock 7 = some 0 := by
  refine ⟨demo_reach (by decide +kernel), by decide +kernel, ?_, by decide +kernel⟩
  apply ranked_empty
  decide +kernel

/-- C81 (j). The functions take finitely many steps, in any schedule, with any panics. -/
theorem C81_terminates (lay : cfg.Layout) {S : State K V} (h : Reach cfg S) : ∃ N, ∀ n S', Steps cfg n S S' → n ≤ N := by
  refine ⟨stateW S, fun n S' hs => ?_⟩
  have : Reach cfg S' ∧ n + stateW S' ≤ stateW S := by
    induction hs with
    | refl => exact ⟨h, by omega⟩
    | run _ hs ih =>
      have ih := ih h
      obtain ⟨s, h1, _⟩ := ih.1.sim lay
      have := h1.run_less hs
      exact ⟨.step (act := .run _ _) ih.1 trivial hs, by omega⟩
    | panic _ hs ih =>
      have ih := ih h
      obtain ⟨s, h1, _⟩ := ih.1.sim lay
      have := h1.panic_less hs
      exact ⟨.step (act := .panic _) ih.1 trivial hs, by omega⟩
  omega

example : ∃ S', Steps Pool.Demo.cfg 2 (demo (race.take 4)) S' :=
  ⟨_, .run (t := 0) (a := 10) (.run (t := 0) (a := 10) (.refl _) rfl) rfl⟩

/-- C81 (k). With a hierarchy of locks, all running functions can be run to their ends. -/
theorem C81_completes (lay : cfg.Layout) {S : State K V} (h : Reach cfg S) {rank : Nat → Nat} (hk : Ranked cfg rank S) : Must cfg Quiet S := by
  have key : ∀ n (S : State K V), Reach cfg S → Ranked cfg rank S → stateW S ≤ n → Must cfg Quiet S := by
    intro n
    induction n with
    | zero =>
      intro S h hk hw
      refine .done ?_
      intro cs hcs
      cases cs with
      | nil => rfl
      | cons c cs =>
        exfalso
        obtain ⟨t, ht⟩ := List.mem_iff_getElem?.mp hcs
        obtain ⟨rest, p1, _⟩ := split_calls ht
        have e := callsW_perm p1
        have : 0 < callsW (c :: rest) := by
          have := frameW_pos c.frame
          simp only [callsW, List.map_cons, List.sum_cons]
          omega
        simp only [stateW] at hw
        omega
    | succ n ih =>
      intro S h hk hw
      by_cases hq : Quiet S
      · exact .done hq
      · obtain ⟨t, ht⟩ := C81_deadlock_free lay h hk hq
        refine .step t ht fun a S' _ hs => ?_
        obtain ⟨s, h1, _⟩ := h.sim lay
        have := h1.run_less hs
        exact ih S' (.step (act := .run t a) h trivial hs) (ranked_run hk hs) (by omega)
  exact key _ S h hk (Nat.le_refl _)


example : Must Pool.Demo.cfg Quiet (demo (arenaDtor ++ [.new 0 1 ⟨6, 0⟩ false] ++ runs 0 40 4)) :=
  C81_completes Pool.Demo.layout (demo_reach (by decide +kernel)) (ranked_empty (by decide +kernel) id)

/-- C81 (l). No value is lost or destroyed twice: the values that have been given to interning functions or built for them are those whose
destructor has started, those in boxes, and those that running functions are going to destroy or to store. -/
theorem C81_values_conserved (lay : cfg.Layout) {S : State K V} (h : Reach cfg S) : ∃ busy : List (K × V),
    S.mem.born.Perm (S.mem.dead ++ (busy ++ S.mem.heap.map fun o => (o.pool, o.val))) ∧ (Quiet S → busy = []) := by
  obtain ⟨s, h1, _⟩ := h.sim lay
  refine ⟨_, h1.acct.values, fun hq => ?_⟩
  rw [hq.calls]; rfl

example : (demo nested).mem.born.length = 5 ∧ (demo nested).mem.dead = [(2, ⟨5, 2⟩)] ∧ (demo nested).mem.heap.length = 4 := by decide +kernel

/-- C81 (m). When no function is running, all locks are free and no memory is left behind without a value. -/
theorem C81_quiet_clean (lay : cfg.Layout) {S : State K V} (h : Reach cfg S) (hq : Quiet S) : (∀ i, S.mem.lock i = none) ∧ S.mem.husks = [] := by
  obtain ⟨s, h1, _⟩ := h.sim lay
  have hA := h1.acct
  rw [hq.calls] at hA
  refine ⟨fun i => ?_, ?_⟩
  · cases hl : S.mem.lock i with
    | none => rfl
    | some t => exact absurd (hA.owner (by rw [hl]; rfl)) List.not_mem_nil
  · have := hA.husks.length_eq
    simp only [List.length_map] at this
    exact List.length_eq_zero_iff.mp this.symm

example : Quiet (demo nested) ∧ (demo (nested.take 20)).mem.lock 102 = some 0 ∧ (demo (dropping ++ runs 1 0 2)).mem.husks.length = 1 := by
  refine ⟨quiet_of (by decide +kernel), by decide +kernel, by decide +kernel⟩

/-- C81 (n). When no function is running, the boxes of an arena are exactly the elements of its set: a call that panicked has left nothing
behind. -/
theorem C81_arena_exact (lay : cfg.Layout) {S : State K V} (h : Reach cfg S) (hq : Quiet S) {k : K} (ho : cfg.owns k = true) (hk : k ∉ S.gone)
    (p : Ptr) : S.mem.heap.countP (Obj.is k p) = (S.mem.table k).count p := by
  obtain ⟨s, h1, h2⟩ := h.sim lay
  have h3 := (h2.inv lay).owned k ho p
  have h4 : s.threads.countP (Pool.Pc.isInsert k p) = 0 := by
    rw [List.countP_eq_zero]
    intro pc hpc hi
    obtain ⟨u, hu⟩ := List.mem_iff_getElem?.mp hpc
    obtain ⟨c, hc, _⟩ := h1.idle u pc hu (by rintro rfl; cases hi)
    rw [hq.calls] at hc; cases hc
  rw [h4, h1.shared.table, h1.shared.heap, List.countP_filter] at h3
  rw [← Nat.add_zero ((S.mem.table k).count p), ← h3]
  apply List.countP_congr
  intro o _
  simp only [Obj.is, Bool.and_eq_true, decide_eq_true_eq]
  constructor
  · rintro ⟨rfl, rfl⟩; exact ⟨⟨rfl, rfl⟩, hk⟩
  · exact fun x => x.1

/-- The insertion into the set panics; the new box is destroyed by the unwinding. -/
example : let as : List Cmd := [.spawn, .new 0 2 ⟨5, 1⟩ true] ++ runs 0 10 6
    (demo as).mem.heap.length = 1 ∧ (demo (as ++ [.panic 0] ++ runs 0 0 8)).mem.heap.length = 0 ∧
      (demo (as ++ [.panic 0] ++ runs 0 0 8)).threads.map List.length = [0] := by
  decide +kernel

/-- C81 (o). When an arena has been dropped, none of its boxes is left, and, once no function is running, each value that had been given to it
or built for it has been destroyed, exactly once. -/
theorem C81_dropped (lay : cfg.Layout) {S : State K V} (h : Reach cfg S) {k : K} (hd : Dropped S k) : (∀ o ∈ S.mem.heap, o.pool ≠ k) ∧
    (Quiet S → (S.mem.born.filter fun x => decide (x.1 = k)).Perm (S.mem.dead.filter fun x => decide (x.1 = k))) := by
  obtain ⟨s, h1, _⟩ := h.sim lay
  obtain ⟨_, d2, _⟩ := h1.dropped k hd
  have hno : ∀ o ∈ S.mem.heap, o.pool ≠ k := by
    intro o ho e
    have := d2 o.ptr
    rw [List.countP_eq_zero] at this
    exact this o ho (by simp [Obj.is, e])
  refine ⟨hno, fun hq => ?_⟩
  have := h1.acct.values
  rw [hq.calls] at this
  have := this.filter fun x => decide (x.1 = k)
  rw [List.filter_append, List.filter_append] at this
  have e1 : (S.mem.heap.map fun o => (o.pool, o.val)).filter (fun x => decide (x.1 = k)) = [] := by
    rw [List.filter_eq_nil_iff]
    intro x hx
    obtain ⟨o, ho, rfl⟩ := List.mem_map.mp hx
    simpa using hno o ho
  rw [e1] at this
  simpa [debts] using this

example : Dropped (demo (dropping ++ runs 1 0 12)) 2 ∧ (demo dropping).mem.heap.length = 4 ∧
    (demo (dropping ++ runs 1 0 12)).mem.heap.length = 2 ∧ (demo (dropping ++ runs 1 0 12)).mem.dead = [(2, ⟨5, 1⟩), (2, ⟨6, 3⟩), (2, ⟨5, 2⟩)] := by
  refine ⟨?_, by decide +kernel, by decide +kernel, by decide +kernel⟩
  show Event.dropped 2 ∈ Event.dropped 2 :: _
  exact List.mem_cons_self

end
end Src.PoolCode
