import Verif.Src.ArcNestMain
import Verif.Src.ArcNestDemo
import Verif.Props.ArcProgress
/-!
C82: `ArcIntern`, with the functions as they are written, called by destructors and by `Hash` inside its own calls. Vocabulary in
`Verif/Src/ArcNestSpec.lean`, the rules for calls inside calls in `Verif/Src/ArcNest.lean`, the code in `Verif/Src/ArcCode.lean`.
-/
namespace Src.ArcNest
open Arc (Addr Tid Cell Cfg Res demoCfg)

variable {V : Type} [BEq V] [Hashable V] [EquivBEq V] [LawfulHashable V] {cfg : Cfg V}

/-- C82 (a). No step uses memory that is not allocated, or a variable that has been moved from. -/
theorem C82_no_ub (hv : cfg.Valid) {N : State V} (h : Reach cfg N) (act : Act V) : step cfg N act ≠ .ub := by
  obtain ⟨l, S, s, h⟩ := good_reach hv h
  exact good_no_ub hv h act

/-- A destructor runs, moves a handle out of its value, and calls `new`, which calls `Hash`, which calls `new` again. -/
example : let N := demo (reviveTrace ++ runs 1 30 5 ++ [.new 1 ⟨8, 0, []⟩ false] ++ runs 1 40 4)
    Reach demoCfg N ∧ depths N = [0, 3] := ⟨(demo_reach (by decide +kernel)).reach, by decide +kernel⟩

/-- C82 (b). A client's handle leads to a value and is registered, and two of them are equal as pointers iff their values are equal. -/
theorem C82_canonical (hv : cfg.Valid) {N : State V} (h : Reach cfg N) {p q : Addr} (hp : p ∈ N.handles) (hq : q ∈ N.handles) :
    p ∈ N.mem.table ∧ ∃ x y, deref N p = some x ∧ deref N q = some y ∧ (p = q ↔ (x == y) = true) := by
  obtain ⟨l, S, s, h⟩ := good_reach hv h
  exact h.canonical hp hq

/-- The destructor of a value has interned an equal value: it is another object. -/
example : let N := demo (reviveTrace ++ runs 1 30 17)
    N.handles = [30] ∧ N.mem.table = [30, 10] ∧ deref N 30 = some ⟨7, 1, [10]⟩ ∧ deref N 20 = some ⟨7, 0, [10]⟩ := by decide +kernel

/-- C82 (c). The count of an object is at least the number of handles of clients to it. -/
theorem C82_count_covers (hv : cfg.Valid) {N : State V} (h : Reach cfg N) {p : Addr} (hp : p ∈ N.handles) :
    ∃ n, refcount N p = some n ∧ N.handles.count p ≤ n := by
  obtain ⟨l, S, s, h⟩ := good_reach hv h
  exact h.count_covers hp

/-- `Hash`, inside the removal, has got a second handle to the value whose handle is in the value being removed. -/
example : let N := demo (hashTrace ++ runs 1 30 17)
    N.handles = [10] ∧ refcount N 10 = some 2 ∧ depths N = [0, 1] := by decide +kernel

/-- C82 (d). When no call is running, the count is exactly the number of handles, of clients and inside values, and all locks are free. -/
theorem C82_quiet_exact (hv : cfg.Valid) {N : State V} (h : Reach cfg N) (hq : Quiet N) :
    (∀ p ∈ allHandles cfg N, p ∈ N.mem.table ∧ refcount N p = some ((allHandles cfg N).count p)) ∧ ∀ i, N.mem.locks i = none := by
  obtain ⟨l, S, s, h⟩ := good_reach hv h
  exact h.quiet_exact hq

example : let N := demo (reviveTrace ++ runs 1 30 21)
    Quiet N ∧ allHandles demoCfg N = [30, 10] ∧ refcount N 10 = some 1 ∧ N.mem.heap.length = 2 :=
  ⟨quiet_of (by decide +kernel), by decide +kernel, by decide +kernel, by decide +kernel⟩

/-- C82 (e). When no call is running and no client has a handle, everything has been released: unless user code panicked in the removal of
a `drop` (C20). -/
theorem C82_no_leak (hv : cfg.Valid) {N : State V} (h : ReachND cfg N) (hq : Quiet N) (hh : N.handles = []) :
    N.mem.heap = [] ∧ N.mem.table = [] := by
  obtain ⟨l, S, s, h, hz⟩ := good_reachND hv h
  exact h.no_leak hz hq hh

/-- The destructor clones the handle in its value and drops the clone, panics afterwards; all the same everything is released. -/
example : let N := demo (destroyTrace ++ [.take 1 10, .clone 1 [10], .put 1 10, .drop 1 10] ++ runs 1 0 5 ++ [.panic 1] ++ runs 1 0 17)
    Quiet N ∧ N.handles = [] ∧ N.mem.table = [] ∧ N.next = 5 ∧ (demo destroyTrace).mem.heap.length = 2 :=
  ⟨quiet_of (by decide +kernel), by decide +kernel, by decide +kernel, by decide +kernel, by decide +kernel⟩

/-- C82 (f). Wherever user code runs, the calls that it is inside of hold no lock. -/
theorem C82_user_code_holds_no_lock (hv : cfg.Valid) {N : State V} (h : Reach cfg N) {t : Tid} {cs : List (Running V)}
    (ht : N.threads[t]? = some cs) (hc : canCall cs = true) {c : Running V} (hm : c ∈ cs) (i : Nat) : N.mem.locks i ≠ some c.id := by
  intro hl
  have hs := reach_suspended h
  obtain ⟨l, S, s, h⟩ := good_reach hv h
  have hmem := List.mem_of_getElem? ht
  have hu : c.inUser = true := by
    cases cs with
    | nil => cases hm
    | cons c0 cs =>
      rcases List.mem_cons.mp hm with rfl | hm
      · exact hc
      · exact hs _ hmem c hm
  rw [← h.flat.mem, ← h.sim.shared.locks] at hl
  obtain ⟨th, h1, h2⟩ := (h.inv.lk i c.id).mp hl
  obtain ⟨th', h3, hR⟩ := h.sim.thread (h.flat.run cs hmem c hm).1
  rw [h1] at h3; cases h3
  rw [user_no_lock hR hu] at h2; cases h2

example : let N := demo (reviveTrace ++ runs 1 30 5)
    (N.threads[1]?.map canCall) = some true ∧ depths N = [0, 2] := by decide +kernel

/-- C82 (g). A lock is held by the innermost call of some thread, and not while that call is in user code. -/
theorem C82_lock_holder (hv : cfg.Valid) {N : State V} (h : Reach cfg N) {i j : Nat} (hl : N.mem.locks i = some j) :
    ∃ (t : Tid) (c : Running V) (cs : List (Running V)), N.threads[t]? = some (c :: cs) ∧ c.id = j ∧ c.inUser = false := by
  obtain ⟨l, S, s, hg⟩ := good_reach hv h
  exact lock_holder hg (reach_suspended h) hl

/-- The inner `new` of a destructor holds a lock. -/
example : let N := demo (reviveTrace ++ runs 1 30 6)
    (List.range 2).map N.mem.locks = [none, some 3] ∧ depths N = [0, 2] := by decide +kernel

/-- C82 (h). If some call is running, some call can take a step, whatever (fresh) address the allocator would return. -/
theorem C82_deadlock_free (hv : cfg.Valid) {N : State V} (h : Reach cfg N) (hq : ¬ Quiet N) :
    ∃ t, ∀ a, a ≠ 0 → a ∉ Arc.keys N.mem.heap → ∃ N', step cfg N (.run t a) = .ok N' := by
  have hs := reach_suspended h
  obtain ⟨l, S, s, h⟩ := good_reach hv h
  by_cases hl : ∃ i j, N.mem.locks i = some j
  · obtain ⟨i, j, hl⟩ := hl
    obtain ⟨t, c, cs, ht, rfl, _⟩ := lock_holder h hs hl
    refine ⟨t, fun a a1 a2 => ?_⟩
    rw [← h.flat.mem, ← h.sim.shared.locks] at hl
    obtain ⟨th, hth, _⟩ := (h.inv.lk i c.id).mp hl
    obtain ⟨N', _, _, e, _⟩ := head_enabled hv h.flat h.sim h.inv ht hth a1 a2 (.inr ⟨a, Arc.holder_enabled hv h.inv hl a⟩)
    exact ⟨N', e⟩
  · have hnone : ∀ i, s.locks i = none := by
      intro i
      rw [h.sim.shared.locks, h.flat.mem]
      cases hi : N.mem.locks i with
      | none => rfl
      | some u => exact absurd ⟨i, u, hi⟩ hl
    obtain ⟨t, c, cs, ht⟩ := not_quiet hq
    obtain ⟨th, hth, _⟩ := h.sim.thread (h.flat.head ht).1
    refine ⟨t, fun a a1 a2 => ?_⟩
    have hen : th.isIdle = true ∨ ∃ a0 s', Arc.step cfg s (.run c.id a0) = .ok s' := by
      cases hid : th.isIdle with
      | true => exact .inl rfl
      | false =>
        obtain ⟨a0, ha0⟩ := Arc.fresh_addr s.heap
        exact .inr ⟨a0, Arc.run_enabled hv h.inv hth hid (Or.inl ha0) (fun i _ => hnone i)⟩
    obtain ⟨N', _, _, e, _⟩ := head_enabled hv h.flat h.sim h.inv ht hth a1 a2 hen
    exact ⟨N', e⟩

/-- A client waits for the lock that the inner `new` of a destructor holds. -/
example : let N := demo (reviveTrace ++ runs 1 30 6 ++ [.new 0 ⟨7, 2, []⟩ false] ++ runs 0 40 3)
    (match step demoCfg N (.run 0 40) with | .blocked => true | _ => false) = true ∧ depths N = [1, 2] := by decide +kernel

/-- C82 (i). All calls are atomic, also those inside others: there is an order of the effects of all operations, each between the start and
the end of its call, that the specification of an interner (`Arc.SpecRun`, `Verif/Arc/Spec.lean`) allows. -/
theorem C82_linearizable (hv : cfg.Valid) {N : State V} (h : Reach cfg N) :
    ∃ (l : List (Mark V)) (a : Arc.Abs V), events l = N.hist.reverse ∧ Arc.SpecRun ⟨[], fun _ => none⟩ (ops l) a ∧
      (∀ j, Proper j (part j l)) ∧ (∀ p, N.handles.count p ≤ a.handles.count p) ∧ (∀ p ∈ a.handles, a.val p = deref N p) ∧
      (Quiet N → a.handles.Perm (allHandles cfg N)) := by
  obtain ⟨l, S, s, h⟩ := good_reach hv h
  exact h.linearizable

/-- Call number 3 has been made and has returned inside call number 2. -/
example : ((demo (reviveTrace ++ runs 1 30 21)).hist.map fun | .call j _ => (j, 0) | .ret j _ => (j, 1) | .clone j _ => (j, 2)) =
    [(2, 1), (3, 1), (3, 0), (2, 0), (1, 1), (1, 0), (0, 1), (0, 0)] := by decide +kernel

/-- C82 (j). When `new(v)` (or an unsized constructor) ends without a panic, it returns a handle that leads to a value equal to `v`, whatever
user code has called meanwhile. -/
theorem C82_new_returns (hv : cfg.Valid) {N N' : State V} (h : Reach cfg N) {t : Tid} {c : Running V} {cs : List (Running V)} {v : V}
    {dst : Bool} {a : Addr} (ht : N.threads[t]? = some (c :: cs)) (hc : c.call = .new v dst)
    (hp : c.stack.any (·.panicking) = false) (e : step cfg N (.run t a) = .ok N') (hend : N'.threads[t]? = some cs) :
    ∃ b x, N'.handles = b :: N.handles ∧ N'.hist = .ret c.id (some b) :: N.hist ∧ deref N' b = some x ∧ (x == v) = true := by
  obtain ⟨l, S, s, h⟩ := good_reach hv h
  exact h.new_returns ht hc hp e hend

/-- The last step of the call that the destructor has made. -/
example : let N := demo (reviveTrace ++ runs 1 30 16)
    depths N = [0, 2] ∧ (match step demoCfg N (.run 1 0) with | .ok N' => (depths N', N'.handles) == ([0, 1], [30]) | _ => false) = true := by
  decide +kernel

/-- C82 (k). As long as clients own a handle, it leads to the same value. -/
theorem C82_value_stable (hv : cfg.Valid) {N N' : State V} {p : Addr} (h : Reach cfg N) (hx : ExecIn cfg (fun N => p ∈ N.handles) N N') :
    ∃ x, deref N p = some x ∧ deref N' p = some x := by
  have hN : ∀ {N : State V}, Reach cfg N → p ∈ N.handles → ∃ x, deref N p = some x := by
    intro N h hp
    obtain ⟨_, x, _, e, _⟩ := C82_canonical hv h hp hp
    exact ⟨x, e⟩
  have key : Reach cfg N' ∧ p ∈ N'.handles ∧ deref N' p = deref N p := by
    induction hx with
    | refl hp => exact ⟨h, hp, rfl⟩
    | step _ e hf hp ih =>
      obtain ⟨i1, i2, i3⟩ := ih
      refine ⟨.step i1 e hf, hp, ?_⟩
      rw [← i3]
      obtain ⟨l, S, s, hg⟩ := good_reach hv i1
      exact hg.stable hv e hf i2
  have hp0 : p ∈ N.handles := by
    clear key
    induction hx with
    | refl hp => exact hp
    | step _ _ _ _ ih => exact ih
  obtain ⟨x, hx⟩ := hN h hp0
  exact ⟨x, hx, key.2.2.trans hx⟩

/-- While `Hash` owns a handle, the value that contained the other one is destroyed. -/
example : (List.range 14).all (fun n => decide (10 ∈ (demo (hashTrace ++ runs 1 30 (17 + n))).handles)) = true ∧
    depths (demo (hashTrace ++ runs 1 30 30)) = [0, 0] := by decide +kernel

/-- C82 (l). If only destructors make calls inside calls, all running calls can be completed, by running the threads in a suitable order,
whatever addresses the allocator returns (if there is room in the counters, and no removal has been abandoned). -/
theorem C82_completable (hv : cfg.Valid) {N : State V} (h : ReachND cfg N) (hd : ByDestructors N)
    (hroom : ∀ p, (mentions cfg N).count p + running N < cfg.W) : Must cfg Quiet N := by
  obtain ⟨l, S, s, h, hz⟩ := good_reachND hv h
  refine must_all hv _ N S s (Nat.lt_succ_self _) h.flat h.sim ⟨h.inv, fun p => ?_, hz⟩ hd
  have e1 := h.sim.count_le p
  have e2 := hroom p
  have e3 := pending_le h.flat h.sim
  have e4 := h.flat.mentions cfg p
  simp only [Arc.A]
  omega

omit [BEq V] [Hashable V] [EquivBEq V] [LawfulHashable V] in
theorem room_of {N : State V} (h : (mentions cfg N).length + running N < cfg.W) : ∀ p, (mentions cfg N).count p + running N < cfg.W := by
  intro p
  have := List.count_le_length (a := p) (l := mentions cfg N)
  omega

/-- A call inside a destructor, which is inside a call. -/
example : let N := demo (reviveTrace ++ runs 1 30 6)
    ReachND demoCfg N ∧ ByDestructors N ∧ (∀ p, (mentions demoCfg N).count p + running N < demoCfg.W) ∧ depths N = [0, 2] := by
  refine ⟨demo_reach (by decide +kernel), ?_, room_of (by decide +kernel), by decide +kernel⟩
  have : (demo (reviveTrace ++ runs 1 30 6)).threads.all (fun cs => cs.tail.all fun c => c.stack.head?.any inDestructor) = true := by
    decide +kernel
  intro cs hcs c hc
  exact List.all_eq_true.mp (List.all_eq_true.mp this cs hcs) c hc

/-- The states of a loop: the removal of a value calls `Hash`, which interns an equal value. -/
def spin : Nat → State Arc.Val
  | 0 => { demo spinTrace with mem := { (demo spinTrace).mem with locks := fun _ => none } }
  | n + 1 => match step demoCfg (spin n) (.run 0 0) with
    | .ok N => N
    | _ => init

theorem spin_start : demo spinTrace = spin 0 := by
  have h : Reach demoCfg (demo spinTrace) := (demo_reach (by decide +kernel)).reach
  have hl : (demo spinTrace).mem.locks = fun _ => none := by
    funext i
    cases hi : (demo spinTrace).mem.locks i with
    | none => rfl
    | some j =>
      obtain ⟨t, c, cs, h1, _, h2⟩ := C82_lock_holder Arc.demoCfg_valid h hi
      have hall : (demo spinTrace).threads.all (fun cs => cs.head?.all Running.inUser) = true := by decide +kernel
      have := List.all_eq_true.mp hall _ (List.mem_of_getElem? h1)
      simp only [List.head?_cons, Option.all_some, h2] at this
      cases this
  show demo spinTrace = { demo spinTrace with mem := { (demo spinTrace).mem with locks := fun _ => none } }
  rw [← hl]

theorem spin_step (a : Addr) : ∀ k, k < 12 → step demoCfg (spin k) (.run 0 a) = .ok (spin (k + 1))
  | 0, _ | 1, _ | 2, _ | 3, _ | 4, _ | 5, _ | 6, _ | 7, _ | 8, _ | 9, _ | 10, _ | 11, _ => rfl

theorem spin_back (a : Addr) : step demoCfg (spin 12) (.run 0 a) = .ok (spin 0) := by
  have h1 : step demoCfg (spin 12) (.run 0 a) =
      .ok { spin 0 with mem := { (spin 0).mem with locks := fun i => if i = 1 then none else if i = 1 then some 2 else none } } := rfl
  have h2 : (fun i => if i = 1 then none else if i = 1 then some 2 else none : Nat → Option Tid) = fun _ => none := by
    funext i; split <;> rfl
  rw [h1, h2]; rfl

/-- C82 (m). With calls from `Hash` this fails: if `Hash`, called to find the value to be removed, interns an equal value, then `new` waits for
ever for the removal. -/
theorem C82_hash_can_block : ∃ N : State Arc.Val, ReachND demoCfg N ∧ (∀ p, (mentions demoCfg N).count p + running N < demoCfg.W) ∧
    ¬ Must demoCfg Quiet N := by
  refine ⟨demo spinTrace, demo_reach (by decide +kernel), room_of (by decide +kernel), ?_⟩
  rw [spin_start]
  suffices H : ∀ N : State Arc.Val, Must demoCfg Quiet N → ∀ k, k ≤ 12 → N ≠ spin k from fun h => H _ h 0 (by omega) rfl
  have hne : ∀ k, k ≤ 12 → (spin k).threads.map List.length = [2] := by
    intro k hk
    match k, hk with
    | 0, _ | 1, _ | 2, _ | 3, _ | 4, _ | 5, _ | 6, _ | 7, _ | 8, _ | 9, _ | 10, _ | 11, _ | 12, _ => rfl
  intro N h
  induction h with
  | done hq =>
    rintro k hk rfl
    have h1 := hne k hk
    cases hth : (spin k).threads with
    | nil => rw [hth] at h1; cases h1
    | cons cs l =>
      have := hq cs (by rw [hth]; simp)
      rw [hth, this] at h1; cases h1
  | @step N t hen hnext ih =>
    rintro k hk rfl
    obtain ⟨a, a1, a2⟩ := Arc.fresh_addr (spin k).mem.heap
    obtain ⟨N', e⟩ := hen a a1 a2
    have ht : t = 0 := by
      have h1 : (spin k).threads.length = 1 := by simpa using congrArg List.length (hne k hk)
      cases hth : (spin k).threads[t]? with
      | none => simp [step, hth] at e
      | some cs =>
        have := (List.getElem?_eq_some_iff.mp hth).1
        rw [h1] at this
        exact Nat.lt_one_iff.mp this
    subst ht
    by_cases hk' : k < 12
    · exact ih a _ a1 a2 (spin_step a k hk') (k + 1) (by omega) rfl
    · have : k = 12 := by omega
      subst this
      exact ih a _ a1 a2 (spin_back a) 0 (by omega) rfl

end Src.ArcNest
