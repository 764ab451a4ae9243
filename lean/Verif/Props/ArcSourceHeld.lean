import Verif.Src.ArcHeldEntries
import Verif.Src.ArcHeldDemo
import Verif.Props.ArcSourceValues
/-!
C88: `ArcIntern`, with the functions as they are written, called by user code inside its own calls, also by `Eq` and `Hash` while a lock is
held. Vocabulary in `Verif/Src/ArcHeldSpec.lean`, the rules in `Verif/Src/ArcHeld.lean` and `Verif/Src/ArcNest.lean`, the code in
`Verif/Src/ArcCode.lean`.
-/
namespace Src.ArcHeld
open Arc (Addr Tid Cell Cfg Res demoCfg)
open Src.ArcNest (Running Few Mark Quiet deref refcount allHandles events ops part Proper all ofCall busy)
open Src.ArcCode (Move valuesOf boxesOf husksOf given stored removed destroyed)

variable {V : Type} [BEq V] [Hashable V] [EquivBEq V] [LawfulHashable V] {cfg : Cfg V}

/-- C88 (a). No step uses memory that is not allocated, or a variable that has been moved from. -/
theorem C88_no_ub (hv : cfg.Valid) {X : State V} (h : Reach cfg X) (act : Act V) : step cfg X act ≠ .ub := by
  obtain ⟨⟨l, S, s, h⟩, _⟩ := good_reach hv h
  exact no_ub hv h act

/-- In a comparison, which holds the lock of shard 1, a value of shard 0 is being interned; its insertion holds the other lock. -/
example : let X := demo (calmTrace ++ runs 1 20 7)
    Reach demoCfg X ∧ depths X = [0, 2] ∧ X.held = [(1, 1)] ∧ (List.range 2).map X.base.mem.locks = [some 2, none] :=
  ⟨(demo_reach _).reach, by decide +kernel⟩

/-- C88 (b). A client's handle leads to a value and is registered, and two of them are equal as pointers iff their values are equal. -/
theorem C88_canonical (hv : cfg.Valid) {X : State V} (h : Reach cfg X) {p q : Addr} (hp : p ∈ X.base.handles) (hq : q ∈ X.base.handles) :
    p ∈ X.base.mem.table ∧ ∃ x y, deref X.base p = some x ∧ deref X.base q = some y ∧ (p = q ↔ (x == y) = true) := by
  obtain ⟨⟨l, S, s, h⟩, _⟩ := good_reach hv h
  exact h.canonical hp hq

example : let X := demo (calmTrace ++ runs 1 20 17)
    X.base.handles = [20, 10] ∧ X.base.mem.table = [20, 10] ∧ X.held = [(1, 1)] := by decide +kernel

/-- C88 (c). The count of an object is at least the number of handles of clients to it. -/
theorem C88_count_covers (hv : cfg.Valid) {X : State V} (h : Reach cfg X) {p : Addr} (hp : p ∈ X.base.handles) :
    ∃ n, refcount X.base p = some n ∧ X.base.handles.count p ≤ n := by
  obtain ⟨⟨l, S, s, h⟩, _⟩ := good_reach hv h
  exact h.count_covers hp

/-- `Eq` clones the handle to the value that it compares with. -/
example : let X := demo (eqTrace ++ [.act (.clone 1 [10])])
    X.base.handles = [10, 10] ∧ refcount X.base 10 = some 2 ∧ X.held = [(1, 1)] := by decide +kernel

/-- C88 (d). When no call is running, the count is exactly the number of handles, of clients and inside values, and all locks are free. -/
theorem C88_quiet_exact (hv : cfg.Valid) {X : State V} (h : Reach cfg X) (hq : Quiet X.base) :
    (∀ p ∈ allHandles cfg X.base, p ∈ X.base.mem.table ∧ refcount X.base p = some ((allHandles cfg X.base).count p)) ∧
      ∀ j sh, ¬ Holds X j sh := by
  obtain ⟨⟨l, S, s, h⟩, hI⟩ := good_reach hv h
  obtain ⟨h1, h2⟩ := h.quiet_exact hq
  refine ⟨h1, fun j sh hh => ?_⟩
  rcases hh with hh | hh
  · obtain ⟨cs, hcs, c, hc, _⟩ := hI.run _ hh
    rw [hq cs hcs] at hc; cases hc
  · rw [h2] at hh; cases hh

example : let X := demo (calmTrace ++ runs 1 20 31)
    Quiet X.base ∧ X.base.handles = [10, 20, 10] ∧ refcount X.base 10 = some 2 :=
  ⟨ArcNest.quiet_of (by decide +kernel), by decide +kernel, by decide +kernel⟩

/-- C88 (e). When no call is running and no client has a handle, everything has been released: unless user code panicked in the removal of
a `drop` (C20). -/
theorem C88_no_leak (hv : cfg.Valid) {X : State V} (h : ReachND cfg X) (hq : Quiet X.base) (hh : X.base.handles = []) :
    X.base.mem.heap = [] ∧ X.base.mem.table = [] := by
  obtain ⟨l, S, s, h, hz⟩ := good_reachND hv h
  exact h.no_leak hz hq hh

/-- `Hash`, called to make the table grow, interns a value and drops its handle again. -/
example : let X := demo (growTrace ++ runs 0 20 17 ++ [.act (.drop 0 20)] ++ runs 0 20 23 ++ [.act (.drop 0 10)] ++ runs 0 0 13)
    Quiet X.base ∧ X.base.handles = [] ∧ X.base.next = 4 :=
  ⟨ArcNest.quiet_of (by decide +kernel), by decide +kernel, by decide +kernel⟩

/-- C88 (f). At most one call holds the lock of a shard: it is running, and it is inside a lookup in that shard or has come out of one. -/
theorem C88_lock_unique (hv : cfg.Valid) {X : State V} (h : Reach cfg X) {j sh : Nat} (hh : Holds X j sh) :
    (∀ j', Holds X j' sh → j' = j) ∧ ∃ cs ∈ X.base.threads, ∃ c ∈ cs, c.id = j := by
  obtain ⟨⟨l, S, s, h⟩, hI⟩ := good_reach hv h
  refine ⟨fun j' h' => holds_unique hI h' hh, ?_⟩
  rcases hh with hh | hh
  · obtain ⟨cs, h1, c, h2, h3, _⟩ := hI.run _ hh
    exact ⟨cs, h1, c, h2, h3⟩
  · obtain ⟨cs, h1, c, h2, h3, _⟩ := lock_owner h hh
    exact ⟨cs, h1, c, h2, h3⟩

example : Holds (demo eqTrace) 1 1 ∧ Holds (demo growTrace) 0 1 :=
  ⟨.inl (by decide +kernel), .inr (by decide +kernel)⟩

/-- C88 (g). While a call holds the lock of a shard, nothing but the call itself changes the entries of the shard and their values: neither
other threads nor the calls that `Eq` and `Hash` make inside it. -/
theorem C88_entries_protected (hv : cfg.Valid) {X X' : State V} (h : Reach cfg X) {act : Act V} (e : step cfg X act = .ok X')
    (hf : Few cfg X'.base) {j sh : Nat} (hh : Holds X j sh)
    (hj : ∀ t a c cs, act = .act (.run t a) → X.base.threads[t]? = some (c :: cs) → c.id ≠ j) : entries cfg X' sh = entries cfg X sh := by
  obtain ⟨⟨l, S, s, h⟩, hI⟩ := good_reach hv h
  exact entries_step hv h hI e hf hh hj

/-- Inside a comparison in shard 1, a value is inserted in shard 0. -/
example : let X := demo (calmTrace ++ runs 1 20 7)
    let X' := demo (calmTrace ++ runs 1 20 8)
    Holds X 1 1 ∧ (entries demoCfg X 0, entries demoCfg X 1) = ([], [(10, ⟨5, 1, []⟩)]) ∧
      (entries demoCfg X' 0, entries demoCfg X' 1) = ([(20, ⟨8, 1, []⟩)], [(10, ⟨5, 1, []⟩)]) :=
  ⟨.inl (by decide +kernel), by decide +kernel, by decide +kernel⟩

/-- C88 (h). If the locks are taken in the order of a hierarchy (of shards, or of types), some running call can take a step, whatever (fresh)
address the allocator would return. -/
theorem C88_deadlock_free (hv : cfg.Valid) {X : State V} (h : Reach cfg X) {rank : Nat → Nat} (ho : Ordered cfg rank X)
    (hq : ¬ Quiet X.base) : ∃ t, CanRun cfg X t := by
  obtain ⟨⟨l, S, s, h⟩, hI⟩ := good_reach hv h
  obtain ⟨t, c, cs, ht⟩ := ArcNest.not_quiet hq
  rcases head_waits hv h hI ht with hr | ⟨sh, j, _, hh⟩
  · exact ⟨t, hr⟩
  · exact holder_runs hv h hI ho _ sh j (Nat.lt_succ_self _) hh

/-- The call in the comparison on thread 1 waits for a lock that thread 0 holds. -/
def waitTrace : List (Act Arc.Val) :=
  [.act .spawn, .act .spawn, .act (.new 0 ⟨5, 1, []⟩ false)] ++ runs 0 10 17 ++ [.act (.new 1 ⟨5, 2, []⟩ false)] ++ runs 1 20 3 ++ [.lock 1] ++
    [.act (.new 0 ⟨8, 2, []⟩ false)] ++ runs 0 30 3 ++ [.lock 0, .act (.new 1 ⟨8, 1, []⟩ false)] ++ runs 1 20 3

example : let X := demo waitTrace
    Reach demoCfg X ∧ ¬ Quiet X.base ∧ Ordered demoCfg id X ∧ X.held = [(0, 2), (1, 1)] ∧ needs demoCfg X.base 1 = some (0, 3) := by
  refine ⟨(demo_reach _).reach, fun hq => ?_, ?_, by decide +kernel, by decide +kernel⟩
  · have h1 : ¬ (demo waitTrace).base.threads.all (·.isEmpty) = true := by decide +kernel
    exact h1 (List.all_eq_true.mpr fun cs hcs => by rw [hq cs hcs]; rfl)
  · intro c cs hcs sh hlk o ho sh' hh
    rcases hh with hh | hh
    · have h1 : (demo waitTrace).base.threads.all (fun cs => match cs with
        | [] => true
        | c :: cs => match lookup demoCfg (demo waitTrace).base.mem c with
          | none => true
          | some sh => cs.all fun o => (demo waitTrace).held.all fun k => decide (k.2 = o.id → sh < k.1)) = true := by decide +kernel
      have h2 := List.all_eq_true.mp h1 _ hcs
      simp only [hlk] at h2
      exact of_decide_eq_true (List.all_eq_true.mp (List.all_eq_true.mp h2 o ho) _ hh) rfl
    · exfalso
      obtain ⟨⟨l, S, s, hg⟩, hI⟩ := good_reach Arc.demoCfg_valid (demo_reach waitTrace).reach
      obtain ⟨cs', h1, c', h2, h3, h4⟩ := lock_owner hg hh
      have h5 : (demo waitTrace).base.threads.all (fun cs => cs.all fun c => (lookup demoCfg (demo waitTrace).base.mem c).isSome) = true := by
        decide +kernel
      have := List.all_eq_true.mp (List.all_eq_true.mp h5 _ h1) _ h2
      rw [h4] at this; cases this

omit [EquivBEq V] [LawfulHashable V] in
theorem stuck {X : State V} (h : ∀ t, X.base.threads[t]? = none ∨ X.base.threads[t]? = some [] ∨
    ∃ k, needs cfg X.base t = some k ∧ X.taken k.1 = true ∧ k ∉ X.held) (t : Tid) : ¬ CanRun cfg X t := by
  have none_lock : needs cfg X.base t = none → ¬ ∃ X', step cfg X (.lock t) = .ok X' := by
    rintro e ⟨X', h⟩
    simp only [step, e] at h; cases h
  rintro (hc | hc)
  · rcases h t with h | h | ⟨k, h1, h2, _⟩
    · exact none_lock (by simp only [needs, h]) hc
    · exact none_lock (by simp only [needs, h]) hc
    · obtain ⟨X', hc⟩ := hc
      simp [step, h1, h2] at hc
  · obtain ⟨a, a1, a2⟩ := Arc.fresh_addr X.base.mem.heap
    obtain ⟨X', hc⟩ := hc a a1 a2
    rcases h t with h | h | ⟨k, h1, _, h3⟩
    · simp [step, needs, h, lift, ArcNest.step] at hc
    · simp [step, needs, h, lift, ArcNest.step] at hc
    · simp [step, h1, h3] at hc

theorem stuck_demo {as : List (Act Arc.Val)} (hlen : (demo as).base.threads.length = 2)
    (h : ∀ t, t < 2 → (demo as).base.threads[t]? = some [] ∨
      ∃ k, needs demoCfg (demo as).base t = some k ∧ (demo as).taken k.1 = true ∧ k ∉ (demo as).held) :
    ∀ t, ¬ CanRun demoCfg (demo as) t := by
  refine stuck fun t => ?_
  by_cases ht : t < 2
  · exact .inr (h t ht)
  · exact .inl (List.getElem?_eq_none (by rw [hlen]; exact Nat.le_of_not_lt ht))

theorem not_quiet_demo {as : List (Act Arc.Val)} (h : ((demo as).base.threads.all (·.isEmpty)) = false) : ¬ Quiet (demo as).base := by
  intro hq
  have : (demo as).base.threads.all (·.isEmpty) = true := List.all_eq_true.mpr fun cs hcs => by rw [hq cs hcs]; rfl
  rw [h] at this; cases this

/-- C88 (i). Without a hierarchy this fails: an `Eq` that interns a value of the same shard stops its thread for ever, and two comparisons that
intern values of each other's shard stop both threads. -/
theorem C88_needs_hierarchy :
    (∃ X, ReachND demoCfg X ∧ ¬ Quiet X.base ∧ (∀ t, ¬ CanRun demoCfg X t) ∧ depths X = [0, 2] ∧ X.held = [(1, 1)]) ∧
    ∃ X, ReachND demoCfg X ∧ ¬ Quiet X.base ∧ (∀ t, ¬ CanRun demoCfg X t) ∧ depths X = [2, 2] ∧ X.held = [(0, 3), (1, 2)] := by
  refine ⟨⟨demo selfTrace, demo_reach _, not_quiet_demo (by decide +kernel), stuck_demo (by decide +kernel) fun t ht => ?_,
      by decide +kernel, by decide +kernel⟩,
    ⟨demo crossTrace, demo_reach _, not_quiet_demo (by decide +kernel), stuck_demo (by decide +kernel) fun t ht => ?_,
      by decide +kernel, by decide +kernel⟩⟩
  · match t, ht with
    | 0, _ =>
      left
      have h0 : ((demo selfTrace).base.threads[0]?.map List.length) = some 0 := by decide +kernel
      cases hx : (demo selfTrace).base.threads[0]? with
      | none => rw [hx] at h0; cases h0
      | some cs =>
        rw [hx] at h0
        simp only [Option.map_some, Option.some.injEq, List.length_eq_zero_iff] at h0
        rw [h0]
    | 1, _ => exact .inr ⟨(1, 2), by decide +kernel, by decide +kernel, by decide +kernel⟩
  · match t, ht with
    | 0, _ => exact .inr ⟨(0, 4), by decide +kernel, by decide +kernel, by decide +kernel⟩
    | 1, _ => exact .inr ⟨(1, 5), by decide +kernel, by decide +kernel, by decide +kernel⟩

/-- C88 (j). All calls are atomic, also those inside others: there is an order of the effects of all operations, each between the start and
the end of its call, that the specification of an interner (`Arc.SpecRun`, `Verif/Arc/Spec.lean`) allows. -/
theorem C88_linearizable (hv : cfg.Valid) {X : State V} (h : Reach cfg X) :
    ∃ (l : List (Mark V)) (a : Arc.Abs V), events l = X.base.hist.reverse ∧ Arc.SpecRun ⟨[], fun _ => none⟩ (ops l) a ∧
      (∀ j, Proper j (part j l)) ∧ (∀ p, X.base.handles.count p ≤ a.handles.count p) ∧ (∀ p ∈ a.handles, a.val p = deref X.base p) ∧
      (Quiet X.base → a.handles.Perm (allHandles cfg X.base)) := by
  obtain ⟨⟨l, S, s, h⟩, _⟩ := good_reach hv h
  exact h.linearizable

/-- Call number 2 has been made and has returned inside the comparison of call number 1. -/
example : ((demo (calmTrace ++ runs 1 20 31)).base.hist.map fun | .call j _ => (j, 0) | .ret j _ => (j, 1) | .clone j _ => (j, 2)) =
    [(1, 1), (2, 1), (2, 0), (1, 0), (0, 1), (0, 0)] := by decide +kernel

/-- C88 (k). When `new(v)` (or an unsized constructor) ends without a panic, it returns a handle that leads to a value equal to `v`, whatever
user code has called meanwhile. -/
theorem C88_new_returns (hv : cfg.Valid) {X X' : State V} (h : Reach cfg X) {t : Tid} {c : Running V} {cs : List (Running V)} {v : V}
    {dst : Bool} {a : Addr} (ht : X.base.threads[t]? = some (c :: cs)) (hc : c.call = .new v dst)
    (hp : c.stack.any (·.panicking) = false) (e : step cfg X (.act (.run t a)) = .ok X') (hend : X'.base.threads[t]? = some cs) :
    ∃ b x, X'.base.handles = b :: X.base.handles ∧ X'.base.hist = .ret c.id (some b) :: X.base.hist ∧ deref X'.base b = some x ∧
      (x == v) = true := by
  obtain ⟨⟨l, S, s, h⟩, _⟩ := good_reach hv h
  rcases step_base e with ⟨_, _, h1, _⟩ | ⟨a', h1, e, _⟩
  · cases h1
  · cases h1
    exact h.new_returns ht hc hp e hend

/-- The last step of the call that `Eq` has made, and of the call that has called `Eq`. -/
example : depths (demo (calmTrace ++ runs 1 20 16)) = [0, 2] ∧ (demo (calmTrace ++ runs 1 20 17)).base.handles = [20, 10] ∧
    depths (demo (calmTrace ++ runs 1 20 30)) = [0, 1] ∧ (demo (calmTrace ++ runs 1 20 31)).base.handles = [10, 20, 10] := by decide +kernel

/-- C88 (l). As long as clients own a handle, it leads to the same value. -/
theorem C88_value_stable (hv : cfg.Valid) {X X' : State V} {p : Addr} (h : Reach cfg X) (hx : ExecIn cfg (fun X => p ∈ X.base.handles) X X') :
    ∃ x, deref X.base p = some x ∧ deref X'.base p = some x := by
  have key : Reach cfg X' ∧ p ∈ X'.base.handles ∧ deref X'.base p = deref X.base p := by
    induction hx with
    | refl hp => exact ⟨h, hp, rfl⟩
    | step _ e hf hp ih =>
      obtain ⟨i1, i2, i3⟩ := ih
      refine ⟨.step i1 e hf, hp, ?_⟩
      rw [← i3]
      obtain ⟨⟨l, S, s, hg⟩, _⟩ := good_reach hv i1
      rcases step_base e with ⟨_, _, _, _, _, rfl⟩ | ⟨_, _, e, _⟩
      · rfl
      · exact hg.stable hv e hf i2
  obtain ⟨_, x, _, hx, _⟩ := C88_canonical hv key.1 key.2.1 key.2.1
  exact ⟨x, key.2.2 ▸ hx, hx⟩

example : (List.range 32).all (fun n => decide (10 ∈ (demo (calmTrace ++ runs 1 20 n)).base.handles)) = true := by decide +kernel

/-- C88 (m). Every value that was given is, just once, either destroyed, or in a variable (or the drop glue) of a running function, or in a
box that the table or a running function owns; and every box has just one owner. -/
theorem C88_values_conserved (hv : cfg.Valid) {X : State V} {L : List (Nat × Move V)} (h : Ledger cfg X L) :
    (given (all L)).Perm (destroyed (all L) ++ (valuesOf (busy X.base) ++
      (X.base.mem.table ++ boxesOf (busy X.base)).filterMap (deref X.base))) ∧
    (stored (all L)).Perm (removed (all L) ++ X.base.mem.table.filterMap (deref X.base)) ∧
    (Arc.keys X.base.mem.heap).Perm (X.base.mem.table ++ (boxesOf (busy X.base) ++ husksOf (busy X.base))) ∧
    (X.base.mem.table ++ (boxesOf (busy X.base) ++ husksOf (busy X.base))).Nodup :=
  ⟨(h.acct hv).total.values (h.acct hv).held, (h.acct hv).held, (h.acct hv).own.boxes,
    (h.acct hv).own.boxes.nodup_iff.mp (h.acct hv).own.nodup⟩

/-- Of three values, two are in the table (the second one given by `Eq`), and the argument of the call that has called `Eq` is a variable. -/
example : let D := demoL (calmTrace ++ runs 1 20 17)
    Ledger demoCfg D.1 D.2 ∧ given (all D.2) = [⟨8, 1, []⟩, ⟨5, 2, []⟩, ⟨5, 1, []⟩] ∧ stored (all D.2) = [⟨8, 1, []⟩, ⟨5, 1, []⟩] ∧
      valuesOf (busy D.1.base) = [⟨5, 2, []⟩] ∧ D.1.base.mem.table = [20, 10] :=
  ⟨(demo_fine _).2, by decide +kernel, by decide +kernel, by decide +kernel, by decide +kernel⟩

/-- C88 (n). A call that has ended, also one that has ended with a panic, has destroyed or stored what it was given and what it has removed
from the table. -/
theorem C88_ended_call (hv : cfg.Valid) {X : State V} {L : List (Nat × Move V)} (h : Ledger cfg X L) {j : Nat}
    (hj : ∀ cs ∈ X.base.threads, ∀ c ∈ cs, c.id ≠ j) :
    (given (ofCall j L) ++ removed (ofCall j L)).Perm (destroyed (ofCall j L) ++ stored (ofCall j L)) := by
  have h1 := (h.acct hv).call j
  rw [ArcNest.callOwns_ended hj] at h1
  have h2 : (given (ofCall j L) ++ removed (ofCall j L)).Perm _ := h1
  simpa [ArcCode.worth, valuesOf, boxesOf] using h2

example : let D := demoL (calmTrace ++ runs 1 20 31)
    Quiet D.1.base ∧ ofCall 1 D.2 = [.destroyed ⟨5, 2, []⟩, .given ⟨5, 2, []⟩] ∧ ofCall 2 D.2 = [.stored ⟨8, 1, []⟩, .given ⟨8, 1, []⟩] :=
  ⟨ArcNest.quiet_of (by decide +kernel), by decide +kernel, by decide +kernel⟩

/-- `Eq` panics, in a comparison that holds a lock: the lock is released, and the argument destroyed. -/
example : let D := demoL ([.act .spawn, .act (.new 0 ⟨5, 1, []⟩ false)] ++ runs 0 10 3 ++ [.lock 0, .act (.panic 0)] ++ runs 0 10 6)
    Quiet D.1.base ∧ D.1.held = [] ∧ D.1.base.next = 1 ∧ ofCall 0 D.2 = [.destroyed ⟨5, 1, []⟩, .given ⟨5, 1, []⟩] :=
  ⟨ArcNest.quiet_of (by decide +kernel), by decide +kernel, by decide +kernel, by decide +kernel⟩

end Src.ArcHeld
