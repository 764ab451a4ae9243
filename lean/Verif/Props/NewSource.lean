import Verif.Src.NewMain
import Verif.Src.NewDemo
/-!
C86: `NewIntern`, with the functions as they are written. Vocabulary in `Verif/Src/NewSpec.lean`, the code in `Verif/Src/NewCode.lean`, the
rules of the language in `Verif/Src/Lang.lean`.
-/
namespace Src.NewCode
open Arc (Res)
open Pool (Tid Ptr Query Ret Obj Entry)

section
variable {K V : Type} [DecidableEq K] [BEq V] [Hashable V] [EquivBEq V] [LawfulHashable V] {cfg : Cfg K V}

/-- C86 (a). No step uses memory that contains no value, a variable that has been moved from, an element of a vector that does not exist, frees
memory twice, or reaches the `unreachable!()` after the second loop. -/
theorem C86_no_ub (lay : cfg.Layout) {S : State K V} (h : Reach cfg S) (act : Act K V) : step cfg S act ≠ .ub := by
  obtain ⟨P, num, Ls, D, h1, h2⟩ := h.nsim lay
  exact no_ub lay h1 h2 act

/-- Two threads push a table for the same type; a call panics; a destructor makes a call. -/
example : Reach dcfg (demo race) ∧ Reach dcfg (demo late) ∧ Reach dcfg (demo nested) ∧ (demo race).mem.cells 7 ≠ [] :=
  ⟨demo_reach (by decide +kernel), demo_reach (by decide +kernel), demo_reach (by decide +kernel), by simp [show (demo race).mem.cells 7 = _ :: _ from rfl]⟩

/-- C86 (b). Every handle that an interning function has returned leads to a value equal to the argument, for ever; also if the mutex of the type
has been poisoned. -/
theorem C86_handle_valid (lay : cfg.Layout) {S : State K V} (h : Reach cfg S) {j : Nat} {k : K} {q : Query V} {v : V} {r : Ret}
    (hr : Returned S ⟨j, .intern k q v, r⟩) : ∃ p x, r = .ptr p ∧ deref S k p = some x ∧ (x == v) = true := by
  obtain ⟨P, num, Ls, D, h1, h2⟩ := h.nsim lay
  obtain ⟨e, g1, g2⟩ := h1.rets _ hr
  obtain ⟨j', o, r'⟩ := e
  simp only [Entry.mk.injEq] at g2
  obtain ⟨_, rfl, rfl⟩ := g2
  obtain ⟨p, x, k1, k2, k3⟩ := PoolCode.C81_handle_valid lay.memory h2 g1 (by rw [h1.gone]; simp)
  exact ⟨p, x, k1, by rw [deref, ← h1.mem.heap]; exact k2, k3⟩

/-- Thread 0 has stored its value at address 10; thread 1 has got the same handle for another, equal value. -/
theorem race_hist : (demo race).hist = [.ret ⟨1, .intern 0 (.ofVal ⟨5, 2⟩) ⟨5, 2⟩, .ptr ⟨10, 0⟩⟩, .ret ⟨0, .intern 0 (.ofVal ⟨5, 1⟩) ⟨5, 1⟩, .ptr ⟨10, 0⟩⟩,
    .call 1 (.intern 0 (.ofVal ⟨5, 2⟩) ⟨5, 2⟩), .call 0 (.intern 0 (.ofVal ⟨5, 1⟩) ⟨5, 1⟩)] := rfl

example : Returned (demo race) ⟨1, .intern 0 (.ofVal ⟨5, 2⟩) ⟨5, 2⟩, .ptr ⟨10, 0⟩⟩ ∧ deref (demo race) 0 ⟨10, 0⟩ = some ⟨5, 1⟩ := by
  refine ⟨?_, by decide +kernel⟩
  rw [Returned, race_hist]; simp

/-- C86 (c). Two handles for the same type are the same pointer iff the arguments are equal. -/
theorem C86_canonical (lay : cfg.Layout) {S : State K V} (h : Reach cfg S) {i j : Nat} {k : K} {q q' : Query V} {v w : V} {p p' : Ptr}
    (h1 : Returned S ⟨i, .intern k q v, .ptr p⟩) (h2 : Returned S ⟨j, .intern k q' w, .ptr p'⟩) : p = p' ↔ (v == w) = true := by
  obtain ⟨P, num, Ls, D, a1, a2⟩ := h.nsim lay
  obtain ⟨⟨j1, o1, r1⟩, g1, e1⟩ := a1.rets _ h1
  obtain ⟨⟨j2, o2, r2⟩, g2, e2⟩ := a1.rets _ h2
  simp only [Entry.mk.injEq] at e1 e2
  obtain ⟨_, rfl, rfl⟩ := e1
  obtain ⟨_, rfl, rfl⟩ := e2
  exact PoolCode.C81_canonical lay.memory a2 g1 g2 (by rw [a1.gone]; simp)

/-- The threads of `race` have pushed two tables for the type. -/
example : Returned (demo race) ⟨0, .intern 0 (.ofVal ⟨5, 1⟩) ⟨5, 1⟩, .ptr ⟨10, 0⟩⟩ ∧
    Returned (demo race) ⟨1, .intern 0 (.ofVal ⟨5, 2⟩) ⟨5, 2⟩, .ptr ⟨10, 0⟩⟩ ∧ ((demo race).mem.cells 7).map (·.tid) = [50, 50] := by
  refine ⟨?_, ?_, by decide +kernel⟩ <;> rw [Returned, race_hist] <;> simp

/-- C86 (d). What a handle leads to never changes, whatever happens. -/
theorem C86_handle_stable (lay : cfg.Layout) {S S' : State K V} (h : Reach cfg S) (hl : Later cfg S S') {j : Nat} {k : K} {q : Query V} {v : V}
    {p : Ptr} (hr : Returned S ⟨j, .intern k q v, .ptr p⟩) : deref S' k p = deref S k p := by
  obtain ⟨P, num, Ls, D, h1, h2⟩ := h.nsim lay
  obtain ⟨_, P', num', Ls', D', h3, h4, h5⟩ := hl.nsim lay h h1 h2
  obtain ⟨⟨j', o, r'⟩, g1, g2⟩ := h1.rets _ hr
  simp only [Entry.mk.injEq] at g2
  obtain ⟨_, rfl, rfl⟩ := g2
  have := PoolCode.C81_handle_stable lay.memory h2 h5 g1 (by rw [h1.gone]; simp) (by rw [h3.gone]; simp)
  simpa only [deref, PoolCode.deref, h1.mem.heap, h3.mem.heap] using this

/-- The mutex of the type is poisoned. -/
example : Later dcfg (demo race) (demo late) ∧ deref (demo late) 0 ⟨10, 0⟩ = some ⟨5, 1⟩ ∧
    Returned (demo race) ⟨1, .intern 0 (.ofVal ⟨5, 2⟩) ⟨5, 2⟩, .ptr ⟨10, 0⟩⟩ ∧ ((demo late).mem.cells 7).map (·.poisoned) = [true, false] := by
  refine ⟨script_later (late.drop race.length) (.refl _) rfl, by decide +kernel, ?_, by decide +kernel⟩
  rw [Returned, race_hist]; simp

/-- C86 (e). Linearizability, with calls inside calls: there is a sequential history with right answers, that contains every call that has
returned, with its result; only calls that have been made, each at most once; and a call that had returned before another was made comes first.
(Histories are newest first.) -/
theorem C86_linearizable (lay : cfg.Layout) {S : State K V} (h : Reach cfg S) : ∃ log : List (Entry K V), Pool.Sequential log ∧
    (∀ e, Returned S e → e ∈ log) ∧ (∀ e ∈ log, Called S e.tid e.op) ∧ (∀ j, log.countP (fun e => e.tid == j) ≤ 1) ∧
    (∀ j o o', Called S j o → Called S j o' → o = o') ∧
    ∀ e j, RetBefore S e j → ∀ newer e' older, log = newer ++ e' :: older → e'.tid = j → e ∈ older := by
  obtain ⟨P, num, Ls, D, h1, h2⟩ := h.nsim lay
  obtain ⟨log, l1, l2, l3, l4, l5, l6⟩ := PoolCode.C81_linearizable lay.memory h2
  have tid_lt : ∀ e ∈ log, e.tid < P.next := fun e he => (h1.calls _ _ (l3 e he)).1
  refine ⟨log.map fun e => ⟨num e.tid, e.op, e.ret⟩, l1.renumber num, ?_, ?_, ?_, h.ids.once, ?_⟩
  · intro e he
    obtain ⟨e', g1, rfl⟩ := h1.rets e he
    exact List.mem_map.mpr ⟨e', l2 _ g1, rfl⟩
  · intro e he
    obtain ⟨e', g1, rfl⟩ := List.mem_map.mp he
    exact (h1.calls _ _ (l3 e' g1)).2
  · intro j
    rw [List.countP_map]
    by_cases hj : ∃ e0 ∈ log, num e0.tid = j
    · obtain ⟨e0, he0, hj⟩ := hj
      refine Nat.le_trans (Nat.le_of_eq ?_) (l4 e0.tid)
      apply List.countP_congr
      intro e he
      simp only [Function.comp, beq_iff_eq]
      constructor
      · intro e1; exact h1.inj _ _ (tid_lt e he) (tid_lt e0 he0) (e1.trans hj.symm)
      · intro e1; rw [e1]; exact hj
    · rw [List.countP_eq_zero.mpr]
      · omega
      · intro e he e1
        exact hj ⟨e, he, by simpa using e1⟩
  · rintro e j hb newer e' older hm rfl
    obtain ⟨a, b, rfl, rfl, hb'⟩ := List.map_eq_append_iff.mp hm
    obtain ⟨x, y, rfl, rfl, rfl⟩ := List.map_eq_cons_iff.mp hb'
    obtain ⟨e0, g1, rfl⟩ := h1.order e x.tid (tid_lt x (by simp)) hb
    exact List.mem_map.mpr ⟨e0, l6 e0 x.tid g1 a x y rfl rfl, rfl⟩

/-- In `nested`, call 3 is made by a destructor that runs in call 2; call 1 had returned before. -/
example : RetBefore (demo nested) ⟨1, .intern 0 (.ofVal ⟨5, 2⟩) ⟨5, 2⟩, .ptr ⟨10, 0⟩⟩ 3 ∧ (demo nested).threads.map List.length = [2, 0] := by
  refine ⟨⟨[], .intern 1 (.ofVal ⟨6, 0⟩) ⟨6, 0⟩, (demo nested).hist.drop 1, rfl, ?_⟩, by decide +kernel⟩
  exact List.mem_cons_of_mem _ List.mem_cons_self

/-- C86 (f). A function that comes to its end without a panic gives a result to its caller. -/
theorem C86_returns (lay : cfg.Layout) {S S' : State K V} (h : Reach cfg S) {t : Tid} {a : Nat} {c : Running K V} {cs : List (Running K V)}
    (ht : S.threads[t]? = some (c :: cs)) (hs : step cfg S (.run t a) = .ok S') (he : S'.threads[t]? = some cs)
    (hp : c.frame.panicking = false) : ∃ r, S'.hist = .ret ⟨c.id, c.op, r⟩ :: S.hist :=
  h.returns lay ht hs he hp

example : ∃ S', step dcfg (demo (race.take 26)) (.run 0 10) = .ok S' ∧ S'.threads[0]? = some [] ∧
    S'.hist.head? = some (.ret ⟨0, .intern 0 (.ofVal ⟨5, 1⟩) ⟨5, 1⟩, .ptr ⟨10, 0⟩⟩) :=
  ⟨_, rfl, rfl, rfl⟩

/-- C86 (g). A thread between two calls holds no mutex, whatever way the calls ended. -/
theorem C86_locks_released (lay : cfg.Layout) {S : State K V} (h : Reach cfg S) {t : Tid} (ht : S.threads[t]? = some []) {s i : Nat} {d : Cell}
    (hd : S.mem.cell s i = some d) : d.owner ≠ some t := by
  intro ho
  obtain ⟨cs, h1, c, hc, _⟩ := h.lock_of lay hd ho
  rw [ht] at h1; cases h1; cases hc

example : (demo (poison ++ runs 0 0 5)).threads.map List.length = [0, 0] ∧ ((demo again).mem.cells 7).map (·.owner) = [some 0, none] ∧
    ((demo (poison ++ runs 0 0 5)).mem.cells 7).map (·.owner) = [none, none] := by decide +kernel

/-- C86 (h). When a mutex is poisoned: in a step that releases it, if the function that releases it is unwinding because of a panic that began
after it had taken the mutex (neither the client that called it nor a function around it was unwinding). Nothing else poisons it, and nothing
removes the flag. -/
theorem C86_poison_rule (lay : cfg.Layout) {S S' : State K V} (h : Reach cfg S) {act : Act K V} (hs : step cfg S act = .ok S') {k : K} {d : Cell}
    (hd : tableOf cfg S k = some d) : ∃ d', tableOf cfg S' k = some d' ∧ (d'.poisoned = true ↔ d.poisoned = true ∨
      (d'.owner = none ∧ ∃ t c cs, d.owner = some t ∧ S.threads[t]? = some (c :: cs) ∧ c.op.pool = k ∧ c.frame.panicking = true ∧ c.unw = false ∧
        unwinding cs = false)) := by
  rcases (h.kind lay hs).cm with e | ⟨t, c, cs, f, ht, _, _, _, hc⟩
  · exact ⟨d, (firstCell_of e).trans hd, .inl, fun g => g.elim id fun ⟨g, t, _, _, g', _⟩ => by rw [g] at g'; cases g'⟩
  · rcases hc.first lay hd with g | ⟨rfl, d', g, hb⟩
    · exact ⟨d, g, .inl, fun g => g.elim id fun ⟨g, t, _, _, g', _⟩ => by rw [g] at g'; cases g'⟩
    · refine ⟨d', g, ?_⟩
      cases hb with
      | lock h1 h2 => exact ⟨.inl, fun g => g.elim id fun ⟨g, _⟩ => by cases g⟩
      | insert h1 => exact ⟨.inl, fun g => g.elim id fun ⟨g, _⟩ => by rw [show d.owner = none from g] at h1; cases h1⟩
      | unlock h1 =>
        simp only [Bool.or_eq_true, Bool.and_eq_true, Bool.not_eq_true', Bool.or_eq_false_iff, true_and]
        refine or_congr_right ⟨fun g => ⟨t, c, cs, h1, ht, rfl, g.1, g.2.1, g.2.2⟩, ?_⟩
        rintro ⟨u, c', cs', g1, g2, _, g3, g4, g5⟩
        rw [h1] at g1; cases g1
        rw [ht] at g2; cases g2
        exact ⟨g3, g4, g5⟩

/-- The last step of `poison`. -/
example : ∃ d d' c, tableOf dcfg (demo (poison.take 58)) 0 = some d ∧ step dcfg (demo (poison.take 58)) (.run 0 0) = .ok (demo poison) ∧
    tableOf dcfg (demo poison) 0 = some d' ∧ d.poisoned = false ∧ d'.poisoned = true ∧ d.owner = some 0 ∧ d'.owner = none ∧
    (demo (poison.take 58)).threads[0]? = some [c] ∧ c.frame.panicking = true ∧ c.unw = false :=
  ⟨_, _, _, rfl, rfl, rfl, rfl, rfl, rfl, rfl, rfl, rfl, rfl⟩

/-- A call that is made by a destructor while its thread is unwinding does not poison the mutex if it panics: the set can be used afterwards. -/
theorem C86_no_poison_while_unwinding : ∃ S : State Nat Pool.Demo.Val, Reach dcfg S ∧ Called S 2 (.intern 0 (.ofVal ⟨6, 3⟩) ⟨6, 3⟩) ∧
    (∃ c, S.threads[0]? = some [c] ∧ c.id = 2 ∧ c.frame.panicking = true) ∧ (∃ d, tableOf dcfg S 0 = some d ∧ d.owner = none) ∧ ¬ Poisoned dcfg S 0 := by
  refine ⟨demo mild, demo_reach (by decide +kernel), List.mem_cons_self, ⟨_, rfl, rfl, rfl⟩, ⟨_, rfl, rfl⟩, ?_⟩
  rintro ⟨d, h1, h2⟩
  have : (tableOf dcfg (demo mild) 0).map (·.poisoned) = some false := by decide +kernel
  rw [h1] at this
  simp [h2] at this

/-- C86 (i). A table that is used for the first time is empty, free and not poisoned. -/
theorem C86_new_table (lay : cfg.Layout) {S S' : State K V} (h : Reach cfg S) {act : Act K V} (hs : step cfg S act = .ok S') {k : K} {d : Cell}
    (hn : tableOf cfg S k = none) (hd : tableOf cfg S' k = some d) : d.set = [] ∧ d.owner = none ∧ d.poisoned = false := by
  rcases (h.kind lay hs).cm with e | ⟨t, c, cs, f, ht, _, _, _, hc⟩
  · rw [show tableOf cfg S' k = tableOf cfg S k from firstCell_of e, hn] at hd; cases hd
  · rw [hc.new hn hd]
    exact ⟨rfl, rfl, rfl⟩

example : tableOf dcfg (demo (race.take 8)) 0 = none ∧ ∃ d, tableOf dcfg (demo (race.take 9)) 0 = some d := ⟨rfl, _, rfl⟩

/-- C86 (j). A type has one table: the second and later ones that racing threads have pushed are never used. They are empty and free. -/
theorem C86_one_table (lay : cfg.Layout) {S : State K V} (h : Reach cfg S) {s i j : Nat} {d e : Cell} (hi : S.mem.cell s i = some d)
    (hj : S.mem.cell s j = some e) (hlt : i < j) (ht : d.tid = e.tid) : e.set = [] ∧ e.owner = none ∧ e.poisoned = false := by
  have hC := h.cells lay
  obtain ⟨k, rfl, hk⟩ := hC.typed s j e hj
  refine (hC.spare k j e hj hk).resolve_left fun hf => ?_
  have := List.findIdx?_eq_some_iff_getElem.mp (first_cells.mp hf)
  obtain ⟨_, _, h3⟩ := this
  have h4 := h3 i hlt
  obtain ⟨hl, rfl⟩ := List.getElem?_eq_some_iff.mp hi
  exact h4 (by simp [ht, hk])

example : ((demo race).mem.cells 7).map (fun c => (c.tid, c.set.length)) = [(50, 1), (50, 0)] := by decide +kernel

/-- C86 (k). A poisoned mutex is never taken again: the set stays as it is. -/
theorem C86_poison_final (lay : cfg.Layout) {S S' : State K V} (h : Reach cfg S) (hl : Later cfg S S') {k : K} (hp : Poisoned cfg S k) :
    tableOf cfg S' k = tableOf cfg S k ∧ ∃ d, tableOf cfg S k = some d ∧ d.owner = none := by
  refine ⟨hl.frozen lay h hp, ?_⟩
  obtain ⟨d, h1, h2⟩ := hp
  obtain ⟨pos, _, hc⟩ := firstCell_first h1
  exact ⟨d, h1, (h.cells lay).free _ _ d hc h2⟩

theorem poison_poisoned : Poisoned dcfg (demo poison) 0 := ⟨_, rfl, rfl⟩

example : Reach dcfg (demo poison) ∧ Later dcfg (demo poison) (demo late) ∧ Poisoned dcfg (demo poison) 0 :=
  ⟨demo_reach (by decide +kernel), script_later (late.drop poison.length) (.refl _) rfl, poison_poisoned⟩

/-- C86 (l). A call for a type whose mutex is poisoned, made after it was poisoned, never returns: it panics. -/
theorem C86_poison_refuses (lay : cfg.Layout) {S S' : State K V} (h : Reach cfg S) (hl : Later cfg S S') {k : K} (hp : Poisoned cfg S k)
    {e : Entry K V} (he : Returned S' e) (hj : ∀ o, ¬ Called S e.tid o) : e.op.pool ≠ k := by
  refine (hl.late lay h hp).2 e he ?_
  rcases Nat.lt_or_ge e.tid S.next with g | g
  · obtain ⟨o, ho⟩ := h.called_of g
    exact absurd ho (hj o)
  · exact g

/-- Call 3 is such a call. It has come to its end. -/
example : Called (demo late) 3 (.intern 0 (.ofVal ⟨5, 4⟩) ⟨5, 4⟩) ∧ Panicked (demo late) 3 (.intern 0 (.ofVal ⟨5, 4⟩) ⟨5, 4⟩) ∧
    (demo late).threads.map List.length = [1, 0] :=
  ⟨List.mem_cons_of_mem _ List.mem_cons_self, List.mem_cons_self, by decide +kernel⟩

/-- C86 (m). A mutex is poisoned only if a call for its type has panicked. -/
theorem C86_poison_blame (lay : cfg.Layout) {S : State K V} (h : Reach cfg S) {k : K} (hp : Poisoned cfg S k) : ∃ j o, o.pool = k ∧ Called S j o ∧
    (Panicked S j o ∨ ∃ cs ∈ S.threads, ∃ c ∈ cs, c.id = j ∧ c.op = o ∧ c.frame.panicking = true) := by
  obtain ⟨j, o, h1, h2, h3⟩ := (h.cells lay).blame k hp
  refine ⟨j, o, h1, h2, h3.imp id ?_⟩
  rintro ⟨c, hc, h4⟩
  obtain ⟨cs, h5, h6⟩ := List.mem_flatten.mp hc
  exact ⟨cs, h5, c, h6, h4⟩

example : Panicked (demo (poison ++ runs 0 0 5)) 2 (.intern 0 (.ofVal ⟨6, 3⟩) ⟨6, 3⟩) ∧ Poisoned dcfg (demo (poison ++ runs 0 0 5)) 0 :=
  ⟨List.mem_cons_self, _, rfl, rfl⟩

/-- C86 (n). No value is lost or destroyed twice: the values that have been given to interning functions or built for them are those whose
destructor has started, those in boxes, and those that running functions are going to destroy or to store. Calls that were refused because of a
poisoned mutex destroy their argument. -/
theorem C86_values_conserved (lay : cfg.Layout) {S : State K V} (h : Reach cfg S) : ∃ busy : List (K × V),
    S.mem.born.Perm (S.mem.dead ++ (busy ++ S.mem.heap.map fun o => (o.pool, o.val))) ∧ (Quiet S → busy = []) :=
  h.values lay

example : (demo late).mem.born.length = 3 ∧ (demo late).mem.dead = [(0, ⟨5, 4⟩), (0, ⟨6, 3⟩)] ∧ (demo late).mem.heap.length = 1 := by decide +kernel

/-- C86 (o). When no function is running, all mutexes are free, and no memory is left behind without a value. -/
theorem C86_quiet_clean (lay : cfg.Layout) {S : State K V} (h : Reach cfg S) (hq : Quiet S) :
    (∀ s i d, S.mem.cell s i = some d → d.owner = none) ∧ S.mem.husks = [] := by
  refine ⟨fun s i d hd => ?_, ?_⟩
  · cases ho : d.owner with
    | none => rfl
    | some t =>
      obtain ⟨cs, h1, c, hc, _⟩ := h.lock_of lay hd ho
      rw [hq cs (List.mem_of_getElem? h1)] at hc; cases hc
  · obtain ⟨P, num, Ls, D, h1, h2⟩ := h.nsim lay
    rw [← h1.mem.husks]
    exact (PoolCode.C81_quiet_clean lay.memory h2 (h1.quiet hq)).2

example : Quiet (demo race) ∧ ((demo again).mem.cells 7).map (·.owner) = [some 0, none] := ⟨quiet_of (by decide +kernel), by decide +kernel⟩

/-- C86 (p). Calls that respect a hierarchy of types cannot deadlock, also if user code calls the functions again: if some function is running,
some function can take a step. -/
theorem C86_deadlock_free (lay : cfg.Layout) {S : State K V} (h : Reach cfg S) {rank : K → Nat} (hk : Ranked rank S) (hq : ¬ Quiet S) :
    ∃ t a S', step cfg S (.run t a) = .ok S' :=
  h.progress lay hk hq

/-- Two functions are on the stack of thread 0, both hold the mutex of their type. -/
example : Reach dcfg (demo nested) ∧ Ranked id (demo nested) ∧ ((demo nested).mem.cells 7).map (·.owner) = [some 0, none, some 0] := by
  refine ⟨demo_reach (by decide +kernel), ranked_of (by decide +kernel), by decide +kernel⟩

/-- The hierarchy is needed: the destructor of an argument that is found to be present runs while the mutex is held, and a destructor that interns
a value of the same type blocks for ever. -/
theorem C86_destructor_deadlock : ∃ S : State Nat Pool.Demo.Val, Reach dcfg S ∧ ¬ Quiet S ∧ ∀ t a, step dcfg S (.run t a) = .blocked := by
  refine ⟨demo stuck, demo_reach (by decide +kernel), ?_, ?_⟩
  · intro h
    have h1 : (demo stuck).threads.all (fun cs => cs.isEmpty) = false := by decide +kernel
    have h2 : (demo stuck).threads.all (fun cs => cs.isEmpty) = true := List.all_eq_true.mpr fun cs hcs => by rw [h cs hcs]; rfl
    rw [h1] at h2; cases h2
  · intro t a
    match t with
    | 0 => rfl
    | 1 => rfl
    | _ + 2 => rfl

/-- C86 (q). The functions take finitely many steps, in any schedule, with any panics. -/
theorem C86_terminates (lay : cfg.Layout) {S : State K V} (h : Reach cfg S) : ∃ N, ∀ n S', Steps cfg n S S' → n ≤ N := by
  refine ⟨stateW S, fun n S' hs => ?_⟩
  have : Reach cfg S' ∧ n + stateW S' ≤ stateW S := by
    induction hs with
    | refl => exact ⟨h, by omega⟩
    | run _ hs ih =>
      have ih := ih h
      have := ih.1.run_less lay hs
      exact ⟨.step (act := .run _ _) ih.1 trivial hs, by omega⟩
    | panic _ hs ih =>
      have ih := ih h
      have := panic_less hs
      exact ⟨.step (act := .panic _) ih.1 trivial hs, by omega⟩
  omega

example : ∃ S', Steps dcfg 2 (demo (race.take 4)) S' := ⟨_, .run (t := 0) (a := 0) (.run (t := 0) (a := 0) (.refl _) rfl) rfl⟩

/-- C86 (r). With a hierarchy of types, all running functions can be run to their ends. -/
theorem C86_completes (lay : cfg.Layout) {S : State K V} (h : Reach cfg S) {rank : K → Nat} (hk : Ranked rank S) : Must cfg Quiet S := by
  have key : ∀ n (S : State K V), Reach cfg S → Ranked rank S → stateW S ≤ n → Must cfg Quiet S := by
    intro n
    induction n with
    | zero =>
      intro S h hk hw
      by_cases hq : Quiet S
      · exact .done hq
      · obtain ⟨t, a, S', hs⟩ := h.progress lay hk hq
        have := h.run_less lay hs
        omega
    | succ n ih =>
      intro S h hk hw
      by_cases hq : Quiet S
      · exact .done hq
      · obtain ⟨t, ht⟩ := h.progress lay hk hq
        refine .step t ht fun a S' hs => ?_
        have := h.run_less lay hs
        exact ih S' (.step (act := .run t a) h trivial hs) (ranked_run hk hs) (by omega)
  exact key _ S h hk (Nat.le_refl _)

example : Must dcfg Quiet (demo nested) := C86_completes dlayout (demo_reach (by decide +kernel)) (ranked_of (rank := id) (by decide +kernel))

end
end Src.NewCode
