import Verif.Props.ArcWild
import Verif.Props.ArcUnsound
/-!
C78: `e.insert(())` (arc.rs:254, arc_dst.rs:103) looks the new key up twice more with the user's `Hash` and `Eq` (see
`Verif/Arc/Insert.lean`). The other properties are proved for `Arc.step`, where an insertion is one step that succeeds; the theorems here
justify that for lawful `Eq` and `Hash`, and show what else can happen.
-/
namespace Arc
variable {V : Type} [BEq V] [Hashable V]

section
variable [EquivBEq V] [LawfulHashable V]

/-- **C78 (lawful).** If `Eq` is an equivalence and equal values have equal hashes, then the two lookups never change what a step
does, in any reachable state. -/
theorem C78_lawful_same_step {cfg : Cfg V} (hv : cfg.Valid) {s : State V} (h : Reach cfg s) (a : Act V) :
    Ins.step cfg s a = step cfg s a := by
  refine Ins.step_eq hv (h.self hv).1 ?_
  cases a with
  | run t a => intro th _ c sh b _; exact BEq.rfl
  | _ => trivial

/-- **C78 (lawful).** So the executions are the same, and every theorem about reachable states of `ArcIntern` is one about the program
with these lookups. -/
theorem C78_lawful_same_executions {cfg : Cfg V} (hv : cfg.Valid) {s : State V} :
    Ins.Reach cfg (fun _ _ => True) s ↔ Reach cfg s := by
  constructor
  · intro h
    induction h with
    | init => exact .init
    | step _ hs _ he hS ih => exact ih.step hs ((C78_lawful_same_step hv ih _).symm.trans he) hS
  · intro h
    induction h with
    | init => exact .init
    | step h hs he hS ih => exact ih.step hs trivial ((C78_lawful_same_step hv h _).trans he) hS

/-- **C78 (lawful).** In particular nothing touches freed memory, and in particular both lookups find what they should: nothing before
and the new object after. -/
theorem C78_lawful_insertion {cfg : Cfg V} (hv : cfg.Valid) {s : State V} (h : Ins.Reach cfg (fun _ _ => True) s) :
    (∀ a : Act V, a.Sane → Ins.step cfg s a ≠ .ub) ∧
    ∀ (t : Tid) (th : Thread V) c sh b, s.threads[t]? = some th → th.pc = .newVacant c sh b →
      find s c.val = none ∧ find { s with table := b :: s.table } c.val = some b := by
  have h := (C78_lawful_same_executions hv).mp h
  refine ⟨fun a ha => ?_, fun t th c sh b ht hpc => ?_⟩
  · rw [C78_lawful_same_step hv h]
    exact C02_no_use_after_free hv h a ha
  · obtain ⟨_, _, h1, h2⟩ := Ins.lookups hv (h.self hv).1 ht hpc
    exact ⟨h1, by rw [h2]; simp⟩

/-- The hypotheses are met by a state in which a thread is about to insert and another object is registered. -/
example : ∃ s : State Val, Ins.Reach demoCfg (fun _ _ => True) s ∧ s.handles = [10] ∧ s.threads.any (fun th => match th.pc with
    | .newVacant _ _ b => decide (b = 20) | _ => false) = true :=
  ⟨demo [.spawn, .new 0 ⟨5, 1, []⟩ false, r 0, r 0 10, r 0, r 0, r 0, r 0, .new 0 ⟨6, 0, []⟩ false, r 0, r 0 20, r 0],
    (C78_lawful_same_executions demoCfg_valid).mpr (demo_reach (by decide)), by decide, by decide⟩

end

/-- **C78 (panic).** If user code panics in one of the lookups of an insertion, or in the hashing of the elements that are moved when
the table grows, then at the next step of this thread freed memory is touched. This holds in every state, however reached. A
panic before the key is in the table (`panicInsert`) leaves the freed object out of the table; a panic in the second lookup leaves
a dangling key in it. -/
theorem C78_panic {cfg : Cfg V} {s : State V} {t : Tid} {th : Thread V} (ht : s.threads[t]? = some th) {c sh b}
    (hpc : th.pc = .newVacant c sh b) :
    (∃ s', Ins.step cfg s (.panicInsert t) = .ok s' ∧ deref s' b = none ∧ s'.table = s.table ∧ ∀ a, Ins.step cfg s' (.run t a) = .ub) ∧
    ∃ s', Ins.panicReadBack s t th = .ok s' ∧ deref s' b = none ∧ s'.table = b :: s.table ∧ ∀ a, Ins.step cfg s' (.run t a) = .ub := by
  have key : ∀ s' : State V, s'.threads[t]? = some { pc := .dropSub b } → get s'.heap b = none → ∀ a, Ins.step cfg s' (.run t a) = .ub := by
    intro s' h1 h2 a
    simp only [Ins.step, h1, Ins.run, run, h2]
  have hf : get (free s.heap b) b = none := by rw [get_free, if_pos rfl]
  refine ⟨⟨({ s with heap := free s.heap b }.unlock sh).setThread t { pc := .dropSub b }, ?_, ?_, rfl, key _ ?_ hf⟩,
    ⟨Ins.dangling s t sh b, ?_, Ins.dangling_deref .., rfl, key _ (Ins.dangling_thread ht sh b) (Ins.dangling_get ..)⟩⟩
  · simp only [Ins.step, step, ht, runPanicInsert, hpc]
  · show (get (free s.heap b) b).map _ = none
    rw [hf]; rfl
  · show (s.threads.set t _)[t]? = _
    rw [set_getElem? _ _ _ _ _ ht, if_pos rfl]
  · simp only [Ins.panicReadBack, hpc]

/-- Such a state is reached by the first call of `new` already. -/
example : ∃ (s : State Val) (th : Thread Val) (c : Call Val) (sh : Nat), s = demo [.spawn, .new 0 ⟨5, 1, []⟩ false, r 0, r 0 10, r 0] ∧
    s.threads[0]? = some th ∧ th.pc = .newVacant c sh 10 := ⟨_, _, _, _, rfl, rfl, rfl⟩

end Arc
