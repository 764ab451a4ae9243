import Verif.Alias.Fresh
import Verif.Alias.Rejected
/-!
C69: whether the handles respect the rule that a `Box` is the only pointer to its content.

`Alias/Rules.lean` has the candidate rules, `Alias/Model.lean` the pointer operations of the interners. `Hist P ops c` says that some sequence
of calls leads to the pointer operations `ops`, `R.Allowed ops` that the rules `R` accept them.
-/
namespace Alias

/-- Whatever a client does with `Intern` or `NewIntern`, even if it changes what is inside an `UnsafeCell` of an interned value, all three
sets of rules (both variants of Tree Borrows) accept it. -/
theorem C69_intern {ops : List Op} {c : Ctl} (h : Hist internProg ops c) :
    Documented.Allowed ops ∧ Stacked.Allowed ops ∧ ∀ im, (Tree im).Allowed ops :=
  ⟨Documented.sharing.intern h, Stacked.sharing.intern h, fun im => (Tree.sharing im).intern h⟩

/-- A history of `Intern`: calls that store and find the value, copies, reads and writes, a table that grows. -/
example : ∃ ops, exec internProg .start [.intern, .intern, .set 5, .grow, .copy 5, .set 7, .deref 5, .look, .intern] = some ops ∧ ops ≠ [] :=
  ⟨_, rfl, by decide⟩

/-- `Arena` is accepted by Tree Borrows as long as nobody writes through a handle; in particular if the type has no interior
mutability. -/
theorem C69_arena_tree {ops : List Op} {c : Ctl} (h : Hist (arenaProg.only fun _ a => match a with | .set _ => false | _ => true) ops c)
    (im : Bool) : (Tree im).Allowed ops := Tree.arena h

/-- An arena with hits, a table that grows, and its end. -/
example : ∃ ops, exec (arenaProg.only fun _ a => match a with | .set _ => false | _ => true) .start
    [.intern, .intern, .grow, .copy 4, .deref 7, .look, .intern, .dropArena] = some ops ∧ ops ≠ [] :=
  ⟨_, rfl, by decide⟩

/-- But the documentation of `Box` and Stacked Borrows reject `Arena` as soon as anything has been interned: the handle is made from a
pointer into the box that was taken before the box was moved into the table. -/
theorem C69_arena_rejected {ops : List Op} {c : Ctl} (h : Hist arenaProg ops c) (hne : ops ≠ []) :
    ¬ Documented.Allowed ops ∧ ¬ Stacked.Allowed ops := by
  constructor
  · intro hal
    rcases arenaNone (R := Documented) rfl h with ⟨rfl, _⟩ | e
    · exact hne rfl
    · unfold Rules.Allowed at hal; rw [e] at hal; cases hal
  · intro hal
    rcases arenaNone (R := Stacked) rfl h with ⟨rfl, _⟩ | e
    · exact hne rfl
    · unfold Rules.Allowed at hal; rw [e] at hal; cases hal

example : ∃ ops c, Hist arenaProg ops c ∧ ops ≠ [] := ⟨_, _, Hist.start.act (a := .intern) rfl, by decide⟩

/-- With interior mutability either variant of Tree Borrows rejects some history of `Arena`: all it does is accepted until the arena is
dropped. -/
theorem C69_arena_set_rejected (im : Bool) : ∃ ops new c c', Hist arenaProg ops c ∧ arenaProg c .dropArena = some (new, c') ∧
    (Tree im).Allowed ops ∧ ¬ (Tree im).Allowed (ops ++ new) := by
  cases im with
  | false =>
    exact ⟨_, _, _, _, ((Hist.start.act (a := .intern) rfl).act (a := .intern) rfl).act (a := .set 4) rfl, rfl, by decide, by decide⟩
  | true =>
    exact ⟨_, _, _, _, ((((Hist.start.act (a := .intern) rfl).act (a := .intern) rfl).act (a := .set 4) rfl).act (a := .set 7) rfl).act
      (a := .set 4) rfl, rfl, by decide, by decide⟩

/-- The documentation of `Box` and Stacked Borrows reject every use (clone, read, `refcount`, drop) of the handle of the call that stored
the value, in any history: it is made before the box is moved into the table. -/
theorem C69_arc_rejected {ops new : List Op} {c c' : Ctl} {a : Act} (h : Hist arcProg ops c) (ha : arcProg c a = some (new, c'))
    (hu : a = .copy firstHandle ∨ a = .deref firstHandle ∨ a = .refcount firstHandle ∨ a = .drop firstHandle) :
    ¬ Documented.Allowed (ops ++ new) ∧ ¬ Stacked.Allowed (ops ++ new) :=
  ⟨Documented.dead.arc h ha hu, Stacked.dead.arc h ha hu⟩

/-- The handle that the storing call returns is `firstHandle`, and it can be used. -/
example : ∃ ops c, Hist arcProg ops c ∧ c.handles = [firstHandle] ∧ (∃ new c', arcProg c (.drop firstHandle) = some (new, c')) ∧
    Documented.Allowed ops ∧ Stacked.Allowed ops :=
  ⟨_, _, Hist.start.act (a := .intern) rfl, rfl, ⟨_, _, rfl⟩, by decide, by decide⟩

/-- Tree Borrows, if the box is passed to a function when it is moved into the table: no history is accepted in which the last handle has
been dropped, because decrementing the count through the first handle invalidates the box in the table. -/
theorem C69_arc_drop_rejected {ops : List Op} {c : Ctl} (h : Hist arcProg ops c) (hg : c.gone = true) : ¬ (Tree false).Allowed ops :=
  Tree.arcDoomed h hg

example : ∃ ops c, Hist arcProg ops c ∧ c.gone = true :=
  ⟨_, _, (Hist.start.act (a := .intern) rfl).act (a := .drop 3) rfl, rfl⟩

/-- The lenient variant of Tree Borrows accepts `ArcIntern` as long as the value is not found by a second call. -/
theorem C69_arc_once {ops : List Op} {c : Ctl} (h : Hist (arcProg.only fun c a => match a with | .intern => c.table.isNone | _ => true) ops c) :
    (Tree true).Allowed ops := Tree.arcOnce h

/-- Store, clone, read, drop all. -/
example : ∃ ops, exec (arcProg.only fun c a => match a with | .intern => c.table.isNone | _ => true) .start
    [.intern, .copy 3, .deref 3, .refcount 3, .look, .grow, .drop 3, .drop 3] = some ops ∧ ops ≠ [] :=
  ⟨_, rfl, by decide⟩

/-- It rejects one in which two calls intern the value and both handles are dropped: the second drop. -/
theorem C69_arc_hit_rejected : ∃ ops new c c', Hist arcProg ops c ∧ arcProg c (.drop 6) = some (new, c') ∧
    (Tree true).Allowed ops ∧ ¬ (Tree true).Allowed (ops ++ new) :=
  ⟨_, _, _, _, ((Hist.start.act (a := .intern) rfl).act (a := .intern) rfl).act (a := .drop 3) rfl, rfl, by decide, by decide⟩

/-- In all histories of the three programs pointers are told apart: each pointer made gets a new tag, every operation uses the
allocator's pointer or one made before it, and the table and the handles contain such pointers. So no operation is rejected because it
uses an unknown pointer. -/
theorem C69_pointers_known {ops : List Op} {c : Ctl} (h : Hist internProg ops c ∨ Hist arenaProg ops c ∨ Hist arcProg ops c) :
    (0 :: ops.flatMap Op.made).Pairwise (· ≠ ·) ∧
    (∀ before o after, ops = before ++ o :: after → o.used ∈ 0 :: before.flatMap Op.made) ∧
    (∀ t, c.table = some t → t ∈ 0 :: ops.flatMap Op.made) ∧ ∀ p ∈ c.handles, p ∈ 0 :: ops.flatMap Op.made := by
  have s : Sound ops c := h.elim (Sound.hist internProg_step) fun h => h.elim (Sound.hist arenaProg_step) (Sound.hist arcProg_step)
  obtain ⟨n1, n2⟩ := s.tidy.nodup
  refine ⟨.cons (fun t ht e => ?_) n1, fun before o after e => ?_, s.table, s.handles⟩
  · have := (n2 t ht).1
    rw [← e] at this
    exact absurd this (by decide)
  · rcases s.tidy.used before o after e with h | h
    · rw [List.mem_singleton.mp h]; exact List.mem_cons_self
    · exact List.mem_cons_of_mem _ h

example : ∃ ops c, Hist arcProg ops c ∧ c.handles = [6, 3] ∧ ops.flatMap Op.made = [1, 2, 3, 4, 5, 6] :=
  ⟨_, _, (Hist.start.act (a := .intern) rfl).act (a := .intern) rfl, rfl, rfl⟩

/-! What the rules say about a box (pointer 1, from the allocator's pointer 0), a reference made from it, and a move. -/

/-- The rule in the documentation: pointers made from a box may be used until the box is moved, then only the new box and what is made
from it; also if it is moved again. -/
example : Documented.Allowed [.move 0 1, .share 1 2, .read 2 .plain, .write 2 .cell, .read 1 .plain, .move 1 3, .share 3 4, .read 4 .plain, .read 3 .plain,
      .free 3] ∧
    ¬ Documented.Allowed [.move 0 1, .share 1 2, .move 1 3, .read 2 .plain] ∧ ¬ Documented.Allowed [.move 0 1, .move 1 2, .read 1 .plain] ∧
    ¬ Documented.Allowed [.move 0 1, .share 1 2, .share 2 3, .move 1 4, .read 3 .plain] ∧
    ¬ Documented.Allowed [.move 0 1, .move 1 2, .share 2 3, .move 2 4, .read 3 .plain] ∧
    ¬ Documented.Allowed [.move 0 1, .free 1, .read 1 .plain] ∧
    -- moving the outer box ends the inner one
    ¬ Documented.Allowed [.move 0 1, .move 0 2, .read 1 .plain] := by decide

/-- Stacked Borrows: a shared reference may be used until the box is written or moved; it must not be written outside of an
`UnsafeCell`; a read through the older pointer disables the newer box, which then cannot be read. -/
example : Stacked.Allowed [.move 0 1, .share 1 2, .read 2 .plain, .read 1 .plain, .read 2 .plain, .write 2 .cell, .write 1 .plain] ∧
    ¬ Stacked.Allowed [.move 0 1, .share 1 2, .write 2 .plain] ∧ ¬ Stacked.Allowed [.move 0 1, .share 1 2, .write 1 .plain, .read 2 .plain] ∧
    ¬ Stacked.Allowed [.move 0 1, .share 1 2, .move 1 3, .read 2 .plain] ∧ ¬ Stacked.Allowed [.move 0 1, .read 0 .plain, .read 1 .plain] ∧
    ¬ Stacked.Allowed [.move 0 1, .read 0 .cell, .write 1 .cell] := by decide

end Alias
