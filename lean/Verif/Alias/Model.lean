import Verif.Alias.Rules
/-!
The pointer operations of the four interners on the memory of one interned value (C69).

A history is any sequence of the client's actions that concern one value: interning it (again), other calls that read it as an element
of the table, copying handles, dereferencing them, changing what is inside an `UnsafeCell` of the value. What calls do to the table is
under a lock, the other actions consist of one access, so histories cover concurrent executions.
-/
namespace Alias

/-- The pointers a program has: the next unused tag, the pointer in the table, the pointers in handles, and whether the value
has been freed. -/
structure Ctl where
  next : Tag
  table : Option Tag
  handles : List Tag
  gone : Bool

/-- Before the value is interned: its box has just been allocated. -/
def Ctl.start : Ctl := { next := 1, table := none, handles := [], gone := false }

/-- Actions of a client. -/
inductive Act where
  /-- intern a value equal to the one looked at. -/
  | intern
  /-- a call compares the stored value with a key, or hashes it to grow the table. -/
  | look
  /-- the table grows: its elements move. -/
  | grow
  /-- copy (`Intern`, `ArenaIntern`) or clone (`ArcIntern`) a handle. -/
  | copy (h : Tag)
  /-- read the value behind a handle. -/
  | deref (h : Tag)
  /-- change what is inside an `UnsafeCell` in the value behind a handle (only if the type has interior mutability). -/
  | set (h : Tag)
  /-- `ArcIntern::refcount`. -/
  | refcount (h : Tag)
  /-- drop a handle (`ArcIntern`). -/
  | drop (h : Tag)
  /-- drop the arena. -/
  | dropArena

/-- A program: the operations of an action and the pointers afterwards; `none` if the action is not possible. -/
abbrev Prog := Ctl → Act → Option (List Op × Ctl)

/-- The operations of a history. -/
inductive Hist (P : Prog) : List Op → Ctl → Prop
  | start : Hist P [] .start
  | act {ops c a new c'} : Hist P ops c → P c a = some (new, c') → Hist P (ops ++ new) c'

/-- A history, computed. -/
def exec (P : Prog) : Ctl → List Act → Option (List Op)
  | _, [] => some []
  | c, a :: as => match P c a with
    | none => none
    | some (ops, c') => (exec P c' as).map (ops ++ ·)

/-- Reading the value through a reference made from pointer `t`. -/
def peek (c : Ctl) (t : Tag) (h : Bool) : Option (List Op × Ctl) :=
  if h then some ([.share t c.next, .read c.next .plain], { c with next := c.next + 1 }) else none

/-- `Intern` (intern.rs:210-219, likewise 151-164, 167-178, 225-237) and `NewIntern` (typearena.rs:208-235, 260-287). A new value:
`Box::leak(Box::new(val))` gives `&'static mut T`, made `&'static T`; copies of it go to the table and into the handle. A hit copies the
reference in the table. A handle is a reference (intern.rs:55-57, typearena.rs:145), dereferenced by copying it (intern.rs:359-364, 387-392).
The references in the table are copied when it grows, the value does not move. -/
def internProg : Prog := fun c a => match a with
  | .intern => match c.table with
    | none =>
      let b := c.next
      some ([.move 0 b, .move b (b + 1), .share (b + 1) (b + 2), .share (b + 2) (b + 3), .share (b + 2) (b + 4)],
        { c with next := b + 5, table := some (b + 3), handles := [b + 4] })
    | some t =>
      let r := c.next
      some ([.share t r, .read r .plain, .share t (r + 1)], { c with next := r + 2, handles := (r + 1) :: c.handles })
  | .look => match c.table with
    | none => none
    | some t => peek c t true
  | .grow => match c.table with
    | none => none
    | some t => some ([.share t c.next], { c with next := c.next + 1, table := some c.next })
  | .copy h => if h ∈ c.handles then some ([.share h c.next], { c with next := c.next + 1, handles := c.next :: c.handles }) else none
  | .deref h => peek c h (decide (h ∈ c.handles))
  | .set h => if h ∈ c.handles then some ([.share h c.next, .write c.next .cell], { c with next := c.next + 1 }) else none
  | _ => none

/-- `Arena` (arena.rs:118-132, likewise 136-155, 156-174, 406-424). A new value: `Box::new(val)`; `b.as_ref() as *const T`; `m.insert(b)`
moves the box; `&*p`. A hit: `b.as_ref() as *const T` from the box in the table, `&*p`. A handle is a reference (arena.rs:80-82). When the
table grows its boxes move. Dropping the arena frees through the box in the table; handles cannot outlive it. -/
def arenaProg : Prog := fun c a => if c.gone then none else match a with
  | .intern => match c.table with
    | none =>
      let b := c.next
      some ([.move 0 b, .share b (b + 1), .move b (b + 2), .share (b + 1) (b + 3)],
        { c with next := b + 4, table := some (b + 2), handles := [b + 3] })
    | some t =>
      let r := c.next
      some ([.share t r, .read r .plain, .share t (r + 1), .share (r + 1) (r + 2)],
        { c with next := r + 3, handles := (r + 2) :: c.handles })
  | .look => match c.table with
    | none => none
    | some t => peek c t true
  | .grow => match c.table with
    | none => none
    | some t => some ([.move t c.next], { c with next := c.next + 1, table := some c.next })
  | .copy h => if h ∈ c.handles then some ([.share h c.next], { c with next := c.next + 1, handles := c.next :: c.handles }) else none
  | .deref h => peek c h (decide (h ∈ c.handles))
  | .set h => if h ∈ c.handles then some ([.share h c.next, .write c.next .cell], { c with next := c.next + 1 }) else none
  | .dropArena => match c.table with
    | none => none
    | some t => some ([.free t], { c with table := none, handles := [], gone := true })
  | _ => none

/-- `ArcIntern` (arc.rs:224-271, likewise arc_dst.rs:68-119). The count is in an `UnsafeCell` (`AtomicUsize`), the data are plain bytes.
A new value: `Box::new(RefCount { .. })`; the box is passed to `m.entry` (arc.rs:248); the handle is made from `e.key().0.borrow()` (252); then
`e.insert(())` moves the box into the table (254). A hit: `fetch_add` through a reference to the box in the table (231), a handle from the same
reference (235). A clone increments the count and copies the pointer (272-284). Dropping decrements (299); for the last handle it finds the
element of the table by comparing values (322), moves it out and frees it. -/
def arcProg : Prog := fun c a => if c.gone then none else match a with
  | .intern => match c.table with
    | none =>
      let b := c.next
      some ([.move 0 b, .move b (b + 1), .share (b + 1) (b + 2), .move (b + 1) (b + 3)],
        { c with next := b + 4, table := some (b + 3), handles := [b + 2] })
    | some t =>
      let r := c.next
      some ([.share t r, .read r .plain, .write r .cell, .share r (r + 1)], { c with next := r + 2, handles := (r + 1) :: c.handles })
  | .look => match c.table with
    | none => none
    | some t => peek c t true
  | .grow => match c.table with
    | none => none
    | some t => some ([.move t c.next], { c with next := c.next + 1, table := some c.next })
  | .copy h => if h ∈ c.handles then
      some ([.share h c.next, .write c.next .cell], { c with next := c.next + 1, handles := h :: c.handles }) else none
  | .deref h => peek c h (decide (h ∈ c.handles))
  | .refcount h => if h ∈ c.handles then some ([.share h c.next, .read c.next .cell], { c with next := c.next + 1 }) else none
  | .drop h => if h ∈ c.handles then
      match c.handles.erase h, c.table with
      | [], some t =>
        let r := c.next
        some ([.share h r, .write r .cell, .share t (r + 1), .read (r + 1) .plain, .move t (r + 2), .free (r + 2)],
          { next := r + 3, table := none, handles := [], gone := true })
      | l, _ => some ([.share h c.next, .write c.next .cell], { c with next := c.next + 1, handles := l })
    else none
  | _ => none

/-- The histories of a program in which the client does only what `ok` says. -/
def Prog.only (P : Prog) (ok : Ctl → Act → Bool) : Prog := fun c a => if ok c a then P c a else none

/-- The handle of the call that stored the value, see `arcProg`. -/
def firstHandle : Tag := 3

end Alias
