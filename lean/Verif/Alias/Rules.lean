/-!
Rules about aliasing pointers (C69).

Rust's `Box<T>` claims to be the only pointer to its content. Which uses of other pointers to the content are allowed is not finally
settled. This file has three candidates, each as a function that accepts or rejects a sequence of pointer operations:

* `Documented`: the rule in the documentation of `std::boxed`: "Using raw pointers derived from a box after that box has been mutated
  through, moved or borrowed as `&mut T` is not allowed."
* `Stacked`: Stacked Borrows (Jung, Dang, Kang, Dreyer, POPL 2020), which Miri checks by default.
* `Tree`: Tree Borrows (Villani, Hostert, Dreyer, Jung, PLDI 2025).

Only one allocation is looked at. Its bytes are of two kinds: outside of any `UnsafeCell` (`plain`) and inside one (`cell`); bytes of
one kind are treated alike by every operation, so one of each stands for all. Zero-sized values have no bytes and are not restricted.
Function arguments get no protectors: in the modelled code no other pointer to the allocation is used while a function to which the
box is passed runs, so they would change nothing but the permission of a moved box with interior mutability, see `Tree`.
-/
namespace Alias

/-- The identity of a pointer. Pointer `0` is the one the allocator returned. -/
abbrev Tag := Nat

/-- Bytes outside and inside of an `UnsafeCell`. -/
inductive Loc where
  | plain
  | cell
  deriving DecidableEq

/-- Pointer operations.
* `move old new`: a `Box` (or `&mut`) is moved or reborrowed, `new` is its pointer from now on.
* `share old new`: `&*old`.
* `read`, `write`: accesses through a pointer.
* `free`: deallocation through a pointer. -/
inductive Op where
  | move (old new : Tag)
  | share (old new : Tag)
  | read (t : Tag) (l : Loc)
  | write (t : Tag) (l : Loc)
  | free (t : Tag)

/-- A set of rules: a state, and for each operation the next state or `none` if the operation is not allowed. -/
structure Rules where
  St : Type
  init : St
  step : St → Op → Option St

/-- Check a sequence of operations. -/
def Rules.run (R : Rules) : R.St → List Op → Option R.St
  | s, [] => some s
  | s, o :: os => (R.step s o).bind fun s' => R.run s' os

/-- All operations are allowed. -/
def Rules.Allowed (R : Rules) (ops : List Op) : Prop := (R.run R.init ops).isSome = true

instance (R : Rules) (ops : List Op) : Decidable (R.Allowed ops) := inferInstanceAs (Decidable (_ = true))

/-! ### The rule in the documentation of `Box` -/
namespace Documented

/-- A pointer, the pointers it is derived from, and whether it may still be used. -/
structure Pointer where
  tag : Tag
  path : List Tag
  live : Bool

/-- The pointer with tag `t`. -/
def find (s : List Pointer) (t : Tag) : Option Pointer := s.find? fun p => p.tag == t

/-- Use pointer `t`, then do `f`. -/
def use (s : List Pointer) (t : Tag) (f : Pointer → List Pointer) : Option (List Pointer) := match find s t with
  | none => none
  | some p => if p.live then some (f p) else none

/-- Moving a box makes all pointers derived from it unusable, and the old box, too. -/
def kill (t : Tag) (p : Pointer) : Pointer := if p.tag == t || p.path.contains t then { p with live := false } else p

def step (s : List Pointer) : Op → Option (List Pointer)
  | .move old new => use s old fun p => ⟨new, old :: p.path, true⟩ :: s.map (kill old)
  | .share old new => use s old fun p => ⟨new, old :: p.path, true⟩ :: s
  | .read t _ | .write t _ => use s t fun _ => s
  | .free t => use s t fun _ => []

end Documented

/-- The documentation of `std::boxed`, "Considerations for unsafe code". -/
def Documented : Rules := { St := List Documented.Pointer, init := [⟨0, [], true⟩], step := Documented.step }

/-! ### Stacked Borrows -/
namespace Stacked

inductive Perm where
  | unique
  | sharedRW
  | sharedRO
  | disabled
  deriving DecidableEq

structure Item where
  tag : Tag
  perm : Perm
  deriving DecidableEq

/-- Does the item allow a read (write) through pointer `t`? -/
def Item.grants (write : Bool) (t : Tag) (i : Item) : Bool := i.tag == t && match i.perm with
  | .unique | .sharedRW => true
  | .sharedRO => !write
  | .disabled => false

/-- A read disables the unique pointers above the granting item. -/
def Item.disable (i : Item) : Item := if i.perm = .unique then { i with perm := .disabled } else i

/-- A read. Stacks have their top first. -/
def readAt (t : Tag) : List Item → Option (List Item)
  | [] => none
  | i :: s => if i.grants false t then some (i :: s) else (readAt t s).map (i.disable :: ·)

/-- A write pops everything above the granting item; if that is `sharedRW`, except adjacent `sharedRW` items. `above` are the items
passed, the lowest first. -/
def writeAt (t : Tag) (above : List Item) : List Item → Option (List Item)
  | [] => none
  | i :: s =>
    if i.grants true t then
      some ((if i.perm = .sharedRW then (above.takeWhile fun j => decide (j.perm = .sharedRW)).reverse else []) ++ i :: s)
    else writeAt t (i :: above) s

/-- A new `sharedRW` item goes right above the granting item. -/
def insertRW (t new : Tag) : List Item → Option (List Item)
  | [] => none
  | i :: s => if i.grants true t then some (⟨new, .sharedRW⟩ :: i :: s) else (insertRW t new s).map (i :: ·)

/-- The stacks of a plain byte and of a byte in an `UnsafeCell`. -/
structure St where
  plain : List Item
  cell : List Item

def step (s : St) : Op → Option St
  -- reborrowing as unique counts as a write
  | .move old new => (writeAt old [] s.plain).bind fun p => (writeAt old [] s.cell).map fun c =>
      ⟨⟨new, .unique⟩ :: p, ⟨new, .unique⟩ :: c⟩
  -- reborrowing as shared counts as a read of the plain bytes
  | .share old new => (readAt old s.plain).bind fun p => (insertRW old new s.cell).map fun c => ⟨⟨new, .sharedRO⟩ :: p, c⟩
  | .read t .plain => (readAt t s.plain).map fun p => ⟨p, s.cell⟩
  | .read t .cell => (readAt t s.cell).map fun c => ⟨s.plain, c⟩
  | .write t .plain => (writeAt t [] s.plain).map fun p => ⟨p, s.cell⟩
  | .write t .cell => (writeAt t [] s.cell).map fun c => ⟨s.plain, c⟩
  | .free t => (writeAt t [] s.plain).bind fun _ => (writeAt t [] s.cell).map fun _ => ⟨[], []⟩

end Stacked

/-- Stacked Borrows. -/
def Stacked : Rules := { St := Stacked.St, init := ⟨[⟨0, .unique⟩], [⟨0, .unique⟩]⟩, step := Stacked.step }

/-! ### Tree Borrows -/
namespace Tree

/-- `reserved true` is the variant of `reserved` that foreign writes leave alone (interior mutability); `cell` is the permission of a
shared reference for bytes in an `UnsafeCell`. -/
inductive Perm where
  | reserved (im : Bool)
  | active
  | frozen
  | disabled
  | cell
  deriving DecidableEq

/-- A read (write) through the pointer or one derived from it. -/
def Perm.child (write : Bool) : Perm → Option Perm
  | .cell => some .cell
  | .disabled => none
  | .frozen => if write then none else some .frozen
  | .active => some .active
  | .reserved im => if write then some .active else some (.reserved im)

/-- A read (write) through another pointer. -/
def Perm.foreign (write : Bool) : Perm → Perm
  | .cell => .cell
  | .disabled => .disabled
  | .frozen => if write then .disabled else .frozen
  | .active => if write then .disabled else .frozen
  | .reserved im => if write && !im then .disabled else .reserved im

/-- A pointer, the pointers it is derived from, and its permission for either kind of bytes. -/
structure Node where
  tag : Tag
  path : List Tag
  perm : Loc → Perm

def find (s : List Node) (t : Tag) : Option Node := s.find? fun n => n.tag == t

/-- An access through the pointer `m` as seen by `n`. -/
def Node.see (write : Bool) (l : Loc) (m n : Node) : Option Node :=
  if n.tag == m.tag || m.path.contains n.tag then
    ((n.perm l).child write).map fun q => { n with perm := fun k => if k = l then q else n.perm k }
  else some { n with perm := fun k => if k = l then (n.perm l).foreign write else n.perm k }

/-- An access through pointer `t`. -/
def access (write : Bool) (t : Tag) (l : Loc) (s : List Node) : Option (List Node) := match find s t with
  | none => none
  | some m => s.mapM (Node.see write l m)

/-- The operations. Retagging reads the memory (a shared reference only the plain bytes). Whether a moved box whose content has
interior mutability tolerates writes through other pointers depends on how it was moved: not if it was passed to a function (`im = false`,
because protectors take precedence), yes otherwise (`im = true`). -/
def step (im : Bool) (s : List Node) : Op → Option (List Node)
  | .move old new => match find s old with
    | none => none
    | some p => (access false new .plain
        (⟨new, old :: p.path, fun | .plain => .reserved false | .cell => .reserved im⟩ :: s)).bind (access false new .cell)
  | .share old new => match find s old with
    | none => none
    | some p => access false new .plain (⟨new, old :: p.path, fun | .plain => .frozen | .cell => .cell⟩ :: s)
  | .read t l => access false t l s
  | .write t l => access true t l s
  | .free t => (access true t .plain s).bind fun s => (access true t .cell s).map fun _ => []

end Tree

/-- Tree Borrows. -/
def Tree (im : Bool) : Rules := { St := List Tree.Node, init := [⟨0, [], fun _ => .active⟩], step := Tree.step im }

end Alias
