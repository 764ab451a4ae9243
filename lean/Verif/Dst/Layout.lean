/-
`RefCount<[T]>::from_slice` (arc_dst.rs:25-52): the layout computation and the initialisation of the new object.
All machine arithmetic is modulo the word size, so that an overflow would show.
-/
namespace Dst

/-- The target: `usize` has `wd` bytes, a power of two (so does `AtomicUsize`, which is aligned to its size). -/
structure Target where
  wd : Nat
  j : Nat
  pow : wd = 2 ^ j

/-- `usize::MAX + 1`. -/
def Target.M (T : Target) : Nat := 2 ^ (8 * T.wd)
/-- `isize::MAX + 1`. -/
def Target.H (T : Target) : Nat := 2 ^ (8 * T.wd - 1)

/-- Machine addition and multiplication. -/
def Target.add (T : Target) (x y : Nat) : Nat := (x + y) % T.M
def Target.mul (T : Target) (x y : Nat) : Nat := (x * y) % T.M

/-- Size and alignment: `core::alloc::Layout`. -/
structure Layout where
  size : Nat
  align : Nat
  deriving DecidableEq, Repr

/-- `Layout::max_size_for_align`: `isize::MAX as usize + 1 - align`. -/
def Target.maxSize (T : Target) (align : Nat) : Nat := T.H - align

/-- `Layout::size_rounded_up_to_custom_align`: `(size + (align - 1)) & !(align - 1)`. Simplification: the mask of a power
of two is written as division and multiplication. -/
def Target.roundUp (T : Target) (size align : Nat) : Nat := T.add size (align - 1) / align * align

/-- `Layout::array::<T>(n)` (used in arc_dst.rs:28) for elements of layout `e`; `none` = `Err(LayoutError)`. -/
def Target.array (T : Target) (e : Layout) (n : Nat) : Option Layout :=
  if e.size ≠ 0 ∧ T.maxSize e.align / e.size < n then none else some ⟨T.mul n e.size, e.align⟩

/-- `Layout::extend` (used in arc_dst.rs:27-29): the combined layout and the offset of `next`. -/
def Target.extend (T : Target) (self next : Layout) : Option (Layout × Nat) :=
  let align := max self.align next.align
  let offset := T.roundUp self.size next.align
  let size := T.add offset next.size
  if T.maxSize align < size then none else some (⟨size, align⟩, offset)

/-- `Layout::pad_to_align` (arc_dst.rs:31). -/
def Target.padToAlign (T : Target) (l : Layout) : Layout := ⟨T.roundUp l.size l.align, l.align⟩

/-- `Layout::new::<RefCount<()>>()` (arc_dst.rs:27): one `AtomicUsize`. -/
def Target.header (T : Target) : Layout := ⟨T.wd, T.wd⟩

/-- arc_dst.rs:27-31: the layout `from_slice` allocates for `n` elements; `none` = an `unwrap` panics. -/
def Target.fromSliceLayout (T : Target) (e : Layout) (n : Nat) : Option Layout :=
  match T.array e n with
  | none => none
  | some arr => match T.extend T.header arr with
    | none => none
    | some (l, _) => some (T.padToAlign l)

/-! ### Specification: the layout rustc gives `RefCount<[T]>` (arc.rs:84-88) -/

/-- Smallest multiple of `a` that is at least `x`. -/
def IsRoundUp (x a r : Nat) : Prop := a ∣ r ∧ x ≤ r ∧ r < x + a

/-- `rustc`'s layout of `RefCount<[T]>` with `n` elements of layout `e`: the counter at offset 0, the elements (the unsized tail
is always last) at the first aligned offset `off` after it, the total rounded up to the alignment. The `Box` is freed with
`total` and the alignment `max`. In unbounded arithmetic. -/
structure BoxLayout (T : Target) (e : Layout) (n off total : Nat) : Prop where
  start : IsRoundUp T.wd e.align off
  size : IsRoundUp (off + n * e.size) (max T.wd e.align) total

/-- What the Rust compiler guarantees about the layout of an element type. -/
structure Layout.Valid (T : Target) (e : Layout) : Prop where
  pow : ∃ k, e.align = 2 ^ k
  dvd : e.align ∣ e.size
  small : e.size + e.align ≤ T.H

/-! ### The bytes -/

/-- Memory. -/
abbrev Mem := Nat → UInt8

/-- Outcome: a panic, an access outside of the allocation, or the new memory and the address of the object. -/
inductive Out where
  | panic
  | ub
  | ok (m : Mem) (base : Nat)

/-- Writing the bytes `l` at address `a`. -/
def Mem.write (m : Mem) (a : Nat) (l : List UInt8) : Mem :=
  fun x => if a ≤ x ∧ x < a + l.length then l.getD (x - a) 0 else m x

/-- Reading `n` bytes at address `a`. -/
def Mem.read (m : Mem) (a n : Nat) : List UInt8 := (List.range n).map fun i => m (a + i)

/-- The `n` bytes of a number, least significant first (little-endian targets). -/
def bytesOf : Nat → Nat → List UInt8
  | 0, _ => []
  | n + 1, x => .ofNat (x % 256) :: bytesOf n (x / 256)

def ofBytes : List UInt8 → Nat
  | [] => 0
  | b :: l => b.toNat + 256 * ofBytes l

/-- `from_slice` (arc_dst.rs:25-52) of `n` elements of layout `e` at address `src`. `alloc` is the allocator (line 33): an address
for a layout, or 0 (null) if it fails. Every access is checked against the block `[base, base + size)`; line 43: the counter, line
48-49: the elements at rustc's offset of `data`. The result of the allocator is used without a check for null. -/
def Target.fromSlice (T : Target) (e : Layout) (alloc : Layout → Nat) (m : Mem) (src n : Nat) : Out :=
  match T.fromSliceLayout e n with
  | none => .panic
  | some l =>
    let base := alloc l
    let block := if base = 0 then (0, 0) else (base, base + l.size)
    let off := T.roundUp T.wd e.align
    if ¬ (block.1 ≤ base ∧ base + T.wd ≤ block.2) then .ub
    else
      let m1 := m.write base (bytesOf T.wd 1)
      if ¬ (block.1 ≤ base + off ∧ base + off + n * e.size ≤ block.2) then .ub
      else .ok (m1.write (base + off) (m1.read src (n * e.size))) base

end Dst
