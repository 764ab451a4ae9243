import Verif.Arc.Spec
/-
Conversions into `ArcIntern<str>`, `ArcIntern<[T]>` and `ArcIntern<T>`, and comparisons with strings and slices
(arc_dst.rs:120-246, arc.rs:193-200, 436-465). `C` is the type of contents: strings, or lists of elements.
-/
namespace Dst
open Arc

/-- Where the content comes from. `f[..]` of every one of the owning types is its content. -/
inductive Src (C : Type) where
  /-- `&str`, `&[T]`. -/
  | ref (c : C)
  /-- `String`, `Vec<T>`. -/
  | owned (c : C)
  | boxed (c : C)
  | arc (c : C)
  | rc (c : C)
  | cowBorrowed (c : C)
  | cowOwned (c : C)
  | default
  /-- serde hands a borrowed or an owned string (byte buffer) to the visitor. -/
  | visitRef (c : C)
  | visitOwned (c : C)

variable {C : Type}

/-- `From<&str>` (arc_dst.rs:120-124), `From<&[T]>` (156-165): `new_with_copyable_init_val` with the content. -/
def fromRef (t : Tid) (c : C) : Act C := .new t c true

/-- `impl_from!` (arc_dst.rs:126-135; 136-139 and 166-169): `Self::from(&f[..])`. -/
def fromOwned (t : Tid) (c : C) : Act C := fromRef t c

/-- The call each conversion makes. `empty`: the content of `""` or `&[]`. -/
def Src.call (empty : C) (t : Tid) : Src C → Act C
  | .ref c => fromRef t c
  | .owned c | .boxed c | .arc c | .rc c => fromOwned t c
  -- arc_dst.rs:146-151
  | .cowBorrowed c => fromRef t c
  | .cowOwned c => fromOwned t c
  -- arc_dst.rs:171-183
  | .default => fromRef t empty
  -- StrVisitor / BytesVisitor (arc_dst.rs:262-275, 293-307)
  | .visitRef c => fromRef t c
  | .visitOwned c => fromOwned t c

/-- Specification: the content of a source. -/
def Src.content (empty : C) : Src C → C
  | .ref c | .owned c | .boxed c | .arc c | .rc c | .cowBorrowed c | .cowOwned c | .visitRef c | .visitOwned c => c
  | .default => empty

/-- `impl_eq!` (arc_dst.rs:186-214), `handle == other`: `PartialEq::eq(&self[..], &other[..])`; `none` = freed memory. -/
def eqOther [BEq C] (s : State C) (p : Addr) (c : C) : Option Bool := (deref s p).map fun x => x == c
/-- `handle != other`: `PartialEq::ne` of the contents. -/
def neOther [BEq C] (s : State C) (p : Addr) (c : C) : Option Bool := (deref s p).map fun x => x != c
/-- `other == handle`. -/
def otherEq [BEq C] (s : State C) (c : C) (p : Addr) : Option Bool := (deref s p).map fun x => c == x
/-- `other != handle`. -/
def otherNe [BEq C] (s : State C) (c : C) (p : Addr) : Option Bool := (deref s p).map fun x => c != x

end Dst
