import Verif.Dst.Convert
import Verif.Pool.Model
/-
serde support (arc.rs:429-434, 452-465; arc_dst.rs:248-316; intern.rs:460-486; typearena.rs:475-505), at the level of serde's data
model.
-/
namespace Serde

/-- Values of serde's data model (the part that matters here; `other` stands for the remaining kinds). -/
inductive Data where
  | u8 (n : UInt8)
  | str (s : String)
  | bytes (b : List UInt8)
  | seq (l : List Data)
  | other (n : Nat) (l : List Data)

/-- How a format hands a string or byte string to a visitor: borrowed from the input, borrowed for the call only, or owned. -/
inductive Mode where
  | borrowed | transient | owned

/-- The methods of a `Visitor` used by self-describing formats; `none` = `Err`. The default of every method not implemented is
an error, except that `visit_borrowed_x` and `visit_x` (owned) forward to the transient one (serde's documentation). -/
structure Visitor (α : Type) where
  visitStr : String → Option α := fun _ => none
  visitBorrowedStr : String → Option α := visitStr
  visitString : String → Option α := visitStr
  visitBytes : List UInt8 → Option α := fun _ => none
  visitBorrowedBytes : List UInt8 → Option α := visitBytes
  visitByteBuf : List UInt8 → Option α := visitBytes
  visitSeq : List Data → Option α := fun _ => none
  visitU8 : UInt8 → Option α := fun _ => none
  visitOther : Nat → List Data → Option α := fun _ _ => none

/-- A self-describing format (JSON for example) calls the method for the kind of value it finds in its input, whatever hint
(`deserialize_str`, `deserialize_bytes`, ..) it is given. -/
def Data.visit {α : Type} (m : Mode) (v : Visitor α) : Data → Option α
  | .u8 n => v.visitU8 n
  | .str s => match m with
    | .borrowed => v.visitBorrowedStr s
    | .transient => v.visitStr s
    | .owned => v.visitString s
  | .bytes b => match m with
    | .borrowed => v.visitBorrowedBytes b
    | .transient => v.visitBytes b
    | .owned => v.visitByteBuf b
  | .seq l => v.visitSeq l
  | .other n l => v.visitOther n l

/-- `StrVisitor` (arc_dst.rs:252-276). -/
def strVisitor : Visitor (Dst.Src String) where
  visitStr v := some (.visitRef v)
  visitString v := some (.visitOwned v)

/-- `BytesVisitor` (arc_dst.rs:286-308): there is no `visit_seq`. -/
def bytesVisitor : Visitor (Dst.Src (List UInt8)) where
  visitBytes v := some (.visitRef v)
  visitByteBuf v := some (.visitOwned v)

/-- `Serialize for str` (serde). -/
def serStr (s : String) : Data := .str s
/-- `Serialize for [u8]` (serde: `[T]` is serialised as a sequence of its elements). -/
def serBytes (b : List UInt8) : Data := .seq (b.map .u8)

/-- `Serialize` and `Deserialize` of a value type; `de` gives `none` for `Err`. -/
structure Impl (V : Type) where
  ser : V → Data
  de : Data → Option V

/-- `Serialize for ArcIntern<T>`, `Intern<T>` (arc.rs:429-434, intern.rs:460-465): that of the value; `none` = freed memory. -/
def serialize {P V : Type} (ser : V → Data) (d : P → Option V) (p : P) : Option Data := (d p).map ser

/-- `Deserialize for ArcIntern<T>` (arc.rs:452-465): `T::deserialize(..).map(|x| Self::new(x))`, the call it makes if there is no error. -/
def deArc {V : Type} (I : Impl V) (t : Arc.Tid) (x : Data) : Option (Arc.Act V) := (I.de x).map fun v => .new t v false

/-- `Deserialize for ArcIntern<str>` (arc_dst.rs:279-283). -/
def deArcStr (m : Mode) (t : Arc.Tid) (x : Data) : Option (Arc.Act String) := (x.visit m strVisitor).map fun src => src.call "" t

/-- `Deserialize for ArcIntern<[u8]>` (arc_dst.rs:312-316). -/
def deArcBytes (m : Mode) (t : Arc.Tid) (x : Data) : Option (Arc.Act (List UInt8)) :=
  (x.visit m bytesVisitor).map fun src => src.call [] t

/-- `Deserialize for Intern<T>` (intern.rs:480-486). -/
def deIntern {K V : Type} [BEq V] [Hashable V] (I : Impl V) (k : K) (x : Data) : Option (Pool.Op K V) :=
  (I.de x).map fun v => .intern k (.ofVal v) v

/-- Specification: the value type round-trips. -/
def Impl.RoundTrips {V : Type} [BEq V] (I : Impl V) : Prop := ∀ x, ∃ y, I.de (I.ser x) = some y ∧ (y == x) = true

end Serde
