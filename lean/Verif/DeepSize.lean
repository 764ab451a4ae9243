import Verif.Arc.Spec
import Verif.Pool.Model
/-
deepsize support: boxedset.rs:26-50, intern.rs:72-87, arena.rs:70-89, arc.rs:58-79.
Simplification: `deep_size_of_children` of a value is a function of the value; for deepsize's `Context` (which lets it count shared
`Arc`s only once) see `DeepCtx.lean`.
-/
namespace DeepSize

/-- Sizes of one type: `children v` = `deep_size_of_children`, `own v` = `size_of::<P>()` or `size_of_val(&**n)`; `ptr` = the size of
the stored pointers. -/
structure Sizes (V : Type) where
  children : V → Nat
  own : V → Nat
  ptr : Nat

/-- `HashSet::deep_size_of_children` (boxedset.rs:27-36 for `&'static P`, 41-49 for `Box<P>`), as used by `deep_size_of_interned`
(intern.rs:82-86) and `Arena` (arena.rs:70-76): capacity times the pointer size plus, for each key, its children and its own size. `none` = a key
has been freed. -/
def poolSize {K V : Type} [DecidableEq K] (S : Sizes V) (capacity : Nat) (s : Pool.State K V) (k : K) : Option Nat :=
  ((s.table k).mapM (Pool.deref s k)).map fun vs => capacity * S.ptr + (vs.map fun v => S.children v + S.own v).sum

/-- `deep_size_of_arc_interned` (arc.rs:69-79) while nothing else runs: capacity times the pointer size plus, for each key, a counter
(`size_of::<usize>()`) and `deep_size_of` the data. -/
def arcSize {V : Type} (S : Sizes V) (word capacity : Nat) (s : Arc.State V) : Option Nat :=
  (s.table.mapM (Arc.deref s)).map fun vs => capacity * S.ptr + (vs.map fun v => word + (S.children v + S.own v)).sum

/-- `DeepSizeOf for Intern<T>`, `ArcIntern<T>` (intern.rs:72-77, arc.rs:58-64): a handle owns nothing. -/
def internChildren : Nat := 0

end DeepSize
