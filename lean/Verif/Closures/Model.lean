import Verif.TypeMap.Code
import Verif.Pool.Model
/-
The closures that `Intern` (intern.rs) and `NewIntern` (typearena.rs) pass to `Arena::with` and `with_mutex_hashset`, as code
over the set of one type. Together with the models of container.rs and typearena.rs this gives the whole of both interners,
from the call to the type table.
-/
namespace Closures
open TypeMap (Code)
open Pool (Ptr Query)

variable {V : Type}

/-- `HashSet<&'static T>` (boxedset.rs:11): the elements, newest first. A leaked box is never freed or changed, so the value
behind an element is kept with it. -/
abbrev Table (V : Type) := List (Ptr × V)

/-- Memory layout of a type: is the value zero-sized, its pointer metadata, the dangling address of its boxes. -/
structure Lay (V : Type) where
  zst : V → Bool
  info : V → Nat
  dangle : V → Nat

/-- The size of a value is a function of its pointer metadata, and a zero-sized value carries no other information. -/
structure Lay.Ok (L : Lay V) : Prop where
  size : ∀ v w, L.info v = L.info w → L.zst v = L.zst w
  unique : ∀ v w, L.zst v = true → L.zst w = true → L.info v = L.info w → v = w

/-- `HashSet::get` (boxedset.rs:53-67). -/
def get [Hashable V] (m : Table V) (q : Query V) : Option Ptr :=
  (m.find? fun e => hash e.2 == q.hash && q.eq e.2).map (·.1)

/-- `HashSet::insert` (boxedset.rs:81-83): an equal element that is present stays. -/
def insert [BEq V] [Hashable V] (m : Table V) (p : Ptr) (v : V) : Table V :=
  if (get m (.ofVal v)).isSome then m else (p, v) :: m

/-- The pointer of a new box: `al` is what the allocator answers; it is given the addresses it must not return. -/
def newPtr (L : Lay V) (m : Table V) (v : V) (al : List Nat → Nat) : Ptr :=
  if L.zst v then ⟨L.dangle v, L.info v⟩
  else ⟨al ((m.filter fun e => !L.zst e.2).map fun e => e.1.addr), L.info v⟩

/-- Results. -/
inductive Ret where
  | ptr (p : Ptr)
  | bool (b : Bool)
  | num (n : Nat)
  deriving DecidableEq

/-- Calls.
* `intern q mk al`: look `q` up; if missing, build `mk`, box it at the address `al` chooses, insert it: `Intern::new`
  (intern.rs:210-219), `from_ref` (225-237), `via_box` (151-164), `From<Box<T>>` (167-178); `NewIntern::new`
  (typearena.rs:260-269), `from` (275-287), `via_box` (208-222), `From<Box<T>>` (224-235).
* `query q`: `is_interned` (intern.rs:274-279).
* `len`: `num_objects_interned` (intern.rs:249-251, typearena.rs:300-302). -/
inductive Op (V : Type) where
  | intern (q : Query V) (mk : V) (al : List Nat → Nat)
  | query (q : Query V)
  | len

/-- The closure of a call. User code that may panic runs in each step: Hash, Eq and Borrow in the lookup, From in the
building step, Hash and Eq in the insertion, Drop of the unused argument after a hit. -/
def Op.code [BEq V] [Hashable V] (L : Lay V) : Op V → Code (Table V) Ret
  | .intern q mk al => .next id fun m => match get m q with
    | some p => .next id fun _ => .ret (.ptr p)
    | none => .next id fun m => .next (fun m' => insert m' (newPtr L m mk al) mk) fun _ => .ret (.ptr (newPtr L m mk al))
  | .query q => .next id fun m => .ret (.bool (get m q).isSome)
  | .len => .next id fun m => .ret (.num m.length)

/-- Lawful user code and a correct allocator: the looked-up key has the hash of, and compares like, the value that will be
stored; queries respect the equality of values; a new box gets an address that is not in use. -/
def Op.Lawful [BEq V] [Hashable V] : Op V → Prop
  | .intern q v al => q.hash = hash v ∧ (∀ x, q.eq x = (x == v)) ∧ ∀ l, al l ∉ l
  | .query q => (∀ x, q.eq x = true → hash x = q.hash) ∧ ∀ x y, (x == y) = true → q.eq x = q.eq y
  | .len => True

end Closures
