/-
`PartialEq`, `Hash`, `PartialOrd`, `Ord` of handles (arc.rs:376-427, intern.rs:409-456, typearena.rs:424-470,
arena.rs:512-530). Generic in the type `P` of pointers; `d` dereferences a handle (`none` = freed memory).
-/
namespace Traits
variable {P V : Type}

/-- `eq` (arc.rs:390-395, intern.rs:421-426, arena.rs:524-529): `core::ptr::eq(self.get_pointer(), other.get_pointer())`. -/
def eq [DecidableEq P] (p q : P) : Bool := decide (p = q)

/-- `hash` (arc.rs:383-388, intern.rs:414-419, arena.rs:517-522): `self.get_pointer().hash(state)`; `ph` is the hash of pointers. -/
def hash (ph : P → UInt64) (p : P) : UInt64 := ph p

/-- Methods of the value type: any implementations. -/
structure Methods (V : Type) where
  partialCmp : V → V → Option Ordering
  lt : V → V → Bool
  le : V → V → Bool
  gt : V → V → Bool
  ge : V → V → Bool
  cmp : V → V → Ordering

/-- Apply a binary method to the values of two handles: `self.as_ref().m(other)`. -/
def both {α : Type} (d : P → Option V) (m : V → V → α) (p q : P) : Option α :=
  match d p, d q with
  | some x, some y => some (m x y)
  | _, _ => none

/-- `partial_cmp` (arc.rs:398-402, intern.rs:430-433). -/
def partialCmp (d : P → Option V) (M : Methods V) (p q : P) : Option (Option Ordering) := both d M.partialCmp p q
/-- `lt` (arc.rs:403-406, intern.rs:434-437). -/
def lt (d : P → Option V) (M : Methods V) (p q : P) : Option Bool := both d M.lt p q
/-- `le` (arc.rs:407-410, intern.rs:438-441). -/
def le (d : P → Option V) (M : Methods V) (p q : P) : Option Bool := both d M.le p q
/-- `gt` (arc.rs:411-414, intern.rs:442-445). -/
def gt (d : P → Option V) (M : Methods V) (p q : P) : Option Bool := both d M.gt p q
/-- `ge` (arc.rs:415-418, intern.rs:446-449). -/
def ge (d : P → Option V) (M : Methods V) (p q : P) : Option Bool := both d M.ge p q
/-- `cmp` (arc.rs:420-425, intern.rs:451-456). -/
def cmp (d : P → Option V) (M : Methods V) (p q : P) : Option Ordering := both d M.cmp p q

/-- What the Rust documentation requires of `Eq`, `PartialOrd` and `Ord` of one type. -/
structure Methods.Lawful [BEq V] (M : Methods V) : Prop where
  eq : ∀ x y, M.cmp x y = .eq ↔ (x == y) = true
  swap : ∀ x y, M.cmp y x = (M.cmp x y).swap
  trans : ∀ x y z, M.cmp x y = .lt → M.cmp y z = .lt → M.cmp x z = .lt
  partial_ : ∀ x y, M.partialCmp x y = some (M.cmp x y)
  lt : ∀ x y, M.lt x y = true ↔ M.cmp x y = .lt
  le : ∀ x y, M.le x y = true ↔ M.cmp x y ≠ .gt
  gt : ∀ x y, M.gt x y = true ↔ M.cmp x y = .gt
  ge : ∀ x y, M.ge x y = true ↔ M.cmp x y ≠ .lt

/-- Specification: on the handles in `S`, `==`, `hash` and the orderings are total (no dangling handle), lawful and consistent with each
other and with the values. -/
structure Consistent [DecidableEq P] [BEq V] (S : P → Prop) (d : P → Option V) (ph : P → UInt64) (M : Methods V) : Prop where
  /-- `==` is an equivalence. -/
  eq_refl : ∀ p, S p → eq p p = true
  eq_symm : ∀ p q, S p → S q → eq p q = true → eq q p = true
  eq_trans : ∀ p q r, S p → S q → S r → eq p q = true → eq q r = true → eq p r = true
  /-- `==` compares values. -/
  eq_value : ∀ p q, S p → S q → ∃ x y, d p = some x ∧ d q = some y ∧ eq p q = (x == y)
  /-- equal handles hash equally. -/
  hash_eq : ∀ p q, S p → S q → eq p q = true → hash ph p = hash ph q
  /-- the orderings are those of the values. -/
  methods : ∀ p q, S p → S q → ∃ x y, d p = some x ∧ d q = some y ∧ partialCmp d M p q = some (M.partialCmp x y) ∧
    lt d M p q = some (M.lt x y) ∧ le d M p q = some (M.le x y) ∧ gt d M p q = some (M.gt x y) ∧ ge d M p q = some (M.ge x y) ∧
    cmp d M p q = some (M.cmp x y)
  /-- if the value type is lawful: `cmp` is a total order whose `Equal` is `==`, and the other methods agree with it. -/
  cmp_eq : M.Lawful → ∀ p q, S p → S q → (cmp d M p q = some .eq ↔ eq p q = true)
  cmp_swap : M.Lawful → ∀ p q, S p → S q → ∃ o, cmp d M p q = some o ∧ cmp d M q p = some o.swap
  cmp_trans : M.Lawful → ∀ p q r, S p → S q → S r → cmp d M p q = some .lt → cmp d M q r = some .lt → cmp d M p r = some .lt
  agree : M.Lawful → ∀ p q, S p → S q → ∃ o, cmp d M p q = some o ∧ partialCmp d M p q = some (some o) ∧
    lt d M p q = some (decide (o = .lt)) ∧ le d M p q = some (decide (o ≠ .gt)) ∧ gt d M p q = some (decide (o = .gt)) ∧
    ge d M p q = some (decide (o ≠ .lt))

end Traits
