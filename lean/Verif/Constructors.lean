import Verif.Pool.Exec
import Verif.Closures.Model
/-
All public functions that intern a value with `Intern`, `Arena` and `NewIntern`: what each of them looks up, and what it stores when the
lookup fails. Conversions of the standard library between owned, boxed and borrowed forms (`Box::from`, `as_ref`, `borrow`) keep the
content.
-/
namespace Constructors
open Pool (Query)

variable {V : Type}

/-- Where a value to be interned comes from. `V`: the contents of the interned type (for `str`, `CStr`, `OsStr`, `Path` and `[T]` the
contents of the owned forms are the same). -/
inductive Src (V : Type) : Type 1 where
  /-- by value -/
  | val (v : V)
  /-- `From<T>`, by value -/
  | from (v : V)
  | default
  /-- deserialised -/
  | de (v : V)
  /-- `Box<T>` -/
  | boxed (v : V)
  /-- the owned form: `String`, `CString`, `OsString`, `PathBuf`, `Vec<T>` -/
  | owned (v : V)
  /-- the borrowed form: `&str`, `&CStr`, `&OsStr`, `&Path`, `&[T]` -/
  | ref (v : V)
  /-- `&[T; N]` -/
  | array (v : V)
  /-- a reference to a key that the interned type can be borrowed as and built from -/
  | key (Q : Type) (beq : BEq Q) (hash : Hashable Q) (borrow : V → Q) (mk : Q → V) (q : Q)
  /-- the same, where a `Box` of the interned type is built from the key -/
  | boxKey (Q : Type) (beq : BEq Q) (hash : Hashable Q) (borrow : V → Q) (mk : Q → V) (q : Q)

/-- Specification: the value that is to be interned. -/
def Src.content (dflt : V) : Src V → V
  | .val v | .from v | .de v | .boxed v | .owned v | .ref v | .array v => v
  | .default => dflt
  | .key _ _ _ _ mk q | .boxKey _ _ _ _ mk q => mk q

/-- The `Borrow` implementation is lawful, and the built value borrows back to the key. -/
def Src.Lawful [BEq V] [Hashable V] : Src V → Prop
  | .key Q _ _ borrow mk q | .boxKey Q _ _ borrow mk q =>
    EquivBEq Q ∧ LawfulHashable Q ∧ Pool.LawfulBorrow borrow ∧ (borrow (mk q) == q) = true
  | _ => True

/-- What a call looks up, and what it stores if that is missing. -/
abbrev Args (V : Type) := Query V × V

section
variable [BEq V] [Hashable V]

/-! ### intern.rs -/

/-- `Intern::new` (intern.rs:210-219): `m.get(&val)`, `Box::new(val)`. -/
def internNew (v : V) : Args V := (.ofVal v, v)

/-- `Intern::via_box` (intern.rs:151-164): `m.get(val.borrow())`, `Box::from(val)`. -/
def internViaBox (v : V) : Args V := (.ofVal v, v)

/-- `From<Box<T>> for Intern<T>` (intern.rs:167-178): `m.get(val.borrow())`, the box itself. -/
def internBox (v : V) : Args V := (.ofVal v, v)

/-- `Intern::from_ref` (intern.rs:225-237): `m.get(val)`, `Box::new(T::from(val))`. -/
def internFromRef {Q : Type} [BEq Q] [Hashable Q] (borrow : V → Q) (mk : Q → V) (q : Q) : Args V := (.ofBorrow borrow q, mk q)

/-- The constructors of `Intern`; `none`: there is none. -/
def intern (dflt : V) : Src V → Option (Args V)
  | .val v => some (internNew v)
  -- intern.rs:467-472
  | .from v => some (internNew v)
  -- intern.rs:473-478
  | .default => some (internNew dflt)
  -- intern.rs:482-486
  | .de v => some (internNew v)
  | .boxed v => some (internBox v)
  | .owned _ => none
  -- `from_via_box!` (intern.rs:120-133), `From<&[T]>` (134-139)
  | .ref v => some (internViaBox v)
  -- intern.rs:141-147
  | .array v => some (internViaBox v)
  | .key _ _ _ borrow mk q => some (internFromRef borrow mk q)
  | .boxKey .. => none

/-! ### arena.rs -/

/-- `Arena<T>::intern` (arena.rs:118-132): `m.get(&val)`, `Box::new(val)`. -/
def arenaIntern (v : V) : Args V := (.ofVal v, v)

/-- `Arena::intern_ref` (arena.rs:136-155): `m.get(val)`, `val.into()`. -/
def arenaInternRef {Q : Type} [BEq Q] [Hashable Q] (borrow : V → Q) (mk : Q → V) (q : Q) : Args V := (.ofBorrow borrow q, mk q)

/-- `Arena::intern_from_owned` (arena.rs:156-174): `m.get(val.as_ref())`, `val.into()`. -/
def arenaInternFromOwned (v : V) : Args V := (.ofVal v, v)

/-- `Arena::intern_from` (arena.rs:406-424): `m.get(val)`, `Box::new(val.into())`. -/
def arenaInternFrom {Q : Type} [BEq Q] [Hashable Q] (borrow : V → Q) (mk : Q → V) (q : Q) : Args V := (.ofBorrow borrow q, mk q)

/-- The constructors of `Arena`. -/
def arena : Src V → Option (Args V)
  | .val v => some (arenaIntern v)
  -- `Arena<str | CStr | OsStr | Path | [T]>::intern` (arena.rs:183, 221, 278, 335, 382): `intern_ref` at the type itself
  | .ref v => some (arenaInternRef id id v)
  -- `intern_string`, `intern_cstring`, `intern_osstring`, `intern_pathbuf`, `intern_vec` (arena.rs:192, 239, 296, 353, 391)
  | .owned v => some (arenaInternFromOwned v)
  -- `intern_box` (arena.rs:201, 257, 314, 371, 400)
  | .boxed v => some (arenaInternFromOwned v)
  | .key _ _ _ borrow mk q => some (arenaInternFrom borrow mk q)
  | .boxKey _ _ _ borrow mk q => some (arenaInternRef borrow mk q)
  | .from _ | .default | .de _ | .array _ => none

/-! ### typearena.rs -/

/-- `NewIntern::new` (typearena.rs:260-269), `via_box` (208-222), `From<Box<T>>` (224-235). -/
def newInternNew (v : V) : Args V := (.ofVal v, v)

/-- `NewIntern::from` (typearena.rs:275-287). -/
def newInternFrom {Q : Type} [BEq Q] [Hashable Q] (borrow : V → Q) (mk : Q → V) (q : Q) : Args V := (.ofBorrow borrow q, mk q)

/-- The constructors of `NewIntern`. -/
def newIntern (dflt : V) : Src V → Option (Args V)
  -- typearena.rs:260, 482-487, 497-502
  | .val v | .from v | .de v => some (newInternNew v)
  -- typearena.rs:488-493
  | .default => some (newInternNew dflt)
  -- typearena.rs:224; 178-196; 198-204
  | .boxed v | .ref v | .array v => some (newInternNew v)
  | .key _ _ _ borrow mk q => some (newInternFrom borrow mk q)
  | .owned _ | .boxKey .. => none

end
end Constructors
