import Verif.Pool.Reentrant
/-
Which user code runs under which lock, for every call of the library that takes one (C57). A call is described by the user
code it runs, each piece of user code by the calls of the library it makes, to any depth. `uses` translates a call to the
locks it takes, in the model of `Verif/Pool/Reentrant.lean`.

Lock numbers: the mutex of one of the 32 shards for `Intern` (container.rs:62-66), the mutex of the arena for `Arena`
(arena.rs:53-56), a shard lock of the DashMap of the type for `ArcIntern`; all different numbers. Simplification: the reads of
`num_objects_interned` and `shrink_to_fit` are not listed (they run no user code besides `Hash` when shrinking).
-/
namespace Nested
open Reentrant (Call)

/-- A call of the library with the calls made by the user code it runs. -/
inductive Use where
  /-- `Intern::new(val)` (intern.rs:210-221), `Intern::from_ref` (intern.rs:225-237), `is_interned` (intern.rs:274-281). -/
  | intern (shard : Nat) (hashEq conv drop : List Use)
  /-- `Arena::intern` (arena.rs:118-132), `intern_ref` (arena.rs:136-155), `intern_from_owned` (arena.rs:156-174),
  `intern_from` (arena.rs:406-425). -/
  | arena (lock : Nat) (hashEq conv drop : List Use)
  /-- `ArcIntern::new` (arc.rs:224-270), `from_ref` (arc.rs:193-201), `new_with_copyable_init_val` (arc_dst.rs:68-118):
  `rounds` lookups (`get_mut` or `entry`). -/
  | arcNew (shard rounds : Nat) (conv hash eq drop : List Use)
  /-- the drop of the last handle of an `ArcIntern` (arc.rs:294-325). -/
  | arcFree (shard : Nat) (hash eq dtor : List Use)
  /-- clone, deref, comparison, refcount of an `ArcIntern`, drop of a handle that is not the last, any use of an `Intern` or
  `ArenaIntern` handle: no lock. -/
  | light

/-- `n` lookups in shard `i` with `Hash` making the calls `h` and `Eq` the calls `e`. -/
def lookups (i : Nat) (n : Nat) (h e : List Call) : List Call :=
  (List.replicate n (h ++ [.mk i (h ++ e)])).flatten

mutual
/-- The locks a call takes, in order, and what it does while holding each. -/
def Use.calls : Use → List Call
  -- everything, including the drop of an argument that is not needed, happens inside the closure passed to
  -- `Arena::with` (container.rs:117-121)
  | .intern i h c d => [.mk i (calls h ++ calls c ++ calls d)]
  -- the guard `m` is a local, the argument a parameter: on a hit the guard is released before the argument is dropped
  | .arena i h c d => .mk i (calls h ++ calls c) :: calls d
  -- DashMap hashes the key to select the shard, locks it, and hashes and compares under the lock; the argument (arc.rs) is
  -- dropped after the guard is released. `from_ref` converts before the first lookup
  | .arcNew i n c h e d => calls c ++ (lookups i n (calls h) (calls e) ++ calls d)
  -- one lookup; the removed entry is dropped after the lock is released (arc.rs:322-324)
  | .arcFree i h e d => lookups i 1 (calls h) (calls e) ++ calls d
  | .light => []
def calls : List Use → List Call
  | [] => []
  | u :: l => u.calls ++ calls l
end

mutual
/-- The discipline: no code that runs under a lock takes a lock of the library: `Hash` and `Eq` everywhere, `From` in `Intern`
and `Arena`, destructors of arguments in `Intern`. Destructors of values in `ArcIntern`s and of arguments of `ArcIntern::new`
and `Arena::intern`, and `From` in `ArcIntern::from_ref`, are arbitrary (but follow the discipline in turn). -/
def Use.Tame : Use → Prop
  | .intern _ h c d => calls h = [] ∧ calls c = [] ∧ calls d = []
  | .arena _ h c d => calls h = [] ∧ calls c = [] ∧ Tames d
  | .arcNew _ _ c h e d => Tames c ∧ calls h = [] ∧ calls e = [] ∧ Tames d
  | .arcFree _ h e d => calls h = [] ∧ calls e = [] ∧ Tames d
  | .light => True
def Tames : List Use → Prop
  | [] => True
  | u :: l => u.Tame ∧ Tames l
end

end Nested
