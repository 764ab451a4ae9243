import Verif.Client.Lang
import Verif.Src.PoolSpec
import Verif.Src.NewSpec
/-
What a program sees of the interners whose handles are `Copy` (C90): `Intern` and `ArenaIntern` (`Verif/Src/PoolCode.lean`) and the `Intern`
of typearena.rs (`Verif/Src/NewCode.lean`), with the functions as they are written, called also by user code inside calls. A clone of such a
handle is a copy, and nothing happens when it is dropped.
-/
namespace Client
open Pool (Ptr Query)

section
variable {K V : Type} [DecidableEq K] [BEq V] [Hashable V]

/-- The pool of a type, or an arena. -/
def pool (cfg : Pool.Cfg K V) (k : K) : Interner V Ptr where
  State := Src.PoolCode.State K V
  Reach := Src.PoolCode.Reach cfg
  Step S S' := ∃ act, act.Lawful ∧ Src.PoolCode.step cfg S act = .ok S'
  idle S t := S.threads[t]? = some []
  /- `new` and `from_ref` (intern.rs:210-247), `intern` and its variants (arena.rs:118-417), and the unsized constructors (intern.rs:115-200). -/
  Calls S t v S' := S.threads[t]? = some [] ∧ ∃ (q : Query V) (byRef : Bool), (Pool.Op.intern k q v).Lawful ∧
    Src.PoolCode.step cfg S (.call t (.intern k q v) byRef) = .ok S'
  /- The last step of a call gives its result to the client. -/
  Returns S t p S' := ∃ c a q v, S.threads[t]? = some [c] ∧ Src.PoolCode.step cfg S (.run t a) = .ok S' ∧ S'.threads[t]? = some [] ∧
    S'.hist = .ret ⟨c.id, .intern k q v, .ptr p⟩ :: S.hist
  /- intern.rs:100-109, arena.rs:92-98. -/
  Clones S t _ S' := S.threads[t]? = some [] ∧ S' = S
  Drops S t _ S' := S.threads[t]? = some [] ∧ S' = S
  /- The arena has not been dropped, and calls have returned the handles. -/
  Owns S n := k ∉ S.gone ∧ ∀ p, 0 < n p → ∃ j q v, Src.PoolCode.Returned S ⟨j, .intern k q v, .ptr p⟩
  /- intern.rs:387-393, arena.rs:441-447. -/
  deref S p := Src.PoolCode.deref S k p

/-- The table of a type, in typearena.rs. -/
def newIntern (cfg : Src.NewCode.Cfg K V) (k : K) : Interner V Ptr where
  State := Src.NewCode.State K V
  Reach := Src.NewCode.Reach cfg
  Step S S' := ∃ act, act.Lawful ∧ Src.NewCode.step cfg S act = .ok S'
  idle S t := S.threads[t]? = some []
  /- `new` and `from` (typearena.rs:260-290), and the unsized constructors (typearena.rs:171-250). -/
  Calls S t v S' := S.threads[t]? = some [] ∧ ∃ (q : Query V) (byRef unw : Bool), (Pool.Op.intern k q v).Lawful ∧
    Src.NewCode.step cfg S (.call t (.intern k q v) byRef unw) = .ok S'
  /- The last step of a call gives its result to the client. -/
  Returns S t p S' := ∃ c a q v, S.threads[t]? = some [c] ∧ Src.NewCode.step cfg S (.run t a) = .ok S' ∧ S'.threads[t]? = some [] ∧
    S'.hist = .ret ⟨c.id, .intern k q v, .ptr p⟩ :: S.hist
  /- typearena.rs:160-169. -/
  Clones S t _ S' := S.threads[t]? = some [] ∧ S' = S
  Drops S t _ S' := S.threads[t]? = some [] ∧ S' = S
  Owns S n := ∀ p, 0 < n p → ∃ j q v, Src.NewCode.Returned S ⟨j, .intern k q v, .ptr p⟩
  /- typearena.rs:402-408. -/
  deref S p := Src.NewCode.deref S k p

end
end Client
