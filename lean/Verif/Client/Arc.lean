import Verif.Client.Lang
import Verif.Src.ArcHeldSpec
/-
What a program sees of `ArcIntern` (C90): the functions as they are written (`Verif/Src/ArcCode.lean`), called also by user code inside calls
(`Verif/Src/ArcNest.lean`, `Verif/Src/ArcHeld.lean`).
-/
namespace Client
open Arc (Cfg)
open Src.ArcNest (Running Few)

/-- The table of `ArcIntern<T>` and the handles to it. -/
def arc {V : Type} [BEq V] [Hashable V] (cfg : Cfg V) : Interner V Arc.Addr where
  State := Src.ArcHeld.State V
  Reach := Src.ArcHeld.Reach cfg
  Step X X' := ∃ act, Src.ArcHeld.step cfg X act = .ok X' ∧ Few cfg X'.base
  idle X t := X.base.threads[t]? = some []
  /- arc.rs:215-269, and the unsized constructors of arc_dst.rs. -/
  Calls X t v X' := X.base.threads[t]? = some [] ∧ ∃ dst, Src.ArcHeld.step cfg X (.act (.new t v dst)) = .ok X' ∧ Few cfg X'.base
  /- The last step of a call gives its result to the client. -/
  Returns X t b X' := ∃ c a, X.base.threads[t]? = some [c] ∧ Src.ArcHeld.step cfg X (.act (.run t a)) = .ok X' ∧ Few cfg X'.base ∧
    X'.base.threads[t]? = some [] ∧ X'.base.hist = .ret c.id (some b) :: X.base.hist
  /- arc.rs:272-284. -/
  Clones X t p X' := X.base.threads[t]? = some [] ∧ Src.ArcHeld.step cfg X (.act (.clone t [p])) = .ok X' ∧ Few cfg X'.base
  /- arc.rs:293-325. -/
  Drops X t p X' := X.base.threads[t]? = some [] ∧ Src.ArcHeld.step cfg X (.act (.drop t p)) = .ok X' ∧ Few cfg X'.base
  Owns X n := ∀ p, n p ≤ X.base.handles.count p
  /- arc.rs:356-361. -/
  deref X p := Src.ArcNest.deref X.base p

end Client
