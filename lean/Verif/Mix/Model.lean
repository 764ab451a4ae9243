import Verif.Arc.Spec
import Verif.Pool.Ledger
/-
Programs that use both kinds of interners, with `ArcIntern` handles inside values given to `Intern` and `Arena` (C77):
`Arena<Node>`, `Intern<Node>` with `struct Node { label: L, kids: Vec<ArcIntern<T>> }`.

The two models run side by side. The library does not connect them; what connects them is ownership of the `ArcIntern` handles: a value
that moves into `Intern` or `Arena` takes its handles with it (Rust's move semantics), and destroying a value drops its fields.
-/
namespace Mix
variable {A K V : Type}

/-- * `arc`: the state of `ArcIntern` (`Verif/Arc/Model.lean`). Its `handles` are the handles outside of `ArcIntern`'s own calls and
  values, wherever they are.
* `pool`: the state of the `Intern` pools and arenas (`Verif/Pool/Late.lean`).
* `prog`: those `ArcIntern` handles that are not inside a value in the care of `Intern` or `Arena`. -/
structure State (A K V : Type) where
  arc : Arc.State A
  pool : Pool.LateState K V
  prog : List Arc.Addr

def init : State A K V := { arc := Arc.init, pool := Pool.lateInit, prog := [] }

/-- The handles a call on `ArcIntern` takes by value: those inside the argument of `new` (arc.rs:224), the one dropped (arc.rs:293). -/
def takes (kids : A → List Arc.Addr) : Arc.Act A → List Arc.Addr
  | .new _ v _ => kids v
  | .drop _ p => [p]
  | _ => []

/-- The parameters: those of `ArcIntern`, those of `Intern` and `Arena`, which calls take their argument by value, and the `ArcIntern`
handles in a value of the latter. -/
structure Cfg (A K V : Type) where
  arc : Arc.Cfg A
  pool : Pool.Cfg K V
  byVal : Pool.Op K V → Bool
  kids : V → List Arc.Addr

/-- The handles in some values. -/
def Cfg.inside (cfg : Cfg A K V) (l : List (K × V)) : List Arc.Addr := l.flatMap fun y => cfg.kids y.2

/-- One step of either interner. -/
inductive Step [BEq A] [Hashable A] [DecidableEq K] (cfg : Cfg A K V) : State A K V → State A K V → Prop where
  /-- `ArcIntern`. What the call takes by value the program must have; any handle may be read or cloned, also one inside a stored value,
  through a reference to that value. The program gets the handles that the step returns. -/
  | arc {s : State A K V} {a : Arc.Act A} {arc' : Arc.State A} {got : List Arc.Addr} : a.Sane →
      Arc.step cfg.arc s.arc a = .ok arc' → Arc.Small cfg.arc arc' → Arc.ownsAll s.prog (takes cfg.arc.kids a) = true →
      arc'.handles = got ++ Arc.eraseAll s.arc.handles (takes cfg.arc.kids a) →
      Step cfg s { s with arc := arc', prog := got ++ Arc.eraseAll s.prog (takes cfg.arc.kids a) }
  /-- `Intern` or `Arena`. The handles inside values that are supplied move away from the program; when a value is destroyed, the program
  (the destructor) has its handles, to drop them. -/
  | pool {s : State A K V} {a : Pool.Act K V} {found : Option Pool.Ptr} {pool' : Pool.LateState K V} :
      Pool.Answer s.pool.base found a → Pool.lateStepWith found cfg.pool s.pool a = .ok pool' →
      Arc.ownsAll s.prog (cfg.inside (Pool.supplies cfg.byVal s.pool a)) = true →
      Step cfg s { s with
        pool := pool'
        prog := cfg.inside (Pool.destroys cfg.byVal found cfg.pool s.pool a) ++
          Arc.eraseAll s.prog (cfg.inside (Pool.supplies cfg.byVal s.pool a)) }

inductive Steps [BEq A] [Hashable A] [DecidableEq K] (cfg : Cfg A K V) (s : State A K V) : State A K V → Prop where
  | refl : Steps cfg s s
  | tail {s' s'' : State A K V} : Steps cfg s s' → Step cfg s' s'' → Steps cfg s s''

/-- Reachable by any interleaving of any program. -/
def Reach [BEq A] [Hashable A] [DecidableEq K] (cfg : Cfg A K V) (s : State A K V) : Prop := Steps cfg init s

end Mix
