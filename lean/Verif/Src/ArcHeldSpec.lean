import Verif.Src.ArcHeld
import Verif.Src.ArcNestLedger
/-
The vocabulary of C88, about executions of `Verif/Src/ArcHeld.lean`.
-/
namespace Src.ArcHeld
open Arc (Addr Tid Cell Cfg Res)
open Src.ArcCode (Var Val Op Glue Mem Stack Removing Move)
open Src.ArcNest (Running Few Mark Quiet)

variable {V : Type}

/-- User code panics in the removal of a `drop` (C20). -/
def dropPanic (X : State V) : Act V → Prop
  | .lock _ => False
  | .act a => ArcNest.dropPanic X.base a

/-- Call `c` is inserting an entry. -/
def inserting (c : Running V) : Bool := c.stack.head?.any inInsert

/-- Call number `j` holds the lock of shard `sh`. -/
def Holds (X : State V) (j sh : Nat) : Prop := (sh, j) ∈ X.held ∨ X.base.mem.locks sh = some j

section
variable [BEq V] [Hashable V]

/-- The states of the program, as long as no object has 2^64 handles. -/
inductive Reach (cfg : Cfg V) : State V → Prop
  | init : Reach cfg init
  | step {X X' : State V} {act : Act V} : Reach cfg X → step cfg X act = .ok X' → Few cfg X'.base → Reach cfg X'

/-- And those reached without a panic in the removal of a `drop`. -/
inductive ReachND (cfg : Cfg V) : State V → Prop
  | init : ReachND cfg init
  | step {X X' : State V} {act : Act V} : ReachND cfg X → ¬ dropPanic X act → step cfg X act = .ok X' → Few cfg X'.base → ReachND cfg X'

/-- An execution fragment through states that satisfy `P`, both ends included. -/
inductive ExecIn (cfg : Cfg V) (P : State V → Prop) : State V → State V → Prop
  | refl {X : State V} : P X → ExecIn cfg P X X
  | step {X X' X'' : State V} {act : Act V} : ExecIn cfg P X X' → step cfg X' act = .ok X'' → Few cfg X''.base → P X'' → ExecIn cfg P X X''

/-- An execution, with what it does with values (`Verif/Src/ArcNestLedger.lean`). Taking a lock does nothing with them. -/
inductive Ledger (cfg : Cfg V) : State V → List (Nat × Move V) → Prop
  | init : Ledger cfg init []
  | lock {X X' : State V} {t : Tid} {L : List (Nat × Move V)} : Ledger cfg X L → step cfg X (.lock t) = .ok X' → Few cfg X'.base → Ledger cfg X' L
  | act {X X' : State V} {a : ArcNest.Act V} {L : List (Nat × Move V)} : Ledger cfg X L → step cfg X (.act a) = .ok X' → Few cfg X'.base →
      Ledger cfg X' (ArcNest.logged cfg X.base a ++ L)

/-- The entries of a shard, with their values. -/
def entries (cfg : Cfg V) (X : State V) (sh : Nat) : List (Addr × V) :=
  X.base.mem.table.filterMap fun b => (ArcNest.deref X.base b).bind fun v => if cfg.shardOf v = sh then some (b, v) else none

/-- A hierarchy of locks: while a call holds the lock of a shard, the calls that user code makes inside it look up in shards of lower rank
only. (The shards of different types are different.) -/
def Ordered (cfg : Cfg V) (rank : Nat → Nat) (X : State V) : Prop :=
  ∀ c cs, (c :: cs) ∈ X.base.threads → ∀ sh, lookup cfg X.base.mem c = some sh →
    ∀ o ∈ cs, ∀ sh', Holds X o.id sh' → rank sh < rank sh'

/-- Thread `t` can do its next step, whatever address the allocator returns. -/
def CanRun (cfg : Cfg V) (X : State V) (t : Tid) : Prop :=
  (∃ X', step cfg X (.lock t) = .ok X') ∨
    ∀ a, a ≠ 0 → a ∉ Arc.keys X.base.mem.heap → ∃ X', step cfg X (.act (.run t a)) = .ok X'

end
end Src.ArcHeld
