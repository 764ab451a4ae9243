import Verif.Src.NewCode
/-
The vocabulary of C86, about executions of the code in `Verif/Src/NewCode.lean`.
-/
namespace Src.NewCode
open Arc (Res)
open Pool (Tid Ptr Query Ret Obj Entry)

variable {K V : Type}

/-- Calls with lawful user code, see `Pool.Op.Lawful`. -/
def Act.Lawful [BEq V] [Hashable V] : Act K V → Prop
  | .call _ o _ _ => o.Lawful
  | _ => True

/-- The states of the program. -/
inductive Reach [DecidableEq K] [BEq V] [Hashable V] (cfg : Cfg K V) : State K V → Prop
  | init : Reach cfg init
  | step {S S' : State K V} {act : Act K V} : Reach cfg S → act.Lawful → step cfg S act = .ok S' → Reach cfg S'

/-- Some execution. -/
inductive Later [DecidableEq K] [BEq V] [Hashable V] (cfg : Cfg K V) : State K V → State K V → Prop
  | refl (S : State K V) : Later cfg S S
  | step {S S' S'' : State K V} {act : Act K V} : Later cfg S S' → act.Lawful → step cfg S' act = .ok S'' → Later cfg S S''

/-- No function is running. -/
def Quiet (S : State K V) : Prop := ∀ cs ∈ S.threads, cs = []

/-- The value that a handle leads to. -/
def deref [DecidableEq K] (S : State K V) (k : K) (p : Ptr) : Option V := (S.mem.heap.find? (Obj.is k p)).map (·.val)

/-- Call number `j` was made, with argument `o`. -/
def Called (S : State K V) (j : Nat) (o : Pool.Op K V) : Prop := .call j o ∈ S.hist

/-- A call has returned. -/
def Returned (S : State K V) (e : Entry K V) : Prop := .ret e ∈ S.hist

/-- A call has ended by a panic. -/
def Panicked (S : State K V) (j : Nat) (o : Pool.Op K V) : Prop := .panicked j o ∈ S.hist

/-- A call had returned when call number `j` was made. -/
def RetBefore (S : State K V) (e : Entry K V) (j : Nat) : Prop := ∃ later o earlier, S.hist = later ++ .call j o :: earlier ∧ .ret e ∈ earlier

/-- The table that is in use for type `k`: the first mutex for `k` in its vector. -/
def tableOf (cfg : Cfg K V) (S : State K V) (k : K) : Option Cell := (S.mem.cells (cfg.shard k)).find? fun c => decide (c.tid = cfg.typeId k)

/-- The mutex for type `k` is poisoned. -/
def Poisoned (cfg : Cfg K V) (S : State K V) (k : K) : Prop := ∃ c, tableOf cfg S k = some c ∧ c.poisoned = true

/-- The mutexes that a running function holds: the guards in its variables, and those that are about to be dropped. -/
def locksOf (f : Fr K V) : List (Nat × Nat) :=
  (f.scopes.flatMap fun sc => sc.filterMap fun x => match x.2 with
    | some (.guard s pos _) => some (s, pos)
    | _ => none) ++
  f.items.filterMap fun
    | .glue (.unlock s pos _) => some (s, pos)
    | _ => none

/-- A hierarchy of types: while a function holds the mutex of its type, user code that it calls uses types of higher rank only. -/
def Ranked (rank : K → Nat) (S : State K V) : Prop :=
  ∀ cs ∈ S.threads, cs.Pairwise fun c c' => locksOf c'.frame ≠ [] → rank c'.op.pool < rank c.op.pool

section
variable [DecidableEq K] [BEq V] [Hashable V]

/-- `n` steps of running functions, in any order; some may be panics. -/
inductive Steps (cfg : Cfg K V) : Nat → State K V → State K V → Prop
  | refl (S : State K V) : Steps cfg 0 S S
  | run {n : Nat} {S S' S'' : State K V} {t : Tid} {a : Nat} : Steps cfg n S S' → step cfg S' (.run t a) = .ok S'' → Steps cfg (n + 1) S S''
  | panic {n : Nat} {S S' S'' : State K V} {t : Tid} : Steps cfg n S S' → step cfg S' (.panic t) = .ok S'' → Steps cfg (n + 1) S S''

/-- If steps of some threads are chosen well, `G` is reached, whatever the answers (addresses of new boxes, lengths that are seen) are. In each
state there are answers with which the chosen thread takes its step. -/
inductive Must (cfg : Cfg K V) (G : State K V → Prop) : State K V → Prop
  | done {S : State K V} : G S → Must cfg G S
  | step {S : State K V} (t : Tid) : (∃ a S', step cfg S (.run t a) = .ok S') → (∀ a S', step cfg S (.run t a) = .ok S' → Must cfg G S') → Must cfg G S

end
end Src.NewCode
