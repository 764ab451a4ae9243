import Verif.Src.PoolCode
/-
The vocabulary of C81, about executions of the code in `Verif/Src/PoolCode.lean`.
-/
namespace Src.PoolCode
open Arc (Res)
open Pool (Tid Ptr Query Ret Obj Cfg Entry)

variable {K V : Type}

/-- Calls with lawful user code, see `Pool.Op.Lawful`. -/
def Act.Lawful [BEq V] [Hashable V] : Act K V → Prop
  | .call _ o _ => o.Lawful
  | _ => True

/-- The states of the program. -/
inductive Reach [DecidableEq K] [BEq V] [Hashable V] (cfg : Cfg K V) : State K V → Prop
  | init : Reach cfg init
  | step {S S' : State K V} {act : Act K V} : Reach cfg S → act.Lawful → step cfg S act = .ok S' → Reach cfg S'

/-- No function is running. -/
def Quiet (S : State K V) : Prop := ∀ cs ∈ S.threads, cs = []

/-- The value that a handle leads to. -/
def deref [DecidableEq K] (S : State K V) (k : K) (p : Ptr) : Option V := (S.mem.heap.find? (Obj.is k p)).map (·.val)

/-- Call number `j` was made, with argument `o`. -/
def Called (S : State K V) (j : Nat) (o : Pool.Op K V) : Prop := .call j o ∈ S.hist

/-- A call has returned. -/
def Returned (S : State K V) (e : Entry K V) : Prop := .ret e ∈ S.hist

/-- A call had returned when call number `j` was made. -/
def RetBefore (S : State K V) (e : Entry K V) (j : Nat) : Prop := ∃ later o earlier, S.hist = later ++ .call j o :: earlier ∧ .ret e ∈ earlier

/-- The destruction of arena `k` has ended, without a panic. -/
def Dropped (S : State K V) (k : K) : Prop := .dropped k ∈ S.hist

/-- The locks that a running function has taken and not released yet: the guards in its variables, and those that are about to be dropped. -/
def locksOf (f : Fr K V) : List Nat :=
  (f.scopes.flatMap fun sc => sc.filterMap fun x => match x.2 with
    | some (.guard i) => some i
    | _ => none) ++
  f.items.filterMap fun
    | .glue (.unlock i) => some i
    | _ => none

/-- A function is about to run, or is running, a destructor of a value. -/
def Destroying (f : Fr K V) : Prop := ∃ r, f.items = .glue .user :: r ∨ ∃ k v, f.items = .glue (.value k v) :: r

/-- A hierarchy of locks: a function called by user code works on a pool whose lock is above all locks that the functions below it on the
stack have taken. -/
def Ranked (cfg : Cfg K V) (rank : Nat → Nat) (S : State K V) : Prop :=
  ∀ cs ∈ S.threads, cs.Pairwise fun c c' => ∀ i ∈ locksOf c'.frame, rank i < rank (cfg.lockOf c.call.pool)

/-- An address that the allocator can return. -/
def Fresh (S : State K V) (a : Nat) : Prop := a ≠ 0 ∧ (∀ o ∈ S.mem.heap, o.ptr.addr ≠ a) ∧ ∀ o ∈ S.mem.husks, o.ptr.addr ≠ a

section
variable [DecidableEq K] [BEq V] [Hashable V]

/-- Running the right thread, again and again, leads to a state that satisfies `G`, whatever addresses the allocator returns. -/
inductive Must (cfg : Cfg K V) (G : State K V → Prop) : State K V → Prop
  | done {S : State K V} : G S → Must cfg G S
  | step {S : State K V} (t : Tid) : (∀ a, Fresh S a → ∃ S', step cfg S (.run t a) = .ok S') →
      (∀ a S', Fresh S a → step cfg S (.run t a) = .ok S' → Must cfg G S') → Must cfg G S

/-- `n` steps of running functions, in any order; some may be panics. -/
inductive Steps (cfg : Cfg K V) : Nat → State K V → State K V → Prop
  | refl (S : State K V) : Steps cfg 0 S S
  | run {n : Nat} {S S' S'' : State K V} {t : Tid} {a : Nat} : Steps cfg n S S' → step cfg S' (.run t a) = .ok S'' → Steps cfg (n + 1) S S''
  | panic {n : Nat} {S S' S'' : State K V} {t : Tid} : Steps cfg n S S' → step cfg S' (.panic t) = .ok S'' → Steps cfg (n + 1) S S''

/-- Some execution. -/
inductive Later (cfg : Cfg K V) : State K V → State K V → Prop
  | refl (S : State K V) : Later cfg S S
  | step {S S' S'' : State K V} {act : Act K V} : Later cfg S S' → act.Lawful → step cfg S' act = .ok S'' → Later cfg S S''

end
end Src.PoolCode
