import Verif.Client.Pool
import Verif.Client.Arc
/-
Programs that use several interners at once (C91): several types and several arenas, and interners of different kinds.
-/
namespace Client
open Pool (Ptr Query)

/-- Values of two interners. Values of different types are never compared in Rust; here they are unequal. -/
def sumEq {V W : Type} [BEq V] [BEq W] : V ⊕ W → V ⊕ W → Bool
  | .inl x, .inl y => x == y
  | .inr x, .inr y => x == y
  | _, _ => false

instance {V W : Type} [BEq V] [BEq W] : BEq (V ⊕ W) := ⟨sumEq⟩

section
variable {K V : Type} [DecidableEq K] [BEq V] [Hashable V]

/-- As `Client.pool`, for all types `k` of `Intern` and all arenas `k` in `ks`. A value and a handle come with their `k`. -/
def pools (cfg : Pool.Cfg K V) (ks : K → Prop) : Interner (K × V) (K × Ptr) where
  State := Src.PoolCode.State K V
  Reach := Src.PoolCode.Reach cfg
  Step S S' := ∃ act, act.Lawful ∧ Src.PoolCode.step cfg S act = .ok S'
  idle S t := S.threads[t]? = some []
  /- `new` and `from_ref` (intern.rs:210-247), `intern` and its variants (arena.rs:118-417), and the unsized constructors (intern.rs:115-200). -/
  Calls S t x S' := ks x.1 ∧ (pool cfg x.1).Calls S t x.2 S'
  Returns S t p S' := ks p.1 ∧ (pool cfg p.1).Returns S t p.2 S'
  Clones S t _ S' := S.threads[t]? = some [] ∧ S' = S
  Drops S t _ S' := S.threads[t]? = some [] ∧ S' = S
  /- The arenas that the program uses have not been dropped, and calls have returned the handles. -/
  Owns S n := (∀ k, ks k → k ∉ S.gone) ∧ ∀ p : K × Ptr, 0 < n p → ks p.1 ∧ ∃ j q v, Src.PoolCode.Returned S ⟨j, .intern p.1 q v, .ptr p.2⟩
  /- intern.rs:387-393, arena.rs:441-447. -/
  deref S p := (Src.PoolCode.deref S p.1 p.2).map fun x => (p.1, x)

/-- As `Client.newIntern`, for all types. -/
def newInterns (cfg : Src.NewCode.Cfg K V) : Interner (K × V) (K × Ptr) where
  State := Src.NewCode.State K V
  Reach := Src.NewCode.Reach cfg
  Step S S' := ∃ act, act.Lawful ∧ Src.NewCode.step cfg S act = .ok S'
  idle S t := S.threads[t]? = some []
  /- `new` and `from` (typearena.rs:260-290), and the unsized constructors (typearena.rs:171-250). -/
  Calls S t x S' := (newIntern cfg x.1).Calls S t x.2 S'
  Returns S t p S' := (newIntern cfg p.1).Returns S t p.2 S'
  Clones S t _ S' := S.threads[t]? = some [] ∧ S' = S
  Drops S t _ S' := S.threads[t]? = some [] ∧ S' = S
  Owns S n := ∀ p : K × Ptr, 0 < n p → ∃ j q v, Src.NewCode.Returned S ⟨j, .intern p.1 q v, .ptr p.2⟩
  /- typearena.rs:402-408. -/
  deref S p := (Src.NewCode.deref S p.1 p.2).map fun x => (p.1, x)

end

/-! ### Two interners -/

/-- The states of two interners. `outer`: which of them (`false`: the first) the threads of the program have called, the
latest call first; the other may be called by user code inside this call. -/
structure Both (S T : Type) where
  fst : S
  snd : T
  outer : List (Tid × Bool)

/-- The interner that thread `t` has called last. -/
def Both.who {S T : Type} (s : Both S T) (t : Tid) : Option Bool := s.outer.lookup t

/-- Calls are nested: the call that the program has made ends after those inside it. -/
def Both.Nested {V W P Q : Type} (I : Interner V P) (J : Interner W Q) (s : Both I.State J.State) : Prop :=
  ∀ t, (s.who t = some false → I.idle s.fst t → J.idle s.snd t) ∧ (s.who t = some true → J.idle s.snd t → I.idle s.fst t)

/-- Two interners side by side, each with its own statics (container.rs, dashmap in arc.rs, typearena.rs). -/
def prod {V W P Q : Type} (I : Interner V P) (J : Interner W Q) : Interner (V ⊕ W) (P ⊕ Q) where
  State := Both I.State J.State
  Reach s := I.Reach s.fst ∧ J.Reach s.snd ∧ Both.Nested I J s
  /- One of them takes a step (or none: a handle that is `Copy` is dropped). -/
  Step s s' := (I.Step s.fst s'.fst ∧ s'.snd = s.snd ∨ J.Step s.snd s'.snd ∧ s'.fst = s.fst ∨ s'.fst = s.fst ∧ s'.snd = s.snd) ∧
    (∀ t, ¬ (I.idle s.fst t ∧ J.idle s.snd t) → s'.who t = s.who t) ∧ Both.Nested I J s'
  idle s t := I.idle s.fst t ∧ J.idle s.snd t
  Calls s t x s' := match x with
    | .inl v => I.Calls s.fst t v s'.fst ∧ J.idle s.snd t ∧ s'.snd = s.snd ∧ s'.outer = (t, false) :: s.outer
    | .inr v => J.Calls s.snd t v s'.snd ∧ I.idle s.fst t ∧ s'.fst = s.fst ∧ s'.outer = (t, true) :: s.outer
  Returns s t p s' := match p with
    | .inl p => I.Returns s.fst t p s'.fst ∧ J.idle s.snd t ∧ s'.snd = s.snd ∧ s.who t = some false ∧ s'.outer = s.outer
    | .inr p => J.Returns s.snd t p s'.snd ∧ I.idle s.fst t ∧ s'.fst = s.fst ∧ s.who t = some true ∧ s'.outer = s.outer
  Clones s t p s' := match p with
    | .inl p => I.Clones s.fst t p s'.fst ∧ J.idle s.snd t ∧ s'.snd = s.snd ∧ s'.outer = s.outer
    | .inr p => J.Clones s.snd t p s'.snd ∧ I.idle s.fst t ∧ s'.fst = s.fst ∧ s'.outer = s.outer
  Drops s t p s' := match p with
    | .inl p => I.Drops s.fst t p s'.fst ∧ J.idle s.snd t ∧ s'.snd = s.snd ∧ s'.outer = (t, false) :: s.outer
    | .inr p => J.Drops s.snd t p s'.snd ∧ I.idle s.fst t ∧ s'.fst = s.fst ∧ s'.outer = (t, true) :: s.outer
  Owns s n := I.Owns s.fst (fun p => n (.inl p)) ∧ J.Owns s.snd fun p => n (.inr p)
  deref s p := match p with
    | .inl p => (I.deref s.fst p).map .inl
    | .inr p => (J.deref s.snd p).map .inr

end Client
