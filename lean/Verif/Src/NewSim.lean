import Verif.Src.NewSpec
import Verif.Src.PoolMain
/-
How a running function of `Verif/Src/NewCode.lean` corresponds to one of `Verif/Src/PoolCode.lean`: a call of `NewIntern` that has taken the mutex
of its type does what a call of `Intern` does that has a mutex for each type.
-/
namespace Src.NewCode
open Arc (Res)
open Pool (Tid Ptr Query Ret Obj Entry)

variable {K V : Type}

/-- Two lists that are related element by element. -/
inductive All2 {α β : Type} (R : α → β → Prop) : List α → List β → Prop
  | nil : All2 R [] []
  | cons {a : α} {b : β} {l : List α} {l' : List β} : R a b → All2 R l l' → All2 R (a :: l) (b :: l')

/-- Variables. -/
def ev : PoolCode.Var → Var
  | .f => .f
  | .val => .val
  | .m => .m
  | .b => .b
  | .bx => .bx
  | .t => .t
  | .p => .p

/-- A variable of a closure. -/
def inner : PoolCode.Var → Bool
  | .f | .m => false
  | _ => true

theorem ev_inj {x y : PoolCode.Var} (h : ev x = ev y) : x = y := by cases x <;> cases y <;> first | rfl | cases h

/-- Values. -/
inductive VR : Val K V → PoolCode.Val K V → Prop
  | arg {k : K} {q : Query V} {v : V} : VR (.arg k q v) (.arg k q v)
  | argRef {k : K} {q : Query V} {v : V} : VR (.argRef k q v) (.argRef k q v)
  | owned {k : K} {v : V} : VR (.owned k v) (.owned k v)
  | box {k : K} {p : Ptr} : VR (.box k p) (.box k p)
  | ptr {p : Ptr} : VR (.ptr p) (.ptr p)
  | num {n : Nat} : VR (.num n) (.num n)
  | unit : VR .unit .unit

inductive OR : Option (Val K V) → Option (PoolCode.Val K V) → Prop
  | none : OR none none
  | some {x : Val K V} {y : PoolCode.Val K V} : VR x y → OR (some x) (some y)

/-- Glue. -/
inductive GR : Glue K V → PoolCode.Glue K V → Prop
  | value {k : K} {v : V} : GR (.value k v) (.value k v)
  | user : GR .user .user
  | destroy {k : K} {p : Ptr} : GR (.destroy k p) (.destroy k p)
  | dealloc {k : K} {p : Ptr} : GR (.dealloc k p) (.dealloc k p)

/-- Variables of closures that contain a pointer. -/
def pointer : PoolCode.Var → Bool
  | .b | .p => true
  | _ => false

/-- Operations that yield a pointer. -/
def yields : PoolCode.Op K → Bool
  | .get _ _ | .leak _ | .ptrOf _ => true
  | _ => false

/-- Operations of closures. -/
inductive OpR (k : K) : Op K → PoolCode.Op K → Prop
  | get {x : PoolCode.Var} : inner x = true → OpR k (.get k (ev x)) (.get k x)
  | from {x : PoolCode.Var} : inner x = true → OpR k (.from (ev x)) (.from x)
  | boxNew {x : PoolCode.Var} : inner x = true → OpR k (.boxNew (ev x)) (.boxNew x)
  | leak {x : PoolCode.Var} : inner x = true → OpR k (.leak (ev x)) (.leak x)
  | ptrOf {x : PoolCode.Var} : pointer x = true → OpR k (.ptrOf (ev x)) (.ptrOf x)
  | insert {x : PoolCode.Var} : pointer x = true → OpR k (.insert k (ev x)) (.insert k x)
  | len : OpR k .len (.len k)

/-- Statements of closures. -/
inductive StR (k : K) : St K → PoolCode.St K → Prop
  | bind {x : PoolCode.Var} {op : Op K} {op' : PoolCode.Op K} : inner x = true → OpR k op op' →
      (pointer x = true → yields op' = true) → StR k (.bind (ev x) op) (.bind x op')
  | exec {op : Op K} {op' : PoolCode.Op K} : OpR k op op' → StR k (.exec op) (.exec op')
  | choose {x : PoolCode.Var} {op : Op K} {op' : PoolCode.Op K} {l l2 : List (St K)} {l' l2' : List (PoolCode.St K)} : inner x = true → OpR k op op' →
      yields op' = true → All2 (StR k) l l' → All2 (StR k) l2 l2' → StR k (.choose (ev x) op l l2) (.choose x op' l' l2')
  | ret {op : Op K} {op' : PoolCode.Op K} : OpR k op op' → StR k (.ret op) (.ret op')

/-- Items. -/
inductive ItR (k : K) : It K V → PoolCode.It K V → Prop
  | stmt {s : St K} {s' : PoolCode.St K} : StR k s s' → ItR k (.stmt s) (.stmt s')
  | close : ItR k .close .close
  | glue {g : Glue K V} {g' : PoolCode.Glue K V} : GR g g' → ItR k (.glue g) (.glue g')

/-- Items that leave `n` scopes; all statements are inside them. -/
inductive Deep : Nat → List (It K V) → Prop
  | nil : Deep 0 []
  | stmt {n : Nat} {s : St K} {r : List (It K V)} : Deep (n + 1) r → Deep (n + 1) (.stmt s :: r)
  | close {n : Nat} {r : List (It K V)} : Deep n r → Deep (n + 1) (.close :: r)
  | glue {n : Nat} {g : Glue K V} {r : List (It K V)} : Deep n r → Deep n (.glue g :: r)

/-- A variable and its value. -/
def BR (a : Var × Option (Val K V)) (b : PoolCode.Var × Option (PoolCode.Val K V)) : Prop := a.1 = ev b.1 ∧ inner b.1 = true ∧ OR a.2 b.2 ∧
  (pointer b.1 = true → ∀ y, b.2 = some y → ∃ p, y = .ptr p)

/-- Scopes of closures. -/
abbrev SR : Scopes Var (Val K V) → Scopes PoolCode.Var (PoolCode.Val K V) → Prop := All2 (All2 BR)

/-- A function on its way out, with these variables and items, will only run glue that satisfies `P`. -/
inductive Wind (P : Glue K V → Prop) : Scopes Var (Val K V) → List (It K V) → Prop
  | nil : Wind P [] []
  | stmt {scs : Scopes Var (Val K V)} {s : St K} {r : List (It K V)} : Wind P scs r → Wind P scs (.stmt s :: r)
  | close {sc : List (Var × Option (Val K V))} {scs : Scopes Var (Val K V)} {r : List (It K V)} :
      (∀ x ∈ sc, ∀ y, x.2 = some y → ∀ g ∈ glue y, P g) → Wind P scs r → Wind P (sc :: scs) (.close :: r)
  | glue {scs : Scopes Var (Val K V)} {g : Glue K V} {r : List (It K V)} : P g → Wind P scs r → Wind P scs (.glue g :: r)

abbrev Bare : Scopes Var (Val K V) → List (It K V) → Prop := Wind fun _ => False

/-- The variables of `with_mutex_hashset` itself: the number of elements if it has pushed one, and the closure. -/
def bot (n : Option Nat) (x : Option (Val K V)) : List (Var × Option (Val K V)) := n.toList.map (fun n => (.n, some (.num n))) ++ [(.f, x)]

/-- What the calls of the two programs have in common: the closure and its argument. -/
structure Code [BEq V] [Hashable V] [DecidableEq K] (cfg : Cfg K V) (o : Pool.Op K V) (byRef : Bool) (x : Val K V) (body : List (St K))
    (y : PoolCode.Val K V) (body' : List (PoolCode.St K)) : Prop where
  here : start cfg o byRef = some ((lang cfg).enter [(.f, some x)] (withSet o.pool body))
  there : PoolCode.start cfg.pool o byRef = some ((PoolCode.lang cfg.pool).enter [(.f, some y)] (PoolCode.withLock o.pool body'))
  arg : VR x y
  owns : glue x = (taken o byRef).map fun y => .value y.1 y.2
  body : All2 (StR o.pool) body body'

/-- A function that has taken the mutex in element `pos` of the vector of its type; `was`: the thread was panicking then. -/
inductive Post [BEq V] [Hashable V] [DecidableEq K] (cfg : Cfg K V) (o : Pool.Op K V) (byRef : Bool) (pos : Nat) (was : Bool) : Fr K V → PoolCode.Fr K V → Prop
  | locked {x : Val K V} {y : PoolCode.Val K V} {body : List (St K)} {body' : List (PoolCode.St K)} {n : Option Nat}
      {J : List (It K V)} : Code cfg o byRef x body y body' → Bare [bot n none] J →
      Post cfg o byRef pos was
        { scopes := [[(.m, some (.guard (cfg.shard o.pool) pos was)), (.v, some (.cell (cfg.shard o.pool) pos))], bot n (some x)]
          items := .stmt (.block (.bind .val (.move .f) :: body)) :: .close :: J }
        { scopes := [[(.m, some (.guard (cfg.typeId o.pool))), (.f, some y)]]
          items := [.stmt (.block (.bind .val (.move .f) :: body')), .close] }
  | closure {x : Val K V} {y : PoolCode.Val K V} {body : List (St K)} {body' : List (PoolCode.St K)} {n : Option Nat}
      {J : List (It K V)} : Code cfg o byRef x body y body' → Bare [bot n none] J →
      Post cfg o byRef pos was
        { scopes := [[], [(.m, some (.guard (cfg.shard o.pool) pos was)), (.v, some (.cell (cfg.shard o.pool) pos))], bot n (some x)]
          items := .stmt (.bind .val (.move .f)) :: (body.map .stmt ++ .close :: .close :: J) }
        { scopes := [[], [(.m, some (.guard (cfg.typeId o.pool))), (.f, some y)]]
          items := .stmt (.bind .val (.move .f)) :: (body'.map .stmt ++ [.close, .close]) }
  | body {B : Scopes Var (Val K V)} {B' : Scopes PoolCode.Var (PoolCode.Val K V)} {I : List (It K V)} {I' : List (PoolCode.It K V)}
      {n : Option Nat} {J : List (It K V)} {e pn : Bool} {r : Option (Val K V)} {r' : Option (PoolCode.Val K V)} :
      SR B B' → All2 (ItR o.pool) I I' → Deep B.length I → Bare [bot n none] J → OR r r' →
      Post cfg o byRef pos was
        { scopes := B ++ [[(.m, some (.guard (cfg.shard o.pool) pos was)), (.v, some (.cell (cfg.shard o.pool) pos))], bot n none]
          items := I ++ .close :: J, exiting := e, ret := r, panicking := pn }
        { scopes := B' ++ [[(.m, some (.guard (cfg.typeId o.pool))), (.f, none)]]
          items := I' ++ [.close], exiting := e, ret := r', panicking := pn }
  | unlock {scs : Scopes Var (Val K V)} {J : List (It K V)} {pn : Bool} {r : Option (Val K V)} {r' : Option (PoolCode.Val K V)} :
      Bare scs J → OR r r' →
      Post cfg o byRef pos was
        { scopes := scs, items := .glue (.unlock (cfg.shard o.pool) pos was) :: J, exiting := true, ret := r, panicking := pn }
        { scopes := [], items := [.glue (.unlock (cfg.typeId o.pool))], exiting := true, ret := r', panicking := pn }
  | over {scs : Scopes Var (Val K V)} {J : List (It K V)} {pn : Bool} {r : Option (Val K V)} {r' : Option (PoolCode.Val K V)} :
      Bare scs J → OR r r' →
      Post cfg o byRef pos was { scopes := scs, items := J, exiting := true, ret := r, panicking := pn }
        { scopes := [], items := [], exiting := true, ret := r', panicking := pn }

/-- The types of the elements of vector `s`. -/
def tids (m : Mem K V) (s : Nat) : List Nat := (m.cells s).map (·.tid)

/-- The table in use for type `k` is at `pos`. -/
def First (cfg : Cfg K V) (m : Mem K V) (k : K) (pos : Nat) : Prop := (tids m (cfg.shard k)).findIdx? (fun i => decide (i = cfg.typeId k)) = some pos

/-- A function on its way out that will destroy these values, in this order. -/
inductive Refused : List (K × V) → Scopes Var (Val K V) → List (It K V) → Prop
  | nil : Refused [] [] []
  | stmt {l : List (K × V)} {scs : Scopes Var (Val K V)} {s : St K} {r : List (It K V)} : Refused l scs r → Refused l scs (.stmt s :: r)
  | close {l g : List (K × V)} {sc : List (Var × Option (Val K V))} {scs : Scopes Var (Val K V)} {r : List (It K V)} :
      (sc.flatMap fun x => x.2.toList.flatMap glue) = g.map (fun y => .value y.1 y.2) → Refused l scs r → Refused (g ++ l) (sc :: scs) (.close :: r)
  | value {l : List (K × V)} {k : K} {v : V} {scs : Scopes Var (Val K V)} {r : List (It K V)} : Refused l scs r →
      Refused ((k, v) :: l) scs (.glue (.value k v) :: r)
  | user {l : List (K × V)} {scs : Scopes Var (Val K V)} {r : List (It K V)} : Refused l scs r → Refused l scs (.glue .user :: r)

/-- What a function has still to do after its first look at the vector. -/
def rest1 (k : K) (body : List (St K)) : List (It K V) :=
  [.stmt (.bind .n (.push k)), .stmt (.choose .v (.find k) (locked body) []), .stmt (.exec .unreachable), .close]

/-- A function that has not taken a mutex, and the values that it has still to destroy or to store. -/
inductive Pre [BEq V] [Hashable V] [DecidableEq K] (cfg : Cfg K V) (m : Mem K V) (o : Pool.Op K V) (byRef : Bool) : List (K × V) → Fr K V → Prop
  | start {x : Val K V} {body : List (St K)} {y : PoolCode.Val K V} {body' : List (PoolCode.St K)} : Code cfg o byRef x body y body' →
      Pre cfg m o byRef (taken o byRef) { scopes := [[(.f, some x)]], items := .stmt (.choose .v (.find o.pool) (locked body) []) :: rest1 o.pool body }
  | found {x : Val K V} {body : List (St K)} {y : PoolCode.Val K V} {body' : List (PoolCode.St K)} {n : Option Nat}
      {J : List (It K V)} {pos : Nat} : Code cfg o byRef x body y body' → Bare [bot n none] J → First cfg m o.pool pos →
      Pre cfg m o byRef (taken o byRef) { scopes := [[(.v, some (.cell (cfg.shard o.pool) pos))], bot n (some x)], items := (locked body).map .stmt ++ .close :: J }
  | miss {x : Val K V} {body : List (St K)} {y : PoolCode.Val K V} {body' : List (PoolCode.St K)} : Code cfg o byRef x body y body' →
      Pre cfg m o byRef (taken o byRef) { scopes := [[(.v, none)], [(.f, some x)]], items := .close :: rest1 o.pool body }
  | push {x : Val K V} {body : List (St K)} {y : PoolCode.Val K V} {body' : List (PoolCode.St K)} : Code cfg o byRef x body y body' →
      Pre cfg m o byRef (taken o byRef) { scopes := [[(.f, some x)]], items := rest1 o.pool body }
  | again {x : Val K V} {body : List (St K)} {y : PoolCode.Val K V} {body' : List (PoolCode.St K)} {n : Nat} : Code cfg o byRef x body y body' →
      n ≤ (tids m (cfg.shard o.pool)).length → cfg.typeId o.pool ∈ (tids m (cfg.shard o.pool)).take n →
      Pre cfg m o byRef (taken o byRef) { scopes := [[(.n, some (.num n)), (.f, some x)]], items := (rest1 o.pool body).tail }
  | refused {l : List (K × V)} {f : Fr K V} : f.exiting = true → f.panicking = true → Refused l f.scopes f.items → Pre cfg m o byRef l f

end Src.NewCode
