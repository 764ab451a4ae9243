import Verif.Src.PoolOwed
import Verif.Pool.Step3
/-
How a running function of `Verif/Src/PoolCode.lean` corresponds to a thread of the interleaving model (`Verif/Pool/Model.lean`): every call
of the code is a thread of its own in the model.
-/
namespace Src.PoolCode
open Arc (Res)
open Pool (Tid Ptr Query Ret Obj Cfg Entry Pc)

variable {K V : Type}

/-- The glue that a function on its way out is going to run, in this order. -/
def windG : Scopes Var (Val K V) → List (It K V) → List (Glue K V)
  | _, [] => []
  | scs, .glue g :: r => g :: windG scs r
  | [], .close :: r => windG [] r
  | sc :: scs, .close :: r => scGlue sc ++ windG scs r
  | scs, .again _ :: r => windG scs r
  | scs, .stmt _ :: r => windG scs r

/-- Glue that leaves the boxes of pools and the locks alone. -/
def Glue.soft : Glue K V → Bool
  | .value _ _ | .user | .dealloc _ _ => true
  | _ => false

/-- Glue that leaves the boxes of pools alone. -/
def Glue.plain : Glue K V → Bool
  | .destroy _ _ => false
  | _ => true

/-- The argument of an interning function. -/
def argV (byRef : Bool) (k : K) (q : Query V) (v : V) : Val K V := if byRef then .argRef k q v else .arg k q v

/-- The innermost scope after the mutex has been taken (and the closure entered), with the value of `val`. -/
def topSc (cfg : Cfg K V) (own : Bool) (k : K) (x : Option (Val K V)) : List (Var × Option (Val K V)) :=
  if own then [(.m, some (.guard (cfg.lockOf k))), (.val, x)] else [(.val, x)]

/-- The scopes around it. -/
def lowSc (cfg : Cfg K V) (own : Bool) (k : K) : Scopes Var (Val K V) :=
  if own then [] else [[(.m, some (.guard (cfg.lockOf k))), (.f, none)]]

def endIt (own : Bool) : List (It K V) := if own then [.close] else [.close, .close]
def hitC (own : Bool) : List (St K) := if own then [.bind .p (.ptrOf .b), .ret (.ptrOf .p)] else [.ret (.ptrOf .b)]
def tailC (own : Bool) (k : K) : List (St K) := if own then arenaTail k else internTail k
def afterIt (own byRef : Bool) (k : K) : List (It K V) := (make byRef ++ tailC own k).map .stmt ++ endIt own

/-- The innermost scope before the box is made. -/
def mkSc (cfg : Cfg K V) (own byRef : Bool) (k : K) (q : Query V) (v : V) : List (Var × Option (Val K V)) :=
  if byRef then (.t, some (.owned k v)) :: topSc cfg own k (some (.argRef k q v)) else topSc cfg own k (some (.arg k q v))

/-- And after it. -/
def madeSc (cfg : Cfg K V) (own byRef : Bool) (k : K) (q : Query V) (v : V) : List (Var × Option (Val K V)) :=
  if byRef then (.t, none) :: topSc cfg own k (some (.argRef k q v)) else topSc cfg own k none

/-- The closures given to `with`, and what they have captured. -/
inductive Body (cfg : Cfg K V) : Pool.Op K V → Bool → Val K V → List (St K) → Prop
  | intern {k : K} {q : Query V} {v : V} {byRef : Bool} : cfg.owns k = false → Body cfg (.intern k q v) byRef (argV byRef k q v)
      (.choose .b (.get k .val) [.ret (.ptrOf .b)] [] :: make byRef ++ internTail k)
  | query {k : K} {q : Query V} {byRef : Bool} : cfg.owns k = false → Body cfg (.query k q) byRef (.key q)
      [.choose .b (.get k .val) [.ret (.bool true)] [.ret (.bool false)]]
  | len {k : K} {byRef : Bool} : cfg.owns k = false → Body cfg (.len k) byRef .unit [.ret (.len k)]

/-- The places in the functions, with the variables there and the program counter of the model that belongs to them. -/
inductive At [DecidableEq K] [BEq V] [Hashable V] (cfg : Cfg K V) : Pool.Op K V → Bool → Scopes Var (Val K V) → List (It K V) → Pc K V → Prop
  | want {o : Pool.Op K V} {byRef : Bool} {f : Fr K V} : start cfg o byRef = some f → At cfg o byRef f.scopes f.items (.want o)
  | block {o : Pool.Op K V} {byRef : Bool} {x : Val K V} {body : List (St K)} : Body cfg o byRef x body →
      At cfg o byRef [[(.m, some (.guard (cfg.lockOf o.pool))), (.f, some x)]] [.stmt (.block (.bind .val (.move .f) :: body)), .close] (.inside o)
  | closure {o : Pool.Op K V} {byRef : Bool} {x : Val K V} {body : List (St K)} : Body cfg o byRef x body →
      At cfg o byRef [[], [(.m, some (.guard (cfg.lockOf o.pool))), (.f, some x)]]
        (.stmt (.bind .val (.move .f)) :: (body.map .stmt ++ [.close, .close])) (.inside o)
  | look {k : K} {q : Query V} {v : V} {own byRef : Bool} : cfg.owns k = own →
      At cfg (.intern k q v) byRef (topSc cfg own k (some (argV byRef k q v)) :: lowSc cfg own k)
        (.stmt (.choose .b (.get k .val) (hitC own) []) :: afterIt own byRef k) (.inside (.intern k q v))
  | hit {k : K} {q : Query V} {v : V} {own byRef : Bool} {p : Ptr} : cfg.owns k = own →
      At cfg (.intern k q v) byRef ([(.b, some (.ptr p))] :: topSc cfg own k (some (argV byRef k q v)) :: lowSc cfg own k)
        ((hitC own).map .stmt ++ .close :: afterIt own byRef k) (.dropArg k q v p)
  | hit2 {k : K} {q : Query V} {v : V} {byRef : Bool} {p : Ptr} : cfg.owns k = true →
      At cfg (.intern k q v) byRef ([(.p, some (.ptr p)), (.b, some (.ptr p))] :: topSc cfg true k (some (argV byRef k q v)) :: lowSc cfg true k)
        (.stmt (.ret (.ptrOf .p)) :: .close :: afterIt true byRef k) (.dropArg k q v p)
  | miss {k : K} {q : Query V} {v : V} {own byRef : Bool} : cfg.owns k = own →
      At cfg (.intern k q v) byRef ([(.b, none)] :: topSc cfg own k (some (argV byRef k q v)) :: lowSc cfg own k)
        (.close :: afterIt own byRef k) (.build k q v)
  | from {k : K} {q : Query V} {v : V} {own : Bool} : cfg.owns k = own →
      At cfg (.intern k q v) true (topSc cfg own k (some (.argRef k q v)) :: lowSc cfg own k) (afterIt own true k) (.build k q v)
  | mk {k : K} {q : Query V} {v : V} {own byRef : Bool} : cfg.owns k = own →
      At cfg (.intern k q v) byRef (mkSc cfg own byRef k q v :: lowSc cfg own k)
        (.stmt (.bind .bx (.boxNew (if byRef then .t else .val))) :: ((tailC own k).map .stmt ++ endIt own)) (.build k q v)
  | made {k : K} {q : Query V} {v : V} {own byRef : Bool} {p : Ptr} : cfg.owns k = own →
      At cfg (.intern k q v) byRef (((.bx, some (.box k p)) :: madeSc cfg own byRef k q v) :: lowSc cfg own k)
        ((tailC own k).map .stmt ++ endIt own) (.insert k q v p)
  | ins {k : K} {q : Query V} {v : V} {own byRef : Bool} {p : Ptr} : cfg.owns k = own →
      At cfg (.intern k q v) byRef
        (((.p, some (.ptr p)) :: (.bx, if own then some (.box k p) else none) :: madeSc cfg own byRef k q v) :: lowSc cfg own k)
        (.stmt (.exec (.insert k (if own then .bx else .p))) :: .stmt (.ret (.ptrOf .p)) :: endIt own) (.insert k q v p)
  | ret {k : K} {q : Query V} {v : V} {own byRef : Bool} {p : Ptr} : cfg.owns k = own →
      At cfg (.intern k q v) byRef (((.p, some (.ptr p)) :: (.bx, none) :: madeSc cfg own byRef k q v) :: lowSc cfg own k)
        (.stmt (.ret (.ptrOf .p)) :: endIt own) (.leave (.intern k q v) (.ptr p))
  | qlook {k : K} {q : Query V} {byRef : Bool} : cfg.owns k = false → At cfg (.query k q) byRef ([(.val, some (.key q))] :: lowSc cfg false k)
      [.stmt (.choose .b (.get k .val) [.ret (.bool true)] [.ret (.bool false)]), .close, .close] (.inside (.query k q))
  | qret {k : K} {q : Query V} {byRef : Bool} {x : Option Ptr} {b : Bool} : cfg.owns k = false →
      At cfg (.query k q) byRef ([(.b, x.map .ptr)] :: [(.val, some (.key q))] :: lowSc cfg false k)
        [.stmt (.ret (.bool b)), .close, .close, .close] (.leave (.query k q) (.bool b))
  | len {k : K} {byRef : Bool} : cfg.owns k = false → At cfg (.len k) byRef ([(.val, some .unit)] :: lowSc cfg false k)
      [.stmt (.ret (.len k)), .close, .close] (.inside (.len k))

/-- The glue of an element of an arena that is being destroyed. -/
inductive Elem (k : K) : List (Glue K V) → Prop
  | none : Elem k []
  | destroy (p : Ptr) : Elem k [.destroy k p]
  | value (v : V) (p : Ptr) : Elem k [.value k v, .dealloc k p]
  | user (p : Ptr) : Elem k [.user, .dealloc k p]
  | dealloc (p : Ptr) : Elem k [.dealloc k p]

/-- A call of the code, with number `id`, and a thread of the model; `done` are the calls that have returned in the model. -/
inductive Rel [DecidableEq K] [BEq V] [Hashable V] (cfg : Cfg K V) (id : Nat) (done : List (Entry K V)) : Call K V → Fr K V → Pc K V → Prop
  | at {o : Pool.Op K V} {byRef : Bool} {scs : Scopes Var (Val K V)} {items : List (It K V)} {pc : Pc K V} : At cfg o byRef scs items pc →
      Rel cfg id done (.op o byRef) { scopes := scs, items := items } pc
  | unwind {c : Call K V} {f : Fr K V} : f.exiting = true → f.panicking = true → (windG f.scopes f.items).all Glue.plain = true →
      Rel cfg id done c f .idle
  | unwindBox {k : K} {q : Query V} {v : V} {p : Ptr} {byRef : Bool} {f : Fr K V} {G : List (Glue K V)} : cfg.owns k = true →
      f.exiting = true → f.panicking = true → windG f.scopes f.items = .destroy k p :: G → G.all Glue.plain = true →
      .unlock (cfg.lockOf k) ∈ G → Rel cfg id done (.op (.intern k q v) byRef) f (.insert k q v p)
  | leave {o : Pool.Op K V} {byRef : Bool} {f : Fr K V} {pc : Pc K V} {x : Val K V} {r : Ret} {G1 G2 : List (Glue K V)} : f.exiting = true →
      f.panicking = false → f.ret = some x → toRet x = some r →
      (pc = .leave o r ∨ ∃ k q v p, o = .intern k q v ∧ r = .ptr p ∧ pc = .dropArg k q v p) →
      windG f.scopes f.items = G1 ++ .unlock (cfg.lockOf o.pool) :: G2 → G1.all Glue.soft = true → G2.all Glue.soft = true →
      (cfg.owns o.pool = true ∨ pc = .leave o r → G1 = []) → Rel cfg id done (.op o byRef) f pc
  | done {o : Pool.Op K V} {byRef : Bool} {f : Fr K V} {x : Val K V} {r : Ret} : f.exiting = true →
      f.panicking = false → f.ret = some x → toRet x = some r → { tid := id, op := o, ret := r } ∈ done →
      (windG f.scopes f.items).all Glue.soft = true → Rel cfg id done (.op o byRef) f .idle
  | drop {k : K} {gs : List (Glue K V)} {ps : List Ptr} : Elem k gs →
      Rel cfg id done (.dropArena k) { scopes := [[]], items := gs.map .glue ++ ((dropCode k ps).map .stmt ++ [.close]) } .idle
  | dropped {k : K} : Rel cfg id done (.dropArena k) { scopes := [], items := [] } .idle

/-- The elements of arena `k` that a function is going to destroy. -/
def pend [DecidableEq K] (k : K) (f : Fr K V) : List Ptr := f.items.filterMap fun
  | .glue (.destroy k' p) => if k' = k then some p else none
  | .stmt (.exec (.dropElem k' p)) => if k' = k then some p else none
  | _ => none

/-- Shared memory of the code and of the model: the model has already released the boxes of arenas that are being dropped. -/
structure Shared [DecidableEq K] (gone : List K) (m : Mem K V) (s : Pool.State K V) : Prop where
  heap : s.heap = m.heap.filter fun o => decide (o.pool ∉ gone)
  table : s.table = m.table
  gone : s.gone = gone

end Src.PoolCode
