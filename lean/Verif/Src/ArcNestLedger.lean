import Verif.Src.ArcNestSpec
/-
The vocabulary of C83: who owns the values and the boxes of `ArcIntern`, in executions of `Verif/Src/ArcNest.lean`.
-/
namespace Src.ArcCode
open Arc (Addr Tid Cell Cfg Res)

variable {V : Type}

/-- What can be owned: a value outside of a box, a box with a value in it, and a box whose value has been destroyed. -/
inductive Thing (V : Type) where
  | value (v : V)
  | box (b : Addr)
  | husk (b : Addr)
  deriving DecidableEq

/-- What a variable owns. -/
def Val.things : Val V → List (Thing V)
  | .owned v => [.value v]
  | .box b | .optBox (some b) | .vacant _ b | .occupied _ b => [.box b]
  | .optBox none | .borrowed _ | .guard _ _ | .ref _ | .handle _ | .num _ => []

/-- What a piece of drop glue is going to destroy: a value, a box with its value, or the memory of a box. -/
def Glue.things : Glue V → List (Thing V)
  | .value v => [.value v]
  | .destroy b => [.box b]
  | .dealloc b => [.husk b]
  | .unlock _ | .handle _ => []

def itemThings : It V → List (Thing V)
  | .glue g => g.things
  | _ => []

def scopesThings (scs : Scopes Var (Val V)) : List (Thing V) := scs.flatMap fun sc => sc.flatMap fun x => x.2.toList.flatMap Val.things

/-- What a running function owns: the things it is already destroying, and those in its local variables. -/
def owns (f : Frame Var (Val V) Op (Glue V)) : List (Thing V) := f.items.flatMap itemThings ++ scopesThings f.scopes

def valuesOf (l : List (Thing V)) : List V := l.filterMap fun | .value v => some v | _ => none
def boxesOf (l : List (Thing V)) : List Addr := l.filterMap fun | .box b => some b | _ => none
def husksOf (l : List (Thing V)) : List Addr := l.filterMap fun | .husk b => some b | _ => none

/-- What can happen to a value: it is given to the interner (also the copies that the unsized constructors make, arc_dst.rs:96, 136-180),
it is stored in the table, it is removed from there, its destructor ends or panics. -/
inductive Move (V : Type) where
  | given (v : V)
  | stored (v : V)
  | removed (v : V)
  | destroyed (v : V)
  deriving DecidableEq

def given (l : List (Move V)) : List V := l.filterMap fun | .given v => some v | _ => none
def stored (l : List (Move V)) : List V := l.filterMap fun | .stored v => some v | _ => none
def removed (l : List (Move V)) : List V := l.filterMap fun | .removed v => some v | _ => none
def destroyed (l : List (Move V)) : List V := l.filterMap fun | .destroyed v => some v | _ => none

/-- The value in a box. -/
def dataOf (h : List (Addr × Cell V)) (b : Addr) : Option V := (Arc.get h b).map (·.data)

section
variable [BEq V] [Hashable V]

/-- What an operation does with values. -/
def opMoves (m : Mem V) (scs : Scopes Var (Val V)) : Op → List (Move V)
  | .takeOrNew c x => match scs.get c, scs.get x with
    | some (.optBox none), some (.borrowed v) => [.given v]
    | _, _ => []
  | .insert x => match scs.get x with
    | some (.vacant _ b) => (dataOf m.heap b).toList.map .stored
    | _ => []
  | .remove x => match scs.get x with
    | some (.ref b) => match Arc.get m.heap b with
      | some c => match Arc.find m.view c.data with
        | some r => (dataOf m.heap r).toList.map .removed
        | none => []
      | none => []
    | _ => []
  | _ => []

/-- What the next step of a function does with values. -/
def moves (cfg : Cfg V) (m : Mem V) (f : Frame Var (Val V) Op (Glue V)) : List (Move V) := match f.items with
  | .stmt s :: _ => if f.exiting then [] else ((lang cfg).opOf s).toList.flatMap (opMoves m f.scopes)
  | .glue (.value v) :: _ => [.destroyed v]
  | _ => []

omit [BEq V] [Hashable V] in
/-- What a panic does with values: if it is one in a destructor, the fields are dropped, but the destructor is not run again. -/
def panicMoves (f : Frame Var (Val V) Op (Glue V)) : List (Move V) := match f.items with
  | .glue (.value v) :: _ => [.destroyed v]
  | _ => []

end
end Src.ArcCode

namespace Src.ArcNest
open Arc (Addr Tid Cell Cfg Res)
open Src.ArcCode (Var Val Op Glue Mem Stack Thing owns Move moves panicMoves)

variable {V : Type}

/-- What running functions own. -/
def busy (N : State V) : List (Thing V) := N.threads.flatMap fun cs => cs.flatMap fun c => c.stack.flatMap owns

/-- What the running functions of call number `j` own. -/
def callOwns (j : Nat) (N : State V) : List (Thing V) :=
  N.threads.flatMap fun cs => (cs.filter fun c => c.id == j).flatMap fun c => c.stack.flatMap owns

section
variable [BEq V] [Hashable V]

/-- What a step does with values, and the number of the call that does it. -/
def logged (cfg : Cfg V) (N : State V) : Act V → List (Nat × Move V)
  | .new _ v false => [(N.next, .given v)]
  | .run t _ => match N.threads[t]? with
    | some (c :: _) => (c.stack.head?.toList.flatMap (moves cfg N.mem)).map fun x => (c.id, x)
    | _ => []
  | .panic t => match N.threads[t]? with
    | some (c :: _) => (c.stack.head?.toList.flatMap panicMoves).map fun x => (c.id, x)
    | _ => []
  | _ => []

/-- The states that can be reached, with what has happened to values so far, newest first. -/
inductive Ledger (cfg : Cfg V) : State V → List (Nat × Move V) → Prop
  | init : Ledger cfg init []
  | step {N N' : State V} {act : Act V} {L : List (Nat × Move V)} : Ledger cfg N L → step cfg N act = .ok N' → Few cfg N' →
      Ledger cfg N' (logged cfg N act ++ L)

end

/-- Everything that happened. -/
def all (L : List (Nat × Move V)) : List (Move V) := L.map (·.2)

/-- What call number `j` did. -/
def ofCall (j : Nat) (L : List (Nat × Move V)) : List (Move V) := L.filterMap fun x => if x.1 = j then some x.2 else none

end Src.ArcNest
