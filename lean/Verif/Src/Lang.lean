import Verif.Arc.Model
/-
A small language with Rust's rules for local variables, for running function bodies as they are written.

The interleaving models (`Verif/Arc/Model.lean`, `Verif/Pool/Model.lean`) say by hand in which order a call releases its locks and
destroys its locals, on every way out of the function. Here that order is not written down: it follows from general rules of the
language, which know nothing about the interner:

* a variable belongs to the innermost scope that is open when it is declared; when a scope is left, its variables are destroyed,
  the last declared first;
* a variable that has been moved from is not destroyed;
* `return` and a panic leave all scopes of the function, from the inside to the outside;
* destroying a value runs its drop glue: a list of primitive actions, one of which calls the type's `drop` function;
* a panic inside `drop` goes on in the caller after the rest of the drop glue, and so does a panic in a destructor of the user; a panic
  while unwinding aborts the process.

`Lang` collects what is particular to a program: its memory, primitive operations, and drop glue.
-/
namespace Src
open Arc (Res Tid)

/-- The scopes of a function that are open, innermost first, each with its variables, the last declared first. A variable has no value
if it has not been initialised yet or has been moved from. -/
abbrev Scopes (Var Val : Type) := List (List (Var × Option Val))

/-- Look a variable up in one scope. -/
def scopeGet {Var Val : Type} [DecidableEq Var] (x : Var) : List (Var × Option Val) → Option (Option Val)
  | [] => none
  | (y, v) :: sc => if y = x then some v else scopeGet x sc

/-- Give a variable of one scope a new value. -/
def scopeSet {Var Val : Type} [DecidableEq Var] (x : Var) (w : Option Val) : List (Var × Option Val) → List (Var × Option Val)
  | [] => []
  | (y, v) :: sc => if y = x then (y, w) :: sc else (y, v) :: scopeSet x w sc

/-- The value of the innermost variable of this name. -/
def Scopes.get {Var Val : Type} [DecidableEq Var] (x : Var) : Scopes Var Val → Option Val
  | [] => none
  | sc :: scs => match scopeGet x sc with
    | some v => v
    | none => Scopes.get x scs

/-- Give the innermost variable of this name a new value. -/
def Scopes.set {Var Val : Type} [DecidableEq Var] (x : Var) (w : Option Val) : Scopes Var Val → Scopes Var Val
  | [] => []
  | sc :: scs => match scopeGet x sc with
    | some _ => scopeSet x w sc :: scs
    | none => sc :: Scopes.set x w scs

/-- Declare a variable in the innermost scope. -/
def Scopes.declare {Var Val : Type} (x : Var) (v : Option Val) : Scopes Var Val → Scopes Var Val
  | [] => []
  | sc :: scs => ((x, v) :: sc) :: scs

/-- Statements. Blocks are lists of statements. An operation yields the number of the branch to take and maybe a value. -/
inductive Stmt (Var Op : Type) where
  /-- `let x = op;` -/
  | bind (x : Var) (op : Op)
  /-- `let x;` -/
  | uninit (x : Var)
  /-- `x = op;` for a variable declared before; its old value, if it has one, is destroyed. -/
  | assign (x : Var) (op : Op)
  /-- `op;` -/
  | exec (op : Op)
  /-- `match op { P0(x) => { .. } P1(x) => { .. } }`, in particular `if let` and `if`. -/
  | choose (x : Var) (op : Op) (arm0 arm1 : List (Stmt Var Op))
  /-- `{ .. }` -/
  | block (l : List (Stmt Var Op))
  /-- `loop { .. }` -/
  | loop (l : List (Stmt Var Op))
  /-- `return op;` -/
  | ret (op : Op)

/-- What a running function still has to do. -/
inductive Item (Var Op Glue : Type) where
  | stmt (s : Stmt Var Op)
  /-- leave the innermost scope. -/
  | close
  /-- the end of the body of a `loop`. -/
  | again (l : List (Stmt Var Op))
  /-- run a piece of drop glue. -/
  | glue (g : Glue)

/-- A function being executed: its variables, what it still has to do, whether it is on its way out, the value to be returned, and
whether it is on its way out because of a panic. -/
structure Frame (Var Val Op Glue : Type) where
  scopes : Scopes Var Val
  items : List (Item Var Op Glue)
  exiting : Bool := false
  ret : Option Val := none
  panicking : Bool := false

/-- What an operation does: the new memory, the variables that are left (some may have been moved from), the branch and the value. -/
structure Done (Mem Var Val : Type) where
  mem : Mem
  scopes : Scopes Var Val
  arm : Nat := 0
  val : Option Val := none

/-- What is particular to a program. -/
structure Lang where
  Mem : Type
  Var : Type
  Val : Type
  Op : Type
  Glue : Type
  dec : DecidableEq Var
  /-- the drop glue of a value. -/
  glue : Val → List Glue
  /-- thread `t` executes an operation; `a` is the address that the allocator returns if it allocates. -/
  exec : Mem → Tid → Nat → Scopes Var Val → Op → Res (Done Mem Var Val)
  /-- user code called by an operation panics: the variables that are left, and what the called function destroys before it unwinds
  to this one. `none` if the operation calls no user code (or cannot do it now, because it waits for a lock). -/
  panics : Mem → Scopes Var Val → Op → Option (Scopes Var Val × List Glue)
  /-- thread `t` runs a piece of drop glue: the new memory, glue to run next, and maybe a function to call first. -/
  drop : Mem → Tid → Glue → Res (Mem × List Glue × Option (Frame Var Val Op Glue))
  /-- does this piece of drop glue call a destructor written by the user, which may panic? -/
  userDrop : Glue → Bool

namespace Lang
attribute [instance] Lang.dec
variable (L : Lang)

abbrev TFrame := Frame L.Var L.Val L.Op L.Glue
abbrev TItem := Item L.Var L.Op L.Glue

/-- A thread is a stack of running functions; an empty one is between two calls. -/
abbrev Stack := List L.TFrame

/-- Start of a function with the given parameters: its body is a scope. -/
def enter (params : List (L.Var × Option L.Val)) (body : List (Stmt L.Var L.Op)) : L.TFrame :=
  { scopes := [params], items := body.map .stmt ++ [.close] }

/-- The drop glue of a scope that is left. -/
def scopeGlue (sc : List (L.Var × Option L.Val)) : List L.TItem := (sc.flatMap fun x => x.2.toList.flatMap L.glue).map .glue

/-- One step of the innermost function `f` that executes statement `s`, with `r` to be done after it. -/
def stmt (m : L.Mem) (t : Tid) (a : Nat) (f : L.TFrame) (r : List L.TItem) (s : Stmt L.Var L.Op) : Res (L.Mem × L.TFrame) :=
  match s with
  | .uninit x => .ok (m, { f with scopes := f.scopes.declare x none, items := r })
  | .bind x op => match L.exec m t a f.scopes op with
    | .ok d => .ok (d.mem, { f with scopes := d.scopes.declare x d.val, items := r })
    | .blocked => .blocked
    | .ub => .ub
  | .assign x op => match L.exec m t a f.scopes op with
    | .ok d => .ok (d.mem, { f with
        scopes := d.scopes.set x d.val
        items := ((d.scopes.get x).toList.flatMap L.glue).map .glue ++ r })
    | .blocked => .blocked
    | .ub => .ub
  | .exec op => match L.exec m t a f.scopes op with
    | .ok d => .ok (d.mem, { f with scopes := d.scopes, items := (d.val.toList.flatMap L.glue).map .glue ++ r })
    | .blocked => .blocked
    | .ub => .ub
  | .choose x op arm0 arm1 => match L.exec m t a f.scopes op with
    | .ok d => .ok (d.mem, { f with
        scopes := [(x, d.val)] :: d.scopes
        items := (if d.arm = 0 then arm0 else arm1).map .stmt ++ .close :: r })
    | .blocked => .blocked
    | .ub => .ub
  | .block l => .ok (m, { f with scopes := [] :: f.scopes, items := l.map .stmt ++ .close :: r })
  | .loop l => .ok (m, { f with items := .stmt (.block l) :: .again l :: r })
  | .ret op => match L.exec m t a f.scopes op with
    | .ok d => .ok (d.mem, { f with scopes := d.scopes, items := r, exiting := true, ret := d.val })
    | .blocked => .blocked
    | .ub => .ub

/-- One step of a thread: the new memory, the new stack, and the result if this was the end of the outermost function. -/
def run (m : L.Mem) (t : Tid) (a : Nat) : L.Stack → Res (L.Mem × L.Stack × Option L.Val)
  | [] => .blocked
  | f :: fs => match f.items with
    | [] => match fs with
      | [] => .ok (m, [], f.ret)
      -- the caller goes on; if the function has panicked, so does the caller
      | g :: gs => .ok (m, { g with exiting := g.exiting || f.panicking, panicking := g.panicking || f.panicking } :: gs, none)
    | .glue g :: r => match L.drop m t g with
      | .ok (m', more, callee) => .ok (m', callee.toList ++ { f with items := more.map .glue ++ r } :: fs, none)
      | .blocked => .blocked
      | .ub => .ub
    | .close :: r => match f.scopes with
      | sc :: scs => .ok (m, { f with scopes := scs, items := L.scopeGlue sc ++ r } :: fs, none)
      | [] => .ub
    | .again l :: r => if f.exiting then .ok (m, { f with items := r } :: fs, none)
      else .ok (m, { f with items := .stmt (.block l) :: .again l :: r } :: fs, none)
    | .stmt s :: r => if f.exiting then .ok (m, { f with items := r } :: fs, none)
      else match L.stmt m t a f r s with
        | .ok (m', f') => .ok (m', f' :: fs, none)
        | .blocked => .blocked
        | .ub => .ub

/-- The operation a statement starts with. -/
def opOf : Stmt L.Var L.Op → Option L.Op
  | .bind _ op | .assign _ op | .exec op | .choose _ op _ _ | .ret op => some op
  | .uninit _ | .block _ | .loop _ => none

/-- User code panics in the operation, or in the piece of drop glue, that a thread is about to perform. A second panic while unwinding
ends the process, which is not a step. -/
def panic (m : L.Mem) : L.Stack → Res L.Stack
  | [] => .blocked
  | f :: fs =>
    if (f :: fs).any (·.panicking) then .blocked
    else match f.items with
      | .stmt s :: r => if f.exiting then .blocked else match L.opOf s with
        | some op => match L.panics m f.scopes op with
          | some (scopes, glue) => .ok ({ f with scopes, items := glue.map .glue ++ r, exiting := true, panicking := true } :: fs)
          | none => .blocked
        | none => .blocked
      | .glue g :: r =>
        if L.userDrop g then .ok ({ f with items := r, exiting := true, panicking := true } :: fs) else .blocked
      | _ => .blocked

end Lang
end Src
