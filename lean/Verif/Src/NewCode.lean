import Verif.Src.Lang
import Verif.Pool.Spec
/-
`NewIntern` as it is written: `with_mutex_hashset` (typearena.rs:23-84) and the closures given to it by `new` (260-269), `from` (275-287),
`via_box` (208-221), `From<Box<T>>` (224-235) and `num_objects_interned` (300-302), statement by statement, in the language of
`Verif/Src/Lang.lean`.

When the lock is released and when locals are destroyed, on all ways out, and whether a panic poisons the mutex, comes from the language and
from the rules of `std::sync::Mutex`. User code (`Hash`, `Eq`, `Borrow`, `From` and destructors) may call these functions again, to any depth.

Simplifications: a loop over an `AppendOnlyVec` looks at the elements that the thread can see in one step (its body returns or does nothing,
and elements never change their place; C68 has the loads one by one); the benchmarking-only `clear` is left out; a `Box<T>` given to
`From<Box<T>>` is modelled by the value in it, which is boxed when it is stored. A thread that locks a mutex that it holds already waits for
ever (the documentation of `Mutex` also allows a panic).
-/
namespace Src.NewCode
open Arc (Res)
open Pool (Tid Ptr Query Ret Obj Entry)

/-- What is known about types: `typeId k` is `TypeId::of::<Mutex<HashSet<T>>>()` of type `k`, `shard k` the index of its vector
(`hash_of_type::<T>() % CONTAINER_COUNT`, typearena.rs:29-61, 64; C29), and the layout of values as in `Verif/Pool/Model.lean`. -/
structure Cfg (K V : Type) where
  typeId : K → Nat
  shard : K → Nat
  zst : K → V → Bool
  info : K → V → Nat
  dangle : K → V → Nat

/-- For the allocation of boxes, which is as in `Verif/Pool/Model.lean`; no pool is an arena, and each type has a lock of its own. -/
def Cfg.pool {K V : Type} (cfg : Cfg K V) : Pool.Cfg K V :=
  { lockOf := cfg.typeId, owns := fun _ => false, zst := cfg.zst, info := cfg.info, dangle := cfg.dangle }

/-- Different types have different `TypeId`s; facts about memory layout as in `Verif/Pool/Model.lean`. -/
structure Cfg.Layout {K V : Type} (cfg : Cfg K V) : Prop where
  types : ∀ k k', cfg.typeId k = cfg.typeId k' → k = k'
  memory : cfg.pool.Layout

/-- The names of the variables. `f` is the closure given to `with_mutex_hashset`, `v` the reference to the mutex in an element of the vector
(typearena.rs:65, 78), `m` the guard (66, 79), `n` the number of elements after the thread's own `push` (71; the code does not look at it),
`bx` the new box before it is leaked, `t` the value built by `From`, `val`, `b` and `p` as in the source. -/
inductive Var
  | f | v | m | n | val | b | bx | t | p
  deriving DecidableEq, Repr

/-- What a variable can contain. -/
inductive Val (K V : Type) where
  /-- an argument given by value: the key it is looked up by, and its content. -/
  | arg (k : K) (q : Query V) (v : V)
  /-- an argument given by reference, and what `From` makes of it. -/
  | argRef (k : K) (q : Query V) (v : V)
  /-- a `T`. -/
  | owned (k : K) (v : V)
  /-- a `Box<T>`. -/
  | box (k : K) (p : Ptr)
  /-- a `&'static T`. -/
  | ptr (p : Ptr)
  /-- a reference to the mutex in element `pos` of vector `s`. -/
  | cell (s pos : Nat)
  /-- the guard of this mutex; `was`: the thread was panicking when it took the mutex. -/
  | guard (s pos : Nat) (was : Bool)
  | num (n : Nat)
  | unit

/-- Primitive operations: each accesses shared memory at most once. -/
inductive Op (K : Type) where
  /-- `for v in CONTAINERS[..].iter() { if let Some(m) = v.0.downcast_ref::<Mutex<HashSet<T>>>() {` (typearena.rs:64-65, 77-78). -/
  | find (k : K)
  /-- `CONTAINERS[..].push(AnySend(Box::new(Mutex::new(HashSet::new()))))` (70-71). -/
  | push (k : K)
  /-- `x.lock().unwrap()` (66, 79). -/
  | lock (x : Var)
  /-- `m.get(x)` (boxedset.rs:53-67). -/
  | get (k : K) (x : Var)
  /-- `T::from(x)` (283), `Box::from(x)` (217). -/
  | from (x : Var)
  /-- `Box::new(x)` (265, 283). -/
  | boxNew (x : Var)
  /-- `Box::leak(x)` (217, 230, 265, 283). -/
  | leak (x : Var)
  /-- `Intern { pointer: x }`. -/
  | ptrOf (x : Var)
  /-- `m.insert(x)` (boxedset.rs:81-83). -/
  | insert (k : K) (x : Var)
  /-- `m.len()` (boxedset.rs:85-87). -/
  | len
  /-- the value of a variable. -/
  | move (x : Var)
  /-- `unreachable!()` (83). -/
  | unreachable

/-- Drop glue. -/
inductive Glue (K V : Type) where
  /-- the destructor of a value starts. -/
  | value (k : K) (v : V)
  /-- it is running: code of the user, which may panic. -/
  | user
  /-- dropping a guard releases the mutex, and may poison it. -/
  | unlock (s pos : Nat) (was : Bool)
  /-- dropping a box destroys its content, and then releases its memory. -/
  | destroy (k : K) (p : Ptr)
  /-- release the memory of a box. -/
  | dealloc (k : K) (p : Ptr)
  deriving DecidableEq

/-- `AnySend(Box<Mutex<HashSet<&'static T>>>)` (typearena.rs:16): the `TypeId` of the mutex, the elements of the set, newest first, the holder of
the mutex, and its poison flag. -/
structure Cell where
  tid : Nat
  set : List Ptr
  owner : Option Tid
  poisoned : Bool

/-- Shared memory.
* `heap`: the boxes that contain a value.
* `husks`: boxes whose content is being destroyed, and whose memory has not been released.
* `cells s`: vector `s` of `CONTAINERS` (typearena.rs:18-21).
* `panicking`: what `std::thread::panicking()` answers to the thread that is executing a step (set by `step`).
* `born`, `dead`: the values that have been given to an interning function or built by `From`, and those whose destructor has started. Nothing
  depends on them. -/
structure Mem (K V : Type) where
  heap : List (Obj K V)
  husks : List (Obj K V)
  cells : Nat → List Cell
  panicking : Bool
  born : List (K × V)
  dead : List (K × V)

section
variable {K V : Type}

abbrev St (K : Type) := Stmt Var (Op K)
abbrev It (K V : Type) := Item Var (Op K) (Glue K V)
abbrev Fr (K V : Type) := Frame Var (Val K V) (Op K) (Glue K V)

/-- `let mut m = m.lock().unwrap(); return f(m.deref_mut());` (typearena.rs:66-67, 79-80). The closure owns the variables it has captured, here
one, `val`. Returning from it is returning from `with_mutex_hashset`. -/
def locked (body : List (St K)) : List (St K) := [
  .bind .m (.lock .v),
  .block (.bind .val (.move .f) :: body)]

/-- `with_mutex_hashset` (typearena.rs:63-83). -/
def withSet (k : K) (body : List (St K)) : List (St K) := [
  .choose .v (.find k) (locked body) [],
  .bind .n (.push k),
  .choose .v (.find k) (locked body) [],
  .exec .unreachable]

/-- The closures of `new` (261-268) and `From<Box<T>>` (226-233); by reference those of `from` (279-286) and `via_box` (213-220). -/
def internBody (k : K) (byRef : Bool) : List (St K) :=
  .choose .b (.get k .val) [.ret (.ptrOf .b)] [] ::
  ((if byRef then [.bind .t (.from .val)] else []) ++ [
  .bind .bx (.boxNew (if byRef then .t else .val)),
  .bind .p (.leak .bx),
  .exec (.insert k .p),
  .ret (.ptrOf .p)])

/-- The closure of `num_objects_interned` (301). -/
def lenBody : List (St K) := [.ret .len]

/-- The drop glue of a value. -/
def glue : Val K V → List (Glue K V)
  | .arg k _ v | .owned k v => [.value k v]
  | .box k p => [.destroy k p]
  | .guard s pos was => [.unlock s pos was]
  | .argRef _ _ _ | .ptr _ | .cell _ _ | .num _ | .unit => []

/-- Memory with one set, for lookups as in `Verif/Pool/Model.lean`. -/
def Mem.view (m : Mem K V) (l : List Ptr) : Pool.State K V :=
  { heap := m.heap, table := fun _ => l, lock := fun _ => none, threads := [], log := [], done := [], gone := [] }

/-- Memory, for allocations: all the memory that is in use. -/
def Mem.used (m : Mem K V) : Pool.State K V := { m.view [] with heap := m.heap ++ m.husks }

def Mem.cell (m : Mem K V) (s pos : Nat) : Option Cell := (m.cells s)[pos]?

def Mem.setCell (m : Mem K V) (s pos : Nat) (c : Cell) : Mem K V :=
  { m with cells := fun j => if j = s then (m.cells s).set pos c else m.cells j }

/-- Append an element to vector `s`. -/
def Mem.push (m : Mem K V) (s : Nat) (c : Cell) : Mem K V := { m with cells := fun j => if j = s then m.cells s ++ [c] else m.cells j }

/-- The number of elements that a thread must see: those up to its own last push. -/
def pushed (sc : Scopes Var (Val K V)) : Nat := match sc.get .n with
  | some (.num n) => n
  | _ => 0

/-- The set that the guard in variable `m` gives access to. -/
def setOf (m : Mem K V) (sc : Scopes Var (Val K V)) : Option (Nat × Nat × Cell) := match sc.get .m with
  | some (.guard s pos _) => (m.cell s pos).map fun c => (s, pos, c)
  | _ => none

variable [DecidableEq K]

/-- Run an operation. Using a variable that has been moved from is `ub` (the compiler does not allow it), and so is touching memory that
contains no value, and `unreachable!()`. If the operation iterates over a vector, `a` is the number of elements that the thread sees: the length
of an `AppendOnlyVec` is an atomic counter, a thread may read an old value of it, but not one older than its own last push. -/
def exec [BEq V] [Hashable V] (cfg : Cfg K V) (m : Mem K V) (t : Tid) (a : Nat) (sc : Scopes Var (Val K V)) :
    Op K → Res (Done (Mem K V) Var (Val K V))
  | .find k =>
    if a < pushed sc ∨ (m.cells (cfg.shard k)).length < a then .blocked
    else match ((m.cells (cfg.shard k)).take a).findIdx? (fun c => decide (c.tid = cfg.typeId k)) with
      | some pos => .ok { mem := m, scopes := sc, arm := 0, val := some (.cell (cfg.shard k) pos) }
      | none => .ok { mem := m, scopes := sc, arm := 1 }
  | .push k => .ok {
      mem := m.push (cfg.shard k) { tid := cfg.typeId k, set := [], owner := none, poisoned := false }
      scopes := sc
      val := some (.num ((m.cells (cfg.shard k)).length + 1)) }
  | .lock x => match sc.get x with
    | some (.cell s pos) => match m.cell s pos with
      | some c =>
        -- a poisoned mutex: see `panics`
        if c.owner.isSome || c.poisoned then .blocked
        else .ok { mem := m.setCell s pos { c with owner := some t }, scopes := sc, val := some (.guard s pos m.panicking) }
      | none => .ub
    | _ => .ub
  | .get k x => match setOf m sc, sc.get x with
    | some (_, _, c), some (.arg _ q _) | some (_, _, c), some (.argRef _ q _) =>
      if Pool.tableOk (m.view c.set) k then
        match Pool.find (m.view c.set) k q with
        | some p => .ok { mem := m, scopes := sc, arm := 0, val := some (.ptr p) }
        | none => .ok { mem := m, scopes := sc, arm := 1 }
      else .ub
    | _, _ => .ub
  | .from x => match sc.get x with
    | some (.argRef k _ v) => .ok { mem := { m with born := (k, v) :: m.born }, scopes := sc, val := some (.owned k v) }
    | _ => .ub
  | .boxNew x => match sc.get x with
    | some (.arg k _ v) | some (.owned k v) => match Pool.allocAt cfg.pool m.used k v a with
      | none => .blocked
      | some addr => .ok {
          mem := { m with heap := { pool := k, ptr := { addr := addr, info := cfg.info k v }, val := v } :: m.heap }
          scopes := sc.set x none
          val := some (.box k { addr := addr, info := cfg.info k v }) }
    | _ => .ub
  | .leak x => match sc.get x with
    | some (.box _ p) => .ok { mem := m, scopes := sc.set x none, val := some (.ptr p) }
    | _ => .ub
  | .ptrOf x => match sc.get x with
    | some (.ptr p) => .ok { mem := m, scopes := sc, val := some (.ptr p) }
    | _ => .ub
  -- looks the key up; if an equal key is present that one stays
  | .insert k x => match setOf m sc, sc.get x with
    | some (s, pos, c), some (.ptr p) => match Pool.tableOk (m.view c.set) k, Pool.deref (m.view c.set) k p with
      | true, some v => match Pool.find (m.view c.set) k (.ofVal v) with
        | some _ => .ok { mem := m, scopes := sc }
        | none => .ok { mem := m.setCell s pos { c with set := p :: c.set }, scopes := sc }
      | _, _ => .ub
    | _, _ => .ub
  | .len => match setOf m sc with
    | some (_, _, c) => .ok { mem := m, scopes := sc, val := some (.num c.set.length) }
    | none => .ub
  | .move x => match sc.get x with
    | some v => .ok { mem := m, scopes := sc.set x none, val := some v }
    | none => .ub
  | .unreachable => .ub

omit [DecidableEq K] in
/-- `Hash`, `Eq`, `Borrow` and `From` may panic, and `unwrap` panics if the mutex is poisoned; the guard in the `PoisonError` is dropped at once
(dropping it changes nothing: the mutex is poisoned already). -/
def panics (m : Mem K V) (sc : Scopes Var (Val K V)) : Op K → Option (Scopes Var (Val K V) × List (Glue K V))
  | .get _ _ | .from _ | .insert _ _ => some (sc, [])
  | .lock x => match sc.get x with
    | some (.cell s pos) => match m.cell s pos with
      | some c => if c.owner.isNone && c.poisoned then some (sc, []) else none
      | none => none
    | _ => none
  | _ => none

/-- Run a piece of drop glue. The drop of a `MutexGuard` poisons the mutex if the thread is panicking and was not panicking when it took the
mutex (`std::sync::poison::Flag::done`). -/
def drop (m : Mem K V) : Glue K V → Res (Mem K V × List (Glue K V) × Option (Fr K V))
  | .value k v => .ok ({ m with dead := (k, v) :: m.dead }, [.user], none)
  | .user => .ok (m, [], none)
  | .unlock s pos was => match m.cell s pos with
    | some c => .ok (m.setCell s pos { c with owner := none, poisoned := c.poisoned || (m.panicking && !was) }, [], none)
    | none => .ub
  | .destroy k p => match m.heap.find? (Obj.is k p) with
    | some o => .ok ({ m with heap := Pool.free m.heap k p, husks := o :: m.husks }, [.value k o.val, .dealloc k p], none)
    | none => .ub
  | .dealloc k p => match m.husks.find? (Obj.is k p) with
    | some _ => .ok ({ m with husks := Pool.free m.husks k p }, [], none)
    | none => .ub

omit [DecidableEq K] in
/-- Is this the body of a destructor of the user? -/
def userDrop : Glue K V → Bool
  | .user => true
  | _ => false

/-- The program. -/
abbrev lang [BEq V] [Hashable V] (cfg : Cfg K V) : Lang where
  Mem := Mem K V
  Var := Var
  Val := Val K V
  Op := Op K
  Glue := Glue K V
  dec := inferInstance
  glue := glue
  exec := exec cfg
  panics := panics
  drop := fun m _ g => drop m g
  userDrop := userDrop

/-- A call that is being executed: its number (all calls are numbered in the order in which they start), what it does (the argument given by
reference or not), whether the client that made it was unwinding itself (the call is made by a destructor of the client), and the function. -/
structure Running (K V : Type) where
  id : Nat
  op : Pool.Op K V
  byRef : Bool
  unw : Bool
  frame : Fr K V

/-- What clients see: the start of a call, its return, and its end by a panic. -/
inductive Event (K V : Type) where
  | call (id : Nat) (o : Pool.Op K V)
  | ret (e : Entry K V)
  | panicked (id : Nat) (o : Pool.Op K V)

/-- The whole program: shared memory, for each thread the calls that it is executing, innermost first, the number of calls so far, and what clients
have seen, newest first. -/
structure State (K V : Type) where
  mem : Mem K V
  threads : List (List (Running K V))
  next : Nat
  hist : List (Event K V)

def init : State K V :=
  { mem := { heap := [], husks := [], cells := fun _ => [], panicking := false, born := [], dead := [] }, threads := [], next := 0, hist := [] }

/-- Actions. -/
inductive Act (K V : Type) where
  | spawn
  /-- thread `t` starts a call, between two calls or from user code, which may be unwinding (`unw`). -/
  | call (t : Tid) (o : Pool.Op K V) (byRef unw : Bool)
  /-- one step of the innermost function of thread `t`; `a` is the allocator's answer, if the step allocates, or the length of the vector that the
  thread sees. -/
  | run (t : Tid) (a : Nat)
  /-- user code that is running on thread `t` panics. (A panic that leaves a call is caught by the user code that made the call; that code may
  then panic itself.) -/
  | panic (t : Tid)

/-- Start of the function: its variables and its body. -/
def start [BEq V] [Hashable V] (cfg : Cfg K V) : Pool.Op K V → Bool → Option (Fr K V)
  | .intern k q v, byRef =>
    some ((lang cfg).enter [(.f, some (if byRef then .argRef k q v else .arg k q v))] (withSet k (internBody k byRef)))
  | .len k, _ => some ((lang cfg).enter [(.f, some .unit)] (withSet k lenBody))
  | .query _ _, _ | .clear _, _ => none

/-- The values that a call takes over from its caller. -/
def taken : Pool.Op K V → Bool → List (K × V)
  | .intern k _ v, false => [(k, v)]
  | _, _ => []

/-- Is user code running, or going to run, in the next step of a function? That code may start calls. -/
def userNext [BEq V] [Hashable V] (cfg : Cfg K V) (f : Fr K V) : Bool := match f.items with
  | .glue .user :: _ => true
  | .stmt s :: _ => !f.exiting && match (lang cfg).opOf s with
    | some (.get _ _) | some (.from _) | some (.insert _ _) => true
    | _ => false
  | _ => false

/-- Can a thread start a call now? -/
def canCall [BEq V] [Hashable V] (cfg : Cfg K V) : List (Running K V) → Bool
  | [] => true
  | c :: _ => userNext cfg c.frame

omit [DecidableEq K] in
/-- `std::thread::panicking()`: the thread is unwinding, in one of the calls that it is executing or in the code of a client. -/
def unwinding (cs : List (Running K V)) : Bool := cs.any fun c => c.unw || c.frame.panicking

/-- Is the function about to `unwrap` the lock of a poisoned mutex that is free? -/
def refused [BEq V] [Hashable V] (cfg : Cfg K V) (m : Mem K V) (f : Fr K V) : Bool := match f.items with
  | .stmt s :: _ => !f.exiting && match (lang cfg).opOf s with
    | some (.lock x) => (panics m f.scopes (.lock x)).isSome
    | _ => false
  | _ => false

omit [DecidableEq K] in
/-- The result that a client gets. -/
def toRet : Val K V → Option Ret
  | .ptr p => some (.ptr p)
  | .num n => some (.num n)
  | _ => none

omit [DecidableEq K] in
/-- What clients see when a call ends with result `r`. -/
def ends (c : Running K V) (r : Option (Val K V)) : List (Event K V) :=
  if c.frame.panicking then [.panicked c.id c.op] else (r.bind toRet).toList.map fun r => .ret { tid := c.id, op := c.op, ret := r }

/-- The memory as the innermost function of a thread with these calls sees it. -/
def State.seen (S : State K V) (cs : List (Running K V)) : Mem K V := { S.mem with panicking := unwinding cs }

/-- The innermost function of thread `t` panics. -/
def unwind [BEq V] [Hashable V] (cfg : Cfg K V) (S : State K V) (t : Tid) (c : Running K V) (cs : List (Running K V)) : Res (State K V) :=
  match (lang cfg).panic (S.seen (c :: cs)) [c.frame] with
  | .ok (f :: _) => .ok { S with threads := S.threads.set t ({ c with frame := f } :: cs) }
  | .ok [] => .blocked
  | .blocked => .blocked
  | .ub => .ub

/-- The transition function. -/
def step [BEq V] [Hashable V] (cfg : Cfg K V) (S : State K V) : Act K V → Res (State K V)
  | .spawn => .ok { S with threads := S.threads ++ [[]] }
  | .call t o byRef unw => match S.threads[t]?, start cfg o byRef with
    | some cs, some f =>
      if canCall cfg cs then
        .ok { S with
          mem := { S.mem with born := taken o byRef ++ S.mem.born }
          threads := S.threads.set t ({ id := S.next, op := o, byRef, unw, frame := f } :: cs)
          next := S.next + 1
          hist := .call S.next o :: S.hist }
      else .blocked
    | _, _ => .blocked
  | .run t a => match S.threads[t]? with
    | some (c :: cs) =>
      if refused cfg S.mem c.frame then unwind cfg S t c cs
      else match (lang cfg).run (S.seen (c :: cs)) t a [c.frame] with
        | .ok (m, [], r) => .ok { S with mem := m, threads := S.threads.set t cs, hist := ends c r ++ S.hist }
        | .ok (m, f :: _, _) => .ok { S with mem := m, threads := S.threads.set t ({ c with frame := f } :: cs) }
        | .blocked => .blocked
        | .ub => .ub
    | _ => .blocked
  | .panic t => match S.threads[t]? with
    | some (c :: cs) => if userNext cfg c.frame then unwind cfg S t c cs else .blocked
    | _ => .blocked

end
end Src.NewCode
