import Verif.Src.Lang
import Verif.Pool.Spec
/-
`Intern` and `Arena` as they are written: the bodies of the interning functions and of the queries (intern.rs:151-178, 210-251, 274-280,
through container.rs:83-122; arena.rs:118-174, 406-424) and the destruction of an arena, statement by statement, in the language of
`Verif/Src/Lang.lean`.

The order in which the lock is released and locals are destroyed, on all ways out of these functions, comes from the language. User code
(`Hash`, `Eq`, `Borrow`, `From` and destructors) may call these functions again, to any depth.

Simplifications: one mutex and one set per pool as in `Verif/Pool/Model.lean` (see there; how the sets of `Intern` are found is C14-C16,
C28); the benchmarking-only `clear` is left out; a `Box<T>` given to `From<Box<T>>` or to `intern_from_owned` is modelled by the value in
it, which is boxed when it is stored.
-/
namespace Src.PoolCode
open Arc (Res)
open Pool (Tid Ptr Query Ret Obj Cfg Entry)

/-- The names of the variables. `f` is the closure given to `with` (container.rs:83), `m` the guard, `bx` the new box before it is leaked
(intern.rs:215), `t` the value built by `From` (intern.rs:233), `b` and `p` as in the source. -/
inductive Var
  | f | val | m | b | bx | t | p
  deriving DecidableEq, Repr

/-- What a variable can contain. -/
inductive Val (K V : Type) where
  /-- an argument given by value: the key it is looked up by, and its content. -/
  | arg (k : K) (q : Query V) (v : V)
  /-- an argument given by reference, and what `From` makes of it. -/
  | argRef (k : K) (q : Query V) (v : V)
  /-- a reference that is only looked up (intern.rs:274). -/
  | key (q : Query V)
  /-- a `T`. -/
  | owned (k : K) (v : V)
  /-- a `Box<T>`. -/
  | box (k : K) (p : Ptr)
  /-- a `&T`, `*const T` or a handle. -/
  | ptr (p : Ptr)
  /-- the guard of a mutex. -/
  | guard (i : Nat)
  | bool (b : Bool)
  | num (n : Nat)
  | unit

/-- Primitive operations: each accesses shared memory at most once. -/
inductive Op (K : Type) where
  /-- `get_mut()` (container.rs:53-64, arena.rs:60-70): takes the mutex; poisoning is ignored. -/
  | lock (k : K)
  /-- `m.get(x)` (boxedset.rs:53-67). -/
  | get (k : K) (x : Var)
  /-- `T::from(x)` (intern.rs:233), `x.into()` (arena.rs:148, 418). -/
  | from (x : Var)
  /-- `Box::new(x)` (intern.rs:215, arena.rs:126). -/
  | boxNew (x : Var)
  /-- `Box::leak(x)` (intern.rs:215). -/
  | leak (x : Var)
  /-- `x.as_ref() as *const T`, `Intern { pointer: x }` (arena.rs:121, 127, intern.rs:213, 217). -/
  | ptrOf (x : Var)
  /-- `m.insert(x)` (boxedset.rs:81-83). -/
  | insert (k : K) (x : Var)
  /-- `m.len()` (boxedset.rs:85-87). -/
  | len (k : K)
  /-- `true` or `false`. -/
  | bool (b : Bool)
  /-- the value of a variable. -/
  | move (x : Var)
  /-- the next element of a table that is being destroyed. -/
  | dropElem (k : K) (p : Ptr)

/-- Drop glue. -/
inductive Glue (K V : Type) where
  /-- the destructor of a value starts. -/
  | value (k : K) (v : V)
  /-- it is running: code of the user, which may panic. -/
  | user
  /-- dropping a guard releases the mutex. -/
  | unlock (i : Nat)
  /-- dropping a box destroys its content, and then releases its memory. -/
  | destroy (k : K) (p : Ptr)
  /-- release the memory of a box. -/
  | dealloc (k : K) (p : Ptr)
  deriving DecidableEq

/-- Shared memory.
* `heap`: the boxes that contain a value.
* `husks`: boxes whose content is being destroyed, and whose memory has not been released.
* `table k`: the elements of the set of pool `k`, newest first.
* `lock i`: the holder of mutex `i`.
* `born`, `dead`: the values that have been given to an interning function or built by `From`, and those whose destructor has started. Nothing
  depends on them. -/
structure Mem (K V : Type) where
  heap : List (Obj K V)
  husks : List (Obj K V)
  table : K → List Ptr
  lock : Nat → Option Tid
  born : List (K × V)
  dead : List (K × V)

section
variable {K V : Type}

abbrev St (K : Type) := Stmt Var (Op K)
abbrev It (K V : Type) := Item Var (Op K) (Glue K V)
abbrev Fr (K V : Type) := Frame Var (Val K V) (Op K) (Glue K V)

/-- `Arena::with` of container.rs:117-121: the guard is a temporary that lives until the closure `f` has returned. The closure owns the
variables it has captured, here one, `val`. It is called in tail position, so that returning from it is returning from `with`. -/
def withLock (k : K) (body : List (St K)) : List (St K) := [
  .bind .m (.lock k),
  .block (.bind .val (.move .f) :: body)]

/-- What follows a lookup that has missed, up to the new box (intern.rs:215, 233, 161, 175; arena.rs:126, 148, 167, 418). -/
def make (byRef : Bool) : List (St K) :=
  (if byRef then [.bind .t (.from .val)] else []) ++ [.bind .bx (.boxNew (if byRef then .t else .val))]

/-- intern.rs:215-217, after the box has been made. -/
def internTail (k : K) : List (St K) := [.bind .p (.leak .bx), .exec (.insert k .p), .ret (.ptrOf .p)]

/-- `Intern::new` (intern.rs:210-219), `From<Box<T>>` (167-178); by reference `from_ref` (225-237) and `via_box` (151-164). -/
def internCode (k : K) (byRef : Bool) : List (St K) := withLock k
  (.choose .b (.get k .val) [.ret (.ptrOf .b)] [] :: make byRef ++ internTail k)

/-- arena.rs:127-131, after the box has been made. -/
def arenaTail (k : K) : List (St K) := [.bind .p (.ptrOf .bx), .exec (.insert k .bx), .ret (.ptrOf .p)]

/-- `Arena::intern` (arena.rs:118-132), `intern_from_owned` (156-174); by reference `intern_ref` (136-155), `intern_from` (406-424). -/
def arenaCode (k : K) (byRef : Bool) : List (St K) :=
  .bind .m (.lock k) ::
  .choose .b (.get k .val) [.bind .p (.ptrOf .b), .ret (.ptrOf .p)] [] ::
  make byRef ++ arenaTail k

/-- `Intern::is_interned` (intern.rs:274-279). -/
def queryCode (k : K) : List (St K) := withLock k [.choose .b (.get k .val) [.ret (.bool true)] [.ret (.bool false)]]

/-- `Intern::num_objects_interned` (intern.rs:249-251). -/
def lenCode (k : K) : List (St K) := withLock k [.ret (.len k)]

/-- The drop glue of the `HashSet<Box<T>>` of an arena destroys the elements one after the other; if a destructor panics, hashbrown leaves
the other elements as they are. -/
def dropCode (k : K) (l : List Ptr) : List (St K) := l.map fun p => .exec (.dropElem k p)

/-- The drop glue of a value. -/
def glue : Val K V → List (Glue K V)
  | .arg k _ v | .owned k v => [.value k v]
  | .box k p => [.destroy k p]
  | .guard i => [.unlock i]
  | .argRef _ _ _ | .key _ | .ptr _ | .bool _ | .num _ | .unit => []

/-- Memory, for lookups as in `Verif/Pool/Model.lean`. -/
def Mem.view (m : Mem K V) : Pool.State K V :=
  { heap := m.heap, table := m.table, lock := fun _ => none, threads := [], log := [], done := [], gone := [] }

/-- Memory, for allocations: all the memory that is in use. -/
def Mem.used (m : Mem K V) : Pool.State K V := { m.view with heap := m.heap ++ m.husks }

variable [DecidableEq K]

/-- Run an operation. Using a variable that has been moved from is `ub` (the compiler does not allow it), and so is touching memory that
contains no value. -/
def exec [BEq V] [Hashable V] (cfg : Cfg K V) (m : Mem K V) (t : Tid) (a : Nat) (sc : Scopes Var (Val K V)) :
    Op K → Res (Done (Mem K V) Var (Val K V))
  | .lock k =>
    if (m.lock (cfg.lockOf k)).isSome then .blocked
    else .ok { mem := { m with lock := fun j => if j = cfg.lockOf k then some t else m.lock j }, scopes := sc,
               val := some (.guard (cfg.lockOf k)) }
  | .get k x => match sc.get x with
    | some (.arg _ q _) | some (.argRef _ q _) | some (.key q) =>
      if Pool.tableOk m.view k then
        match Pool.find m.view k q with
        | some p => .ok { mem := m, scopes := sc, arm := 0, val := some (.ptr p) }
        | none => .ok { mem := m, scopes := sc, arm := 1 }
      else .ub
    | _ => .ub
  | .from x => match sc.get x with
    | some (.argRef k _ v) => .ok { mem := { m with born := (k, v) :: m.born }, scopes := sc, val := some (.owned k v) }
    | _ => .ub
  | .boxNew x => match sc.get x with
    | some (.arg k _ v) | some (.owned k v) => match Pool.allocAt cfg m.used k v a with
      | none => .blocked
      | some addr => .ok {
          mem := { m with heap := { pool := k, ptr := { addr := addr, info := cfg.info k v }, val := v } :: m.heap }
          scopes := sc.set x none
          val := some (.box k { addr := addr, info := cfg.info k v }) }
    | _ => .ub
  | .leak x => match sc.get x with
    | some (.box _ p) => .ok { mem := m, scopes := sc.set x none, val := some (.ptr p) }
    | _ => .ub
  | .ptrOf x => match sc.get x with
    | some (.box _ p) | some (.ptr p) => .ok { mem := m, scopes := sc, val := some (.ptr p) }
    | _ => .ub
  -- looks the key up; if an equal key is present that one stays and the new one is destroyed
  | .insert k x => match sc.get x with
    | some (.box k' p) => match Pool.tableOk m.view k, Pool.deref m.view k' p with
      | true, some v => match Pool.find m.view k (.ofVal v) with
        | some _ => .ok { mem := m, scopes := sc.set x none, val := some (.box k' p) }
        | none => .ok { mem := { m with table := fun j => if j = k then p :: m.table k else m.table j }, scopes := sc.set x none }
      | _, _ => .ub
    | some (.ptr p) => match Pool.tableOk m.view k, Pool.deref m.view k p with
      | true, some v => match Pool.find m.view k (.ofVal v) with
        | some _ => .ok { mem := m, scopes := sc }
        | none => .ok { mem := { m with table := fun j => if j = k then p :: m.table k else m.table j }, scopes := sc }
      | _, _ => .ub
    | _ => .ub
  | .len k => .ok { mem := m, scopes := sc, val := some (.num (m.table k).length) }
  | .bool b => .ok { mem := m, scopes := sc, val := some (.bool b) }
  | .move x => match sc.get x with
    | some v => .ok { mem := m, scopes := sc.set x none, val := some v }
    | none => .ub
  | .dropElem k p => .ok { mem := m, scopes := sc, val := some (.box k p) }

omit [DecidableEq K] in
/-- `Hash`, `Eq`, `Borrow` and `From` may panic. A box given to `insert` has been moved into the called function, which destroys it. -/
def panics (sc : Scopes Var (Val K V)) : Op K → Option (Scopes Var (Val K V) × List (Glue K V))
  | .get _ _ | .from _ => some (sc, [])
  | .insert _ x => match sc.get x with
    | some (.box k p) => some (sc.set x none, [.destroy k p])
    | _ => some (sc, [])
  | _ => none

/-- Run a piece of drop glue. -/
def drop (m : Mem K V) : Glue K V → Res (Mem K V × List (Glue K V) × Option (Fr K V))
  | .value k v => .ok ({ m with dead := (k, v) :: m.dead }, [.user], none)
  | .user => .ok (m, [], none)
  | .unlock i => .ok ({ m with lock := fun j => if j = i then none else m.lock j }, [], none)
  | .destroy k p => match m.heap.find? (Obj.is k p) with
    | some o => .ok ({ m with heap := Pool.free m.heap k p, husks := o :: m.husks }, [.value k o.val, .dealloc k p], none)
    | none => .ub
  | .dealloc k p => match m.husks.find? (Obj.is k p) with
    | some _ => .ok ({ m with husks := Pool.free m.husks k p }, [], none)
    | none => .ub

omit [DecidableEq K] in
/-- Is this the body of a destructor of the user? -/
def userDrop : Glue K V → Bool
  | .user => true
  | _ => false

/-- The program. -/
abbrev lang [BEq V] [Hashable V] (cfg : Cfg K V) : Lang where
  Mem := Mem K V
  Var := Var
  Val := Val K V
  Op := Op K
  Glue := Glue K V
  dec := inferInstance
  glue := glue
  exec := exec cfg
  panics := fun _ sc op => panics sc op
  drop := fun m _ g => drop m g
  userDrop := userDrop

/-- What a client can call: an operation on a pool (the argument of an interning function given by reference or not), or the destruction
of an arena. -/
inductive Call (K V : Type) where
  | op (o : Pool.Op K V) (byRef : Bool)
  | dropArena (k : K)

/-- A call that is being executed; all calls are numbered in the order in which they start. -/
structure Running (K V : Type) where
  id : Nat
  call : Call K V
  frame : Fr K V

/-- What clients see: the start of a call, its return, and the return of the destruction of an arena. -/
inductive Event (K V : Type) where
  | call (id : Nat) (o : Pool.Op K V)
  | ret (e : Entry K V)
  | dropped (k : K)

/-- The whole program: shared memory, the arenas that have been dropped (or are being dropped), for each thread the calls that it is executing,
innermost first, the number of calls so far, and what clients have seen, newest first. -/
structure State (K V : Type) where
  mem : Mem K V
  gone : List K
  threads : List (List (Running K V))
  next : Nat
  hist : List (Event K V)

def init : State K V :=
  { mem := { heap := [], husks := [], table := fun _ => [], lock := fun _ => none, born := [], dead := [] },
    gone := [], threads := [], next := 0, hist := [] }

/-- Actions. -/
inductive Act (K V : Type) where
  | spawn
  /-- thread `t` starts a call, between two calls or from user code. -/
  | call (t : Tid) (o : Pool.Op K V) (byRef : Bool)
  /-- thread `t` drops arena `k`. -/
  | dropArena (t : Tid) (k : K)
  /-- one step of the innermost function of thread `t`; `a` is the allocator's answer, if the step allocates. -/
  | run (t : Tid) (a : Nat)
  /-- user code that is running on thread `t` panics. (A panic that leaves a call is caught by the user code that made the call; that code may
  then panic itself.) -/
  | panic (t : Tid)

/-- The pool a call works on. -/
def Call.pool : Call K V → K
  | .op o _ => o.pool
  | .dropArena k => k

/-- Start of the function: its variables and its body. -/
def start [BEq V] [Hashable V] (cfg : Cfg K V) : Pool.Op K V → Bool → Option (Fr K V)
  | .intern k q v, byRef =>
    let x := if byRef then .argRef k q v else .arg k q v
    if cfg.owns k then some ((lang cfg).enter [(.val, some x)] (arenaCode k byRef))
    else some ((lang cfg).enter [(.f, some x)] (internCode k byRef))
  | .query k q, _ => if cfg.owns k then none else some ((lang cfg).enter [(.f, some (.key q))] (queryCode k))
  | .len k, _ => if cfg.owns k then none else some ((lang cfg).enter [(.f, some .unit)] (lenCode k))
  | .clear _, _ => none

/-- The values that a call takes over from its caller. -/
def taken : Pool.Op K V → Bool → List (K × V)
  | .intern k _ v, false => [(k, v)]
  | _, _ => []

/-- Is user code running, or going to run, in the next step of a function? That code may start calls. -/
def userNext [BEq V] [Hashable V] (cfg : Cfg K V) (f : Fr K V) : Bool := match f.items with
  | .glue .user :: _ => true
  | .stmt s :: _ => !f.exiting && match (lang cfg).opOf s with
    | some (.get _ _) | some (.from _) | some (.insert _ _) => true
    | _ => false
  | _ => false

/-- Can a thread start a call now? -/
def canCall [BEq V] [Hashable V] (cfg : Cfg K V) : List (Running K V) → Bool
  | [] => true
  | c :: _ => userNext cfg c.frame

omit [DecidableEq K] in
/-- The result that a client gets. -/
def toRet : Val K V → Option Ret
  | .ptr p => some (.ptr p)
  | .bool b => some (.bool b)
  | .num n => some (.num n)
  | _ => none

omit [DecidableEq K] in
/-- What clients see when a call ends with result `r`. If it has panicked, nothing is returned. -/
def ends (c : Running K V) (r : Option (Val K V)) : List (Event K V) :=
  if c.frame.panicking then [] else match c.call with
    | .op o _ => (r.bind toRet).toList.map fun r => .ret { tid := c.id, op := o, ret := r }
    | .dropArena k => [.dropped k]

/-- The transition function. -/
def step [BEq V] [Hashable V] (cfg : Cfg K V) (S : State K V) : Act K V → Res (State K V)
  | .spawn => .ok { S with threads := S.threads ++ [[]] }
  | .call t o byRef => match S.threads[t]?, start cfg o byRef with
    | some cs, some f =>
      if canCall cfg cs && !decide (o.pool ∈ S.gone) then
        .ok { S with
          mem := { S.mem with born := taken o byRef ++ S.mem.born }
          threads := S.threads.set t ({ id := S.next, call := .op o byRef, frame := f } :: cs)
          next := S.next + 1
          hist := .call S.next o :: S.hist }
      else .blocked
    | _, _ => .blocked
  -- Rust's lifetimes allow this only when no call on the arena is running
  | .dropArena t k => match S.threads[t]? with
    | some cs =>
      if canCall cfg cs && cfg.owns k && !decide (k ∈ S.gone) &&
          S.threads.all (fun cs => cs.all fun c => decide (c.call.pool ≠ k)) then
        .ok { S with
          mem := { S.mem with table := fun j => if j = k then [] else S.mem.table j }
          gone := k :: S.gone
          threads := S.threads.set t
            ({ id := S.next, call := .dropArena k, frame := (lang cfg).enter [] (dropCode k (S.mem.table k)) } :: cs)
          next := S.next + 1 }
      else .blocked
    | none => .blocked
  | .run t a => match S.threads[t]? with
    | some (c :: cs) => match (lang cfg).run S.mem t a [c.frame] with
      | .ok (m, [], r) => .ok { S with mem := m, threads := S.threads.set t cs, hist := ends c r ++ S.hist }
      | .ok (m, f :: _, _) => .ok { S with mem := m, threads := S.threads.set t ({ c with frame := f } :: cs) }
      | .blocked => .blocked
      | .ub => .ub
    | _ => .blocked
  | .panic t => match S.threads[t]? with
    | some (c :: cs) => match (lang cfg).panic S.mem [c.frame] with
      | .ok (f :: _) => .ok { S with threads := S.threads.set t ({ c with frame := f } :: cs) }
      | .ok [] => .blocked
      | .blocked => .blocked
      | .ub => .ub
    | _ => .blocked

end
end Src.PoolCode
