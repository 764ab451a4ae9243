import Verif.Src.Lang
import Verif.Arc.Spec
/-
`ArcIntern` as it is written: the bodies of `new` (arc.rs:224-270), of the unsized constructors (arc_dst.rs:68-122) and of `drop`
(arc.rs:293-325), statement by statement, in the language of `Verif/Src/Lang.lean`.

The order in which locks are released and locals destroyed, on all ways out of these functions, comes from the language.
-/
namespace Src.ArcCode
open Arc (Addr Tid Cell Cfg Res Call)

/-- The names of the variables. `g` is the guard that the pattern `Some(b)` binds (arc.rs:227; the source then shadows this `b`), `u` stands
for "no variable". -/
inductive Var
  | val | converted | g | b | oldval | e | p | boxRefCount | remove | self | countWas | u
  deriving DecidableEq, Repr

/-- What a variable can contain. -/
inductive Val (V : Type) where
  /-- a `T`. -/
  | owned (v : V)
  /-- a `&I`, from which the content of an unsized value is copied. -/
  | borrowed (v : V)
  /-- a `Box<RefCount<T>>` or `BoxRefCount<T>` (arc.rs:104-105). -/
  | box (b : Addr)
  /-- an `Option` of one: `converted` (arc_dst.rs:75), and what `DashMap::remove` returns (arc.rs:322). -/
  | optBox (o : Option Addr)
  /-- a `RefMut` of DashMap: the write lock of a shard, and the entry `b` found. -/
  | guard (sh : Nat) (b : Addr)
  /-- a `&BoxRefCount<T>` or `&mut self` of a handle: the address it leads to. -/
  | ref (b : Addr)
  /-- an `ArcIntern<T>`. -/
  | handle (b : Addr)
  /-- a `VacantEntry`: the write lock of a shard and the key. -/
  | vacant (sh : Nat) (b : Addr)
  /-- an `OccupiedEntry`: the write lock of a shard and the key it was asked for. -/
  | occupied (sh : Nat) (b : Addr)
  | num (n : Nat)

/-- Primitive operations: each accesses shared memory at most once. -/
inductive Op
  /-- `Self::get_container()` (arc.rs:226, 321): no effect here, see C14. -/
  | getContainer
  /-- `std::thread::yield_now()` (arc.rs:267), `yield_on_tests()` (arc.rs:305). -/
  | yieldNow
  /-- `fence(SeqCst)` (arc.rs:314). -/
  | fence
  /-- `m.get_mut(&x)` (arc.rs:227, arc_dst.rs:79): takes the lock of the shard and looks `x` up. -/
  | getMut (x : Var)
  /-- `x.key()` (arc.rs:228). -/
  | key (x : Var)
  /-- `x.0.count.fetch_add(1, _)` (arc.rs:231). -/
  | fetchAdd (x : Var)
  /-- `x.0.count.fetch_sub(1, _)` (arc.rs:241, 299). -/
  | fetchSub (x : Var)
  /-- `x != 0` (arc.rs:232). -/
  | nonzero (x : Var)
  /-- `x == 1` (arc.rs:300). -/
  | isOne (x : Var)
  /-- `ArcIntern { pointer: NonNull::from(x.0.borrow()) }` (arc.rs:234-236), or with `x.key().0` (arc.rs:251-253). -/
  | handleOf (x : Var)
  /-- `Box::new(RefCount { count: AtomicUsize::new(1), data: x })` (arc.rs:244-247). -/
  | boxNew (x : Var)
  /-- `mem::take(&mut c).unwrap_or_else(|| new_fn(x))` (arc_dst.rs:96). -/
  | takeOrNew (c x : Var)
  /-- `m.entry(BoxRefCount(x))` (arc.rs:248). -/
  | entry (x : Var)
  /-- `x.insert(())` (arc.rs:254). -/
  | insert (x : Var)
  /-- the value of a variable. -/
  | move (x : Var)
  /-- `x.into_key()` (arc.rs:259). -/
  | intoKey (x : Var)
  /-- `x.into_inner()` (arc.rs:260). -/
  | intoInner (x : Var)
  /-- `None` (arc_dst.rs:75). -/
  | noBox
  /-- `Some(x.0)` (arc_dst.rs:109). -/
  | someBox (x : Var)
  /-- `m.remove(self.pointer.as_ref())` (arc.rs:322): takes the lock of the shard, removes the entry with an equal key, and releases
  the lock. -/
  | remove (x : Var)
  deriving Repr

/-- Drop glue. -/
inductive Glue (V : Type) where
  /-- the `Drop::drop` of a value, if it has one: code of the user, which may panic. (Here it does nothing else; C79 is about destructors
  that use the interner.) Then its fields are dropped, the handles among them. -/
  | value (v : V)
  /-- dropping a guard releases the lock. -/
  | unlock (sh : Nat)
  /-- dropping a box drops its content, and then releases its memory. -/
  | destroy (b : Addr)
  /-- release the memory of a box. -/
  | dealloc (b : Addr)
  /-- dropping a handle calls `Drop::drop` (arc.rs:293). -/
  | handle (b : Addr)
  deriving Repr

/-- Shared memory. -/
structure Mem (V : Type) where
  heap : List (Addr × Cell V)
  table : List Addr
  locks : Nat → Option Tid

section
variable {V : Type}

abbrev St := Stmt Var Op

/-- arc.rs:228-242, arc_dst.rs:80-94: the entry was found. -/
def found : List St := [
  .bind .b (.key .g),
  .bind .oldval (.fetchAdd .b),
  .choose .u (.nonzero .oldval)
    [.ret (.handleOf .b)]
    [.exec (.fetchSub .b)]]

/-- arc.rs:244-262, arc_dst.rs:96-110: it was not. -/
def missing (dst : Bool) : List St := [
  .bind .b (if dst then .takeOrNew .converted .val else .boxNew .val),
  .choose .e (.entry .b)
    [.bind .p (.handleOf .e),
     .exec (.insert .e),
     .ret (.move .p)]
    [.bind .boxRefCount (.intoKey .e),
     if dst then .assign .converted (.someBox .boxRefCount) else .assign .val (.intoInner .boxRefCount)]]

/-- arc.rs:225-268, arc_dst.rs:76-116. -/
def body (dst : Bool) : List St := [
  .exec .getContainer,
  .choose .g (.getMut .val) found (missing dst),
  .exec .yieldNow]

/-- `ArcIntern::new` (arc.rs:224-270) and `new_with_copyable_init_val` (arc_dst.rs:68-122). -/
def newCode (dst : Bool) : List St :=
  (if dst then [.bind .converted .noBox] else []) ++ [.loop (body dst)]

/-- `Drop::drop` (arc.rs:293-325). -/
def dropCode : List St := [
  .bind .countWas (.fetchSub .self),
  .choose .u (.isOne .countWas)
    [.exec .yieldNow,
     .exec .fence,
     .uninit .remove,
     .exec .getContainer,
     .assign .remove (.remove .self)]
    []]

/-- A table lookup, as in `Verif/Arc/Model.lean`. -/
def Mem.view (m : Mem V) : Arc.State V :=
  { heap := m.heap, table := m.table, locks := m.locks, handles := [], threads := [], zombies := [] }

def Mem.lock (m : Mem V) (i : Nat) (t : Tid) : Mem V := { m with locks := fun j => if j = i then some t else m.locks j }
def Mem.unlock (m : Mem V) (i : Nat) : Mem V := { m with locks := fun j => if j = i then none else m.locks j }

/-- The drop glue of a value. The fields of `VacantEntry` and `OccupiedEntry` are a guard and a key. -/
def glue (cfg : Cfg V) : Val V → List (Glue V)
  | .owned v => .value v :: (cfg.kids v).map .handle
  | .box b => [.destroy b]
  | .optBox (some b) => [.destroy b]
  | .guard sh _ => [.unlock sh]
  | .handle b => [.handle b]
  | .vacant sh b | .occupied sh b => [.unlock sh, .destroy b]
  | .optBox none | .borrowed _ | .ref _ | .num _ => []

/-- Run an operation. Using a variable that has been moved from is `ub` (the compiler does not allow it), and so is touching memory that
is not allocated. -/
def exec [BEq V] [Hashable V] (cfg : Cfg V) (m : Mem V) (t : Tid) (a : Addr) (sc : Scopes Var (Val V)) :
    Op → Res (Done (Mem V) Var (Val V))
  | .getContainer | .yieldNow | .fence => .ok { mem := m, scopes := sc }
  | .getMut x => match sc.get x with
    | some (.owned v) | some (.borrowed v) =>
      if (m.locks (cfg.shardOf v)).isSome then .blocked
      else if !Arc.tableOk m.view then .ub
      else match Arc.find m.view v with
        | some b => .ok { mem := m.lock (cfg.shardOf v) t, scopes := sc, arm := 0, val := some (.guard (cfg.shardOf v) b) }
        | none => .ok { mem := m, scopes := sc, arm := 1 }
    | _ => .ub
  | .key x => match sc.get x with
    | some (.guard _ b) => .ok { mem := m, scopes := sc, val := some (.ref b) }
    | _ => .ub
  | .fetchAdd x => match sc.get x with
    | some (.ref b) => match Arc.get m.heap b with
      | some c => .ok { mem := { m with heap := Arc.setCount m.heap b (cfg.inc c.count) }, scopes := sc, val := some (.num c.count) }
      | none => .ub
    | _ => .ub
  | .fetchSub x => match sc.get x with
    | some (.ref b) => match Arc.get m.heap b with
      | some c => .ok { mem := { m with heap := Arc.setCount m.heap b (cfg.dec c.count) }, scopes := sc, val := some (.num c.count) }
      | none => .ub
    | _ => .ub
  | .nonzero x => match sc.get x with
    | some (.num n) => .ok { mem := m, scopes := sc, arm := if n ≠ 0 then 0 else 1 }
    | _ => .ub
  | .isOne x => match sc.get x with
    | some (.num n) => .ok { mem := m, scopes := sc, arm := if n = 1 then 0 else 1 }
    | _ => .ub
  | .handleOf x => match sc.get x with
    | some (.ref b) | some (.vacant _ b) => .ok { mem := m, scopes := sc, val := some (.handle b) }
    | _ => .ub
  | .boxNew x => match sc.get x with
    | some (.owned v) =>
      if a = 0 ∨ a ∈ Arc.keys m.heap then .blocked
      else .ok { mem := { m with heap := (a, { count := 1, data := v }) :: m.heap }, scopes := sc.set x none, val := some (.box a) }
    | _ => .ub
  | .takeOrNew c x => match sc.get c, sc.get x with
    | some (.optBox (some b)), _ => .ok { mem := m, scopes := sc.set c (some (.optBox none)), val := some (.box b) }
    | some (.optBox none), some (.borrowed v) =>
      if a = 0 ∨ a ∈ Arc.keys m.heap then .blocked
      else .ok { mem := { m with heap := (a, { count := 1, data := v }) :: m.heap }, scopes := sc, val := some (.box a) }
    | _, _ => .ub
  | .entry x => match sc.get x with
    | some (.box b) => match Arc.get m.heap b with
      | none => .ub
      | some c =>
        let sh := cfg.shardOf c.data
        if (m.locks sh).isSome then .blocked
        else if !Arc.tableOk m.view then .ub
        else match Arc.find m.view c.data with
          | none => .ok { mem := m.lock sh t, scopes := sc.set x none, arm := 0, val := some (.vacant sh b) }
          | some _ => .ok { mem := m.lock sh t, scopes := sc.set x none, arm := 1, val := some (.occupied sh b) }
    | _ => .ub
  | .insert x => match sc.get x with
    | some (.vacant sh b) => .ok { mem := { m with table := b :: m.table }, scopes := sc.set x none, val := some (.guard sh b) }
    | _ => .ub
  | .move x => match sc.get x with
    | some v => .ok { mem := m, scopes := sc.set x none, val := some v }
    | none => .ub
  | .intoKey x => match sc.get x with
    | some (.occupied sh b) => .ok { mem := m.unlock sh, scopes := sc.set x none, val := some (.box b) }
    | _ => .ub
  | .intoInner x => match sc.get x with
    | some (.box b) => match Arc.get m.heap b with
      | some c => .ok { mem := { m with heap := Arc.free m.heap b }, scopes := sc.set x none, val := some (.owned c.data) }
      | none => .ub
    | _ => .ub
  | .noBox => .ok { mem := m, scopes := sc, val := some (.optBox none) }
  | .someBox x => match sc.get x with
    | some (.box b) => .ok { mem := m, scopes := sc.set x none, val := some (.optBox (some b)) }
    | _ => .ub
  | .remove x => match sc.get x with
    | some (.ref b) => match Arc.get m.heap b with
      | none => .ub
      | some c =>
        if (m.locks (cfg.shardOf c.data)).isSome then .blocked
        else if !Arc.tableOk m.view then .ub
        else match Arc.find m.view c.data with
          | some r => .ok { mem := { m with table := m.table.erase r }, scopes := sc, val := some (.optBox (some r)) }
          | none => .ok { mem := m, scopes := sc, val := some (.optBox none) }
    | _ => .ub

/-- `Hash` and `Eq` run in the three lookups. In `entry` the key has been moved into the called function, which destroys it. For a panic
inside `insert` (C19, C78) see `panicsInsert`. -/
def panics (sc : Scopes Var (Val V)) : Op → Option (Scopes Var (Val V) × List (Glue V))
  | .getMut _ | .remove _ => some (sc, [])
  | .entry x => match sc.get x with
    | some (.box b) => some (sc.set x none, [.destroy b])
    | _ => none
  | _ => none

/-- `Hash` panics inside `insert`, when the table grows (C19, C78): the entry has been moved into the called function, which destroys it. -/
def panicsInsert (sc : Scopes Var (Val V)) : Op → Option (Scopes Var (Val V) × List (Glue V))
  | .insert x => match sc.get x with
    | some (.vacant sh b) => some (sc.set x none, [.unlock sh, .destroy b])
    | _ => none
  | _ => none

/-- A destructor of the user. -/
def Glue.isValue : Glue V → Bool
  | .value _ => true
  | _ => false

/-- Run a piece of drop glue. -/
def drop (cfg : Cfg V) (m : Mem V) : Glue V → Res (Mem V × List (Glue V) × Option (Frame Var (Val V) Op (Glue V)))
  | .value _ => .ok (m, [], none)
  | .unlock sh => .ok (m.unlock sh, [], none)
  | .destroy b => match Arc.get m.heap b with
    | some c => .ok (m, .value c.data :: (cfg.kids c.data).map .handle ++ [.dealloc b], none)
    | none => .ub
  | .dealloc b => match Arc.get m.heap b with
    | some _ => .ok ({ m with heap := Arc.free m.heap b }, [], none)
    | none => .ub
  | .handle b => .ok (m, [], some { scopes := [[(.self, some (.ref b))]], items := dropCode.map .stmt ++ [.close] })

/-- The program. -/
abbrev lang [BEq V] [Hashable V] (cfg : Cfg V) : Lang where
  Mem := Mem V
  Var := Var
  Val := Val V
  Op := Op
  Glue := Glue V
  dec := inferInstance
  glue := glue cfg
  exec := exec cfg
  panics := fun _ sc op => panics sc op
  drop := fun m _ g => drop cfg m g
  userDrop := Glue.isValue

/-- The program when `Hash` panics inside `insert`. -/
abbrev langInsert [BEq V] [Hashable V] (cfg : Cfg V) : Lang := { lang cfg with panics := fun _ sc op => panicsInsert sc op }

/-- A thread: the functions it is executing. -/
abbrev Stack (V : Type) := List (Frame Var (Val V) Op (Glue V))

/-- The whole program: shared memory, the handles that clients own, and the threads. A handle that a call would have returned, had it not
panicked while it destroyed its locals, stays among the handles, like one that a client has forgotten. -/
structure State (V : Type) where
  mem : Mem V
  handles : List Addr
  threads : List (Stack V)

def init : State V := { mem := { heap := [], table := [], locks := fun _ => none }, handles := [], threads := [] }

/-- Actions: as in `Verif/Arc/Model.lean`, but `run` is one step of the code. `clone` (arc.rs:273-283, one `fetch_add`) and reading are
single steps. `num_objects_interned` and `shrink_to_fit` are one call of DashMap each and are left out. -/
inductive Act (V : Type) where
  | spawn
  | new (t : Tid) (v : V) (dst : Bool)
  | clone (t : Tid) (path : List Addr)
  | read (t : Tid) (path : List Addr)
  | drop (t : Tid) (p : Addr)
  | run (t : Tid) (a : Addr)
  | panic (t : Tid)
  | panicInsert (t : Tid)

/-- The handle that a finished call gives to the client. -/
def result : Option (Val V) → List Addr
  | some (.handle b) => [b]
  | _ => []

/-- Memory and handles as a state of `Verif/Arc/Model.lean`, for following paths of handles. -/
def State.view (S : State V) : Arc.State V := { S.mem.view with handles := S.handles }

/-- The transition function. -/
def step [BEq V] [Hashable V] (cfg : Cfg V) (S : State V) : Act V → Res (State V)
  | .spawn => .ok { S with threads := S.threads ++ [[]] }
  | .new t v dst => match S.threads[t]? with
    | some [] =>
      if Arc.ownsAll S.handles (cfg.kids v) && (!dst || (cfg.kids v).isEmpty) then
        .ok { S with
          threads := S.threads.set t [(lang cfg).enter [(.val, some (if dst then .borrowed v else .owned v))] (newCode dst)]
          handles := Arc.eraseAll S.handles (cfg.kids v) }
      else .blocked
    | _ => .blocked
  | .clone t path => match S.threads[t]? with
    | some [] => match Arc.borrow cfg S.view path with
      | .ok p => match Arc.get S.mem.heap p with
        | some x => .ok { S with mem := { S.mem with heap := Arc.setCount S.mem.heap p (cfg.inc x.count) }, handles := p :: S.handles }
        | none => .ub
      | .blocked => .blocked
      | .ub => .ub
    | _ => .blocked
  | .read t path => match S.threads[t]? with
    | some [] => match Arc.borrow cfg S.view path with
      | .ok _ => .ok S
      | .blocked => .blocked
      | .ub => .ub
    | _ => .blocked
  | .drop t p => match S.threads[t]? with
    | some [] =>
      if p ∈ S.handles then
        .ok { S with
          threads := S.threads.set t [(lang cfg).enter [(.self, some (.ref p))] dropCode]
          handles := S.handles.erase p }
      else .blocked
    | _ => .blocked
  | .run t a => match S.threads[t]? with
    | some fs => match (lang cfg).run S.mem t a fs with
      | .ok (m, fs', r) => .ok { mem := m, handles := result r ++ S.handles, threads := S.threads.set t fs' }
      | .blocked => .blocked
      | .ub => .ub
    | none => .blocked
  | .panic t => match S.threads[t]? with
    | some fs => match (lang cfg).panic S.mem fs with
      | .ok fs' => .ok { S with threads := S.threads.set t fs' }
      | .blocked => .blocked
      | .ub => .ub
    | none => .blocked
  | .panicInsert t => match S.threads[t]? with
    | some fs => match (langInsert cfg).panic S.mem fs with
      | .ok fs' => .ok { S with threads := S.threads.set t fs' }
      | .blocked => .blocked
      | .ub => .ub
    | none => .blocked

end
end Src.ArcCode
