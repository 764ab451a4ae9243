/-
Interleaving model of `ArcIntern` (src/arc.rs, src/arc_dst.rs).

Granularity: one `run` action is one atomic read-modify-write, one lock acquisition (together with
the table lookup made while the lock is held), one lock release, one allocation or one deallocation.
-/
namespace Arc

/-- Heap addresses of `RefCount<T>` boxes. A handle `ArcIntern<T>` is one such address
(arc.rs:54-56: its only field is `pointer: NonNull<RefCount<T>>`). -/
abbrev Addr := Nat
/-- Thread identifiers: indices into `State.threads`. -/
abbrev Tid := Nat

/-- `RefCount<T>` (arc.rs:84-88): an atomic counter next to the data. -/
structure Cell (V : Type) where
  count : Nat
  data : V
  deriving DecidableEq, Repr

/-- Parameters of the model.
* `kids v`: the `ArcIntern` handles owned by the value `v` (fields of `v`), in drop order;
  see `test_arcintern_nested_drop` (arc.rs:539-548). Values that own no handles have `kids v = []`.
* `shards`, `pick`: the number of DashMap shards and the function selecting one from a key's hash.
* `W`: the modulus at which `AtomicUsize` wraps (2^64 on 64-bit targets). -/
structure Cfg (V : Type) where
  kids : V → List Addr
  shards : Nat
  pick : UInt64 → Nat
  W : Nat

/-- What the environment guarantees about the parameters. -/
structure Cfg.Valid {V : Type} (cfg : Cfg V) : Prop where
  pick_lt : ∀ h, cfg.pick h < cfg.shards
  W_ge : 2 ≤ cfg.W

/-- `AtomicUsize::fetch_add(1, _)`: wraps (arc.rs:231, arc.rs:279). -/
def Cfg.inc {V : Type} (cfg : Cfg V) (c : Nat) : Nat := (c + 1) % cfg.W
/-- `AtomicUsize::fetch_sub(1, _)`: wraps (arc.rs:241, arc.rs:299). -/
def Cfg.dec {V : Type} (cfg : Cfg V) (c : Nat) : Nat := (c + (cfg.W - 1)) % cfg.W

/-- The shard of a value: DashMap picks it from the key's hash; `BoxRefCount<T>`, `RefCount<T>` and `T`
all hash as the data (arc.rs:97-111). -/
def Cfg.shardOf {V : Type} [Hashable V] (cfg : Cfg V) (v : V) : Nat := cfg.pick (hash v)

/-- The local variables of one call of `ArcIntern::new` (arc.rs:224) or
`new_with_copyable_init_val` (arc_dst.rs:68): the value, whether it is the unsized (`dst`) variant,
and that variant's `converted` cache (arc_dst.rs:75). -/
structure Call (V : Type) where
  val : V
  dst : Bool
  conv : Option Addr
  deriving DecidableEq, Repr

/-- Program counters. `sh` is the shard whose write lock the thread holds through a DashMap guard. -/
inductive Pc (V : Type) where
  /-- not inside any ArcIntern function (or between two pending drops). -/
  | idle
  /-- top of the loop: about to call `m.get_mut(&val)` (arc.rs:227, arc_dst.rs:79). -/
  | newLoop (c : Call V)
  /-- entry `b` found, guard held: about to `fetch_add` (arc.rs:231, arc_dst.rs:83). -/
  | newFound (c : Call V) (sh : Nat) (b : Addr)
  /-- old count was zero: about to `fetch_sub` again (arc.rs:241, arc_dst.rs:93). -/
  | newUndo (c : Call V) (sh : Nat) (b : Addr)
  /-- increment undone: about to release the guard, yield and loop (arc.rs:243, 267). -/
  | newRelease (c : Call V) (sh : Nat)
  /-- old count was non-zero: about to return `b`, releasing the guard (arc.rs:234-236). -/
  | newHit (c : Call V) (sh : Nat) (b : Addr)
  /-- nothing found: about to allocate the box (arc.rs:244, arc_dst.rs:96 `new_fn(val)`). -/
  | newAlloc (c : Call V)
  /-- box `b` allocated: about to call `m.entry(..)` (arc.rs:248, arc_dst.rs:97). -/
  | newEntry (c : Call V) (b : Addr)
  /-- `Entry::Vacant`, guard held: about to insert (arc.rs:249-254). -/
  | newVacant (c : Call V) (sh : Nat) (b : Addr)
  /-- inserted: about to release the guard and return `b` (arc.rs:255). -/
  | newInserted (c : Call V) (sh : Nat) (b : Addr)
  /-- `Entry::Occupied`, guard held: about to call `into_key` (arc.rs:259, arc_dst.rs:108). -/
  | newOccupied (c : Call V) (sh : Nat) (b : Addr)
  /-- about to move the value out of the box and free the box (`into_inner`, arc.rs:260). -/
  | newUnbox (c : Call V) (b : Addr)
  /-- `drop`: about to `fetch_sub` (arc.rs:299). -/
  | dropSub (b : Addr)
  /-- `drop`, old count was 1: about to call `m.remove(..)` (arc.rs:322). -/
  | dropRemove (b : Addr)
  /-- an owned box `b`, no longer in the table, is about to be destroyed (`_remove` going out of
  scope, arc.rs:320-324; or a cached `converted` box, or a box unwound by a panic). -/
  | dropFree (b : Addr)
  /-- `num_objects_interned` = `DashMap::len` (arc.rs:204): about to read shard `i`; `m` is the end of
  the container's shards. -/
  | lenScan (i m acc : Nat)
  /-- `num_objects_interned` about to return `n`. -/
  | lenDone (n : Nat)
  /-- `shrink_to_fit` (arc.rs:186): about to take the write lock of shard `i`; `m` is the end of the container's
  shards. -/
  | shrinkScan (i m : Nat)
  deriving Repr

/-- A thread: its program counter, the handles it still has to drop before the current call ends
(fields of destroyed values, in order), the handle the current call will return, and (ghost) the
argument of the current `new` call. -/
structure Thread (V : Type) where
  pc : Pc V := .idle
  todo : List Addr := []
  ret : Option Addr := none
  arg : Option V := none
  deriving Repr

/-- The shared state.
* `heap`: allocated boxes, newest first.
* `table`: boxes registered in the container (`DashMap<BoxRefCount<T>, ()>`, arc.rs:24).
* `locks i`: the thread holding the write lock of shard `i`.
* `handles`: the `ArcIntern` handles owned by client code (one list entry per handle; `mem::forget`ten
  handles simply stay here for ever).
* `zombies` (ghost): boxes whose removal was abandoned because user code panicked in `drop`. -/
structure State (V : Type) where
  heap : List (Addr × Cell V)
  table : List Addr
  locks : Nat → Option Tid
  handles : List Addr
  threads : List (Thread V)
  zombies : List Addr

/-- Start of the process: empty container, no threads yet. -/
def init {V : Type} : State V :=
  { heap := [], table := [], locks := fun _ => none, handles := [], threads := [], zombies := [] }

/-- Result of trying an action: it happens, it is not possible now (a lock is taken, or a client call
that Rust's ownership rules do not allow), or it touches freed memory. -/
inductive Res (σ : Type) where
  | ok (s : σ)
  | blocked
  | ub
  deriving Repr

/-- Actions: client calls, one step of a thread, a panic of user code. -/
inductive Act (V : Type) where
  /-- a new thread appears. -/
  | spawn
  /-- an idle thread calls `ArcIntern::new(v)` (`dst = false`) or an unsized constructor (`dst = true`).
  Handles inside `v` move from the client into the call. -/
  | new (t : Tid) (v : V) (dst : Bool)
  /-- an idle thread clones the handle reached by following `path`: `path = [p]` is a client handle,
  `[p, q]` a handle `q` stored in the value of `p`, and so on. -/
  | clone (t : Tid) (path : List Addr)
  /-- an idle thread dereferences (or calls `refcount` on) the handle reached by `path`. -/
  | read (t : Tid) (path : List Addr)
  /-- an idle thread drops the client handle `p`. -/
  | drop (t : Tid) (p : Addr)
  /-- an idle thread calls `num_objects_interned` (arc.rs:203-205) for the type whose container has the shards `lo`,
  `lo + 1`, …, `up - 1`. In a program that interns a single type these are all shards: `lo = 0`, `up = cfg.shards`. -/
  | len (t : Tid) (lo up : Nat)
  /-- an idle thread calls `shrink_to_fit` (arc.rs:185-187) for the type with the shards `lo`, …, `up - 1`. -/
  | shrink (t : Tid) (lo up : Nat)
  /-- thread `t` performs its next atomic step; `a` is the address the allocator returns if the step
  allocates. -/
  | run (t : Tid) (a : Addr)
  /-- user `Hash`/`Eq` panics in the lookup thread `t` is about to perform. -/
  | panic (t : Tid)
  /-- user `Hash` panics inside the insertion thread `t` is about to perform (table growth rehash). -/
  | panicInsert (t : Tid)

section
variable {V : Type}

/-- Dereferencing an address (arc.rs:330 and every `self.pointer.as_ref()`); `none` = freed memory. -/
def get (h : List (Addr × Cell V)) (a : Addr) : Option (Cell V) :=
  match h with
  | [] => none
  | (b, c) :: h => if b = a then some c else get h a

/-- Storing a new value in the counter of box `a`. -/
def setCount (h : List (Addr × Cell V)) (a : Addr) (n : Nat) : List (Addr × Cell V) :=
  h.map fun e => if e.1 = a then (e.1, { e.2 with count := n }) else e

/-- Deallocating box `a`. -/
def free (h : List (Addr × Cell V)) (a : Addr) : List (Addr × Cell V) :=
  h.filter fun e => e.1 ≠ a

/-- Addresses currently allocated. -/
def keys (h : List (Addr × Cell V)) : List Addr := h.map (·.1)

/-- Remove one occurrence of each element of `ks` from `l`: moving handles out of the client's hands. -/
def eraseAll (l ks : List Addr) : List Addr := ks.foldl List.erase l

/-- Does the client own (at least) the handles `ks`, counted with multiplicity? -/
def ownsAll (l ks : List Addr) : Bool := ks.all fun p => ks.count p ≤ l.count p

/-- Key comparison of the hash table: same hash and `Eq` (arc.rs:91-111). -/
def keyEq [BEq V] [Hashable V] (x v : V) : Bool := hash x == hash v && x == v

/-- Table lookup by value: `get_mut(&val)`, `entry(key)`, `remove(key)` (arc.rs:227, 248, 322). -/
def find [BEq V] [Hashable V] (s : State V) (v : V) : Option Addr :=
  s.table.find? fun b => match get s.heap b with
    | some c => keyEq c.data v
    | none => false

/-- A lookup reads the keys of registered boxes; it is only defined if they are all allocated. -/
def tableOk (s : State V) : Bool := s.table.all fun b => (get s.heap b).isSome

def State.setThread (s : State V) (t : Tid) (th : Thread V) : State V :=
  { s with threads := s.threads.set t th }
def State.lock (s : State V) (i : Nat) (t : Tid) : State V :=
  { s with locks := fun j => if j = i then some t else s.locks j }
def State.unlock (s : State V) (i : Nat) : State V :=
  { s with locks := fun j => if j = i then none else s.locks j }

/-- Thread between calls. -/
def Thread.isIdle (th : Thread V) : Bool :=
  (match th.pc with | .idle => true | _ => false) && th.todo.isEmpty && th.ret.isNone

/-- `DashMap::len` reads the size of one shard (arc.rs:204). -/
def shardLen [Hashable V] (cfg : Cfg V) (s : State V) (i : Nat) : Nat :=
  s.table.countP fun b => match get s.heap b with
    | some c => cfg.shardOf c.data == i
    | none => false

/-- Follow a path of handles starting in the client's hands: `&*p`, then a handle field of `*p`, ... -/
def follow (cfg : Cfg V) (s : State V) (p : Addr) : List Addr → Res Addr
  | [] => match get s.heap p with
    | some _ => .ok p
    | none => .ub
  | q :: path => match get s.heap p with
    | some c => if q ∈ cfg.kids c.data then follow cfg s q path else .blocked
    | none => .ub

/-- Same, for a non-empty path whose first element the client owns. -/
def borrow (cfg : Cfg V) (s : State V) : List Addr → Res Addr
  | [] => .blocked
  | p :: path => if p ∈ s.handles then follow cfg s p path else .blocked

/-- What the destruction of the call's locals leaves to do: the cached `converted` box, if any, is
freed (arc_dst.rs:75 going out of scope), the handles inside `val` are dropped. -/
def unwindCall (cfg : Cfg V) (c : Call V) (ret : Option Addr) (arg : Option V) : Thread V :=
  { pc := match c.conv with
      | some b => .dropFree b
      | none => .idle
    todo := cfg.kids c.val
    ret := ret
    arg := arg }

/-- One atomic step of thread `t`, whose local state is `th`. -/
def run [BEq V] [Hashable V] (cfg : Cfg V) (s : State V) (t : Tid) (th : Thread V) (a : Addr) :
    Res (State V) :=
  match th.pc with
  | .idle =>
    match th.todo with
    | p :: ps => .ok (s.setThread t { th with pc := .dropSub p, todo := ps })
    | [] =>
      match th.ret with
      | some b => .ok { s.setThread t {} with handles := b :: s.handles }
      | none => .blocked
  -- arc.rs:227 / arc_dst.rs:79: `m.get_mut(val)`
  | .newLoop c =>
    let sh := cfg.shardOf c.val
    if (s.locks sh).isSome then .blocked
    else if !tableOk s then .ub
    else match find s c.val with
      | some b => .ok ((s.lock sh t).setThread t { th with pc := .newFound c sh b })
      | none =>
        match c.conv with
        | some b => .ok (s.setThread t { th with pc := .newEntry { c with conv := none } b })
        | none => .ok (s.setThread t { th with pc := .newAlloc c })
  -- arc.rs:231-232: `let oldval = fetch_add(1); if oldval != 0`
  | .newFound c sh b =>
    match get s.heap b with
    | none => .ub
    | some x =>
      let s' := { s with heap := setCount s.heap b (cfg.inc x.count) }
      if x.count ≠ 0 then .ok (s'.setThread t { th with pc := .newHit c sh b })
      else .ok (s'.setThread t { th with pc := .newUndo c sh b })
  -- arc.rs:241: `fetch_sub(1)`
  | .newUndo c sh b =>
    match get s.heap b with
    | none => .ub
    | some x =>
      .ok ({ s with heap := setCount s.heap b (cfg.dec x.count) }.setThread t
        { th with pc := .newRelease c sh })
  | .newRelease c sh => .ok ((s.unlock sh).setThread t { th with pc := .newLoop c })
  -- arc.rs:234: return; the guard is released, then `val` / `converted` are dropped
  | .newHit c sh b => .ok ((s.unlock sh).setThread t (unwindCall cfg c (some b) th.arg))
  -- arc.rs:244-247
  | .newAlloc c =>
    if a = 0 ∨ a ∈ keys s.heap then .blocked
    else .ok ({ s with heap := (a, { count := 1, data := c.val }) :: s.heap }.setThread t
      { th with pc := .newEntry c a })
  -- arc.rs:248: `m.entry(BoxRefCount(b))`
  | .newEntry c b =>
    match get s.heap b with
    | none => .ub
    | some x =>
      let sh := cfg.shardOf x.data
      if (s.locks sh).isSome then .blocked
      else if !tableOk s then .ub
      else match find s x.data with
        | none => .ok ((s.lock sh t).setThread t { th with pc := .newVacant c sh b })
        | some _ => .ok ((s.lock sh t).setThread t { th with pc := .newOccupied c sh b })
  -- arc.rs:254: `e.insert(())`
  | .newVacant c sh b =>
    .ok ({ s with table := b :: s.table }.setThread t { th with pc := .newInserted c sh b })
  | .newInserted _ sh b =>
    .ok ((s.unlock sh).setThread t { pc := .idle, todo := [], ret := some b, arg := th.arg })
  -- arc.rs:259 / arc_dst.rs:108-109
  | .newOccupied c sh b =>
    if c.dst then .ok ((s.unlock sh).setThread t { th with pc := .newLoop { c with conv := some b } })
    else .ok ((s.unlock sh).setThread t { th with pc := .newUnbox c b })
  -- arc.rs:260: `val = box_ref_count.into_inner()`
  | .newUnbox c b =>
    match get s.heap b with
    | none => .ub
    | some x =>
      .ok ({ s with heap := free s.heap b }.setThread t
        { th with pc := .newLoop { c with val := x.data } })
  -- arc.rs:299-300
  | .dropSub b =>
    match get s.heap b with
    | none => .ub
    | some x =>
      let s' := { s with heap := setCount s.heap b (cfg.dec x.count) }
      if x.count = 1 then .ok (s'.setThread t { th with pc := .dropRemove b })
      else .ok (s'.setThread t { th with pc := .idle })
  -- arc.rs:321-322: `m.remove(self.pointer.as_ref())`, a removal *by value*
  | .dropRemove b =>
    match get s.heap b with
    | none => .ub
    | some x =>
      if (s.locks (cfg.shardOf x.data)).isSome then .blocked
      else if !tableOk s then .ub
      else match find s x.data with
        | some r => .ok ({ s with table := s.table.erase r }.setThread t { th with pc := .dropFree r })
        | none => .ok (s.setThread t { th with pc := .idle })
  -- destruction of an owned box: its fields are dropped and its memory released.
  -- Simplification: the memory is released before (not after) the fields are dropped, which only gives
  -- the allocator more freedom.
  | .dropFree b =>
    match get s.heap b with
    | none => .ub
    | some x =>
      .ok ({ s with heap := free s.heap b }.setThread t
        { th with pc := .idle, todo := cfg.kids x.data ++ th.todo })
  | .lenScan i m acc =>
    if i < m then
      if (s.locks i).isSome then .blocked
      else .ok (s.setThread t { th with pc := .lenScan (i + 1) m (acc + shardLen cfg s i) })
    else .ok (s.setThread t { th with pc := .lenDone acc })
  | .lenDone _ => .ok (s.setThread t { th with pc := .idle })
  -- shrinking a shard has no effect on its contents; it needs the write lock
  | .shrinkScan i m =>
    if i < m then
      if (s.locks i).isSome then .blocked
      else .ok (s.setThread t { th with pc := .shrinkScan (i + 1) m })
    else .ok (s.setThread t { th with pc := .idle })

/-- A panic of user `Hash`/`Eq` in the lookup (or rehashing) that thread `t` is about to do. The DashMap guard is
released by unwinding; locals are dropped. -/
def runPanic (cfg : Cfg V) (s : State V) (t : Tid) (th : Thread V) : Res (State V) :=
  match th.pc with
  -- in `get_mut` (arc.rs:227): `val` and `converted` are dropped
  | .newLoop c => .ok (s.setThread t (unwindCall cfg c none none))
  -- in `entry` (arc.rs:248): the key, i.e. the box, is dropped
  | .newEntry _ b => .ok (s.setThread t { pc := .dropFree b })
  -- in `remove` (arc.rs:322): the entry stays in the table
  | .dropRemove b =>
    .ok { s.setThread t { th with pc := .idle } with zombies := b :: s.zombies }
  -- in `shrink_to_fit` (arc.rs:186): `Hash` is called for every key when a shard is moved to a smaller allocation; hashbrown
  -- then drops the new allocation and keeps the old one, and the shard's lock is released
  | .shrinkScan i m =>
    if i < m ∧ (s.locks i).isNone then .ok (s.setThread t { th with pc := .idle }) else .blocked
  | _ => .blocked

/-- A panic inside `e.insert(())` (arc.rs:254): unwinding drops the key (freeing the box), releases the
guard, and then drops the local `p` created at arc.rs:251-253. -/
def runPanicInsert (s : State V) (t : Tid) (th : Thread V) : Res (State V) :=
  match th.pc with
  | .newVacant _ sh b =>
    .ok ({ s with heap := free s.heap b }.unlock sh |>.setThread t { pc := .dropSub b })
  | _ => .blocked

/-- The transition function. -/
def step [BEq V] [Hashable V] (cfg : Cfg V) (s : State V) : Act V → Res (State V)
  | .spawn => .ok { s with threads := s.threads ++ [{}] }
  | .new t v dst =>
    match s.threads[t]? with
    | none => .blocked
    | some th =>
      if th.isIdle && ownsAll s.handles (cfg.kids v) && (!dst || (cfg.kids v).isEmpty) then
        .ok { s.setThread t { pc := .newLoop { val := v, dst := dst, conv := none }, arg := some v } with
          handles := eraseAll s.handles (cfg.kids v) }
      else .blocked
  -- arc.rs:273-283: one relaxed `fetch_add`, no overflow check
  | .clone t path =>
    match s.threads[t]? with
    | none => .blocked
    | some th =>
      if th.isIdle then
        match borrow cfg s path with
        | .ok p =>
          match get s.heap p with
          | some x =>
            .ok { s with heap := setCount s.heap p (cfg.inc x.count), handles := p :: s.handles }
          | none => .ub
        | .blocked => .blocked
        | .ub => .ub
      else .blocked
  | .read t path =>
    match s.threads[t]? with
    | none => .blocked
    | some th =>
      if th.isIdle then
        match borrow cfg s path with
        | .ok _ => .ok s
        | .blocked => .blocked
        | .ub => .ub
      else .blocked
  | .drop t p =>
    match s.threads[t]? with
    | none => .blocked
    | some th =>
      if th.isIdle && p ∈ s.handles then
        .ok { s.setThread t { pc := .dropSub p } with handles := s.handles.erase p }
      else .blocked
  | .len t lo up =>
    match s.threads[t]? with
    | none => .blocked
    | some th => if th.isIdle then .ok (s.setThread t { pc := .lenScan lo up 0 }) else .blocked
  | .shrink t lo up =>
    match s.threads[t]? with
    | none => .blocked
    | some th => if th.isIdle then .ok (s.setThread t { pc := .shrinkScan lo up }) else .blocked
  | .run t a =>
    match s.threads[t]? with
    | none => .blocked
    | some th => run cfg s t th a
  | .panic t =>
    match s.threads[t]? with
    | none => .blocked
    | some th => runPanic cfg s t th
  | .panicInsert t =>
    match s.threads[t]? with
    | none => .blocked
    | some th => runPanicInsert s t th

end

end Arc
