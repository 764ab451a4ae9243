import Verif.Arc.Spec
/-
Happens-before for `ArcIntern` (C17): the memory events of an execution, the ordering C++20/Rust guarantees between
them, and executions of the model with their event traces.

The interleaving of `Verif.Arc.Model` fixes the order of the read-modify-writes of each counter and of the critical
sections of each shard lock (both are total orders in the memory model as well). Nothing else in that order is used:
two events are ordered only if `HB` says so.
-/
namespace Arc
variable {V : Type}

/-- `core::sync::atomic::Ordering`. -/
inductive Order where
  | relaxed | acquire | release | acqRel | seqCst
  deriving DecidableEq, Repr

def Order.acquires : Order → Bool
  | .acquire | .acqRel | .seqCst => true
  | _ => false
def Order.releases : Order → Bool
  | .release | .acqRel | .seqCst => true
  | _ => false

/-- The orderings of the four read-modify-writes on a counter: `clone` (arc.rs:279), the increment of `new`
(arc.rs:231, arc_dst.rs:83), its undoing (arc.rs:241, arc_dst.rs:93) and the decrement of `drop` (arc.rs:299). -/
structure Orders where
  clone : Order
  find : Order
  undo : Order
  drop : Order

/-- The orderings in the source. The `SeqCst` fence of arc.rs:314 is left out of the model, so nothing proved here
relies on it. -/
def Orders.code : Orders := { clone := .relaxed, find := .seqCst, undo := .seqCst, drop := .seqCst }

/-- What a memory event does. Objects (boxes) and client handles carry serial numbers, so that an address that is
used again is a new object and a copied handle is a new handle.
* `lock i`, `unlock i`: write lock of shard `i`; `rlock i`, `runlock i`: its read lock.
* `make o`: the box of object `o` is allocated and written (arc.rs:244-247, arc_dst.rs:24-64).
* `look o`: the data of object `o` is read, by the library (`Hash`/`Eq` in a table operation) or by client code.
* `rmw o ord`: an atomic read-modify-write of the counter of `o`.
* `free o`: the value in `o` is destroyed or moved out, and the box deallocated.
* `table i`, `size i`: the hash table of shard `i` is read or written; its length is read.
* `got h`, `use h`, `give h`: client code obtains handle `h`, starts or ends using it by shared reference, gives
  it up (by dropping it or by moving it into a value that is being interned). -/
inductive What where
  | lock (i : Nat) | unlock (i : Nat) | rlock (i : Nat) | runlock (i : Nat)
  | make (o : Nat) | look (o : Nat) | rmw (o : Nat) (ord : Order) | free (o : Nat)
  | table (i : Nat) | size (i : Nat)
  | got (h : Nat) | use (h : Nat) | give (h : Nat)
  deriving DecidableEq, Repr

structure Ev where
  tid : Tid
  what : What
  deriving DecidableEq, Repr

/-- Edges between events of different threads, the first being earlier than the second in the total order of the lock
or counter concerned.
* Releasing a lock synchronises with later acquisitions (readers do not synchronise with each other).
* A releasing read-modify-write synchronises with every later acquiring one on the same counter: all modifications of
  a counter are read-modify-writes, so they all belong to the release sequence.
* Rust's ownership rules: a handle is obtained before it is used, and all uses are over before it is given up. (This
  is what `Send`, `Sync` and the borrow checker guarantee about safe client code, however it moves handles between
  threads.) -/
def Sync : What → What → Prop
  | .unlock i, .lock j => i = j
  | .unlock i, .rlock j => i = j
  | .runlock i, .lock j => i = j
  | .rmw o x, .rmw p y => o = p ∧ x.releases = true ∧ y.acquires = true
  | .got h, .use k => h = k
  | .got h, .give k => h = k
  | .use h, .give k => h = k
  | _, _ => False

/-- Happens-before between positions of a trace (oldest event first): program order and synchronisation, closed under
composition. -/
inductive HB (tr : List Ev) : Nat → Nat → Prop where
  | edge {i j a b} : i < j → tr[i]? = some a → tr[j]? = some b → (a.tid = b.tid ∨ Sync a.what b.what) → HB tr i j
  | trans {i j k} : HB tr i j → HB tr j k → HB tr i k

/-! ### The events of a step -/

/-- What the model leaves open in a step.
* `h`: which client handle is used; `hs`: which ones move into the new value, `rest`: the others.
* `before`, `under`: the objects whose data user code (`Hash`, `Eq`, `Drop`, or the client) reads before, and while,
  the shard lock is held.
* `early`: a panic happens before the lock is taken. -/
structure Choice where
  h : Nat := 0
  hs : List (Nat × Addr) := []
  rest : List (Nat × Addr) := []
  before : List Addr := []
  under : List Addr := []
  early : Bool := false

/-- Objects in the hands of a running call. -/
def Thread.roots (cfg : Cfg V) (th : Thread V) : List Addr :=
  th.owned cfg ++ th.pc.priv ++ (match th.pc with | .dropRemove b => [b] | _ => [])

/-- The shard whose lock is held while `under` is read. -/
def Pc.shard [Hashable V] (cfg : Cfg V) (s : State V) : Pc V → Option Nat
  | .newVacant _ sh _ => some sh
  | pc => pc.wants cfg s

/-- Reads by a running call: objects reachable from its locals, and, under the lock, also those reachable from the
objects registered in the shard. -/
def ReadsOk [Hashable V] (cfg : Cfg V) (s : State V) (th : Thread V) (ch : Choice) : Prop :=
  (∀ x ∈ ch.before, ∃ r ∈ th.roots cfg, Points cfg s r x) ∧
  (∀ x ∈ ch.under, ∃ r, Points cfg s r x ∧ (r ∈ th.roots cfg ∨
    r ∈ s.table ∧ ∃ v, deref s r = some v ∧ th.pc.shard cfg s = some (cfg.shardOf v)))

/-- Which choices are possible. `own` lists the serial numbers and addresses of the client's handles. -/
def Choice.Ok [Hashable V] (cfg : Cfg V) (s : State V) (own : List (Nat × Addr)) (ch : Choice) : Act V → Prop
  | .new _ v _ => own.Perm (ch.hs ++ ch.rest) ∧ ch.hs.map (·.2) = cfg.kids v
  -- client code reads objects reachable from the handle it uses
  | .clone _ path | .read _ path => match path with
    | [] => False
    | p :: _ => (ch.h, p) ∈ own ∧ ∀ x ∈ ch.before, Points cfg s p x
  | .drop _ p => (ch.h, p) ∈ own
  | .run t _ => ∀ th, s.threads[t]? = some th → ReadsOk cfg s th ch
  | .panic t => ∀ th, s.threads[t]? = some th → ReadsOk cfg s th ch ∧
      (ch.early = true ∨ ∀ i, th.pc.shard cfg s = some i → s.locks i = none)
  | _ => True

def looks (t : Tid) (obj : Addr → Nat) (xs : List Addr) : List Ev := xs.map fun x => ⟨t, .look (obj x)⟩

/-- A table operation of DashMap: hash the key, take the write lock of the shard, probe. -/
def lookup (t : Tid) (obj : Addr → Nat) (ch : Choice) (i : Nat) : List Ev :=
  looks t obj ch.before ++ [⟨t, .lock i⟩, ⟨t, .table i⟩] ++ looks t obj ch.under

/-- Events of one step of a running call; `n` is the position of the first one. -/
def runEvents [BEq V] [Hashable V] (cfg : Cfg V) (od : Orders) (s : State V) (obj : Addr → Nat) (ch : Choice) (n : Nat)
    (t : Tid) (th : Thread V) : List Ev :=
  match th.pc with
  | .idle => match th.todo, th.ret with
    | [], some _ => [⟨t, .got n⟩]
    | _, _ => []
  | .newLoop c => lookup t obj ch (cfg.shardOf c.val) ++
      match find s c.val with
      | some _ => []
      | none => [⟨t, .unlock (cfg.shardOf c.val)⟩]
  | .newFound _ _ b => [⟨t, .rmw (obj b) od.find⟩]
  | .newUndo _ _ b => [⟨t, .rmw (obj b) od.undo⟩]
  | .newRelease _ sh | .newHit _ sh _ | .newInserted _ sh _ | .newOccupied _ sh _ => [⟨t, .unlock sh⟩]
  | .newAlloc _ => [⟨t, .make n⟩]
  | .newEntry _ b => match deref s b with
    | some v => lookup t obj ch (cfg.shardOf v)
    | none => []
  -- the insertion may move the whole table and rehash it
  | .newVacant _ sh _ => ⟨t, .table sh⟩ :: looks t obj ch.under
  | .newUnbox _ b => [⟨t, .free (obj b)⟩]
  | .dropSub b => [⟨t, .rmw (obj b) od.drop⟩]
  | .dropRemove b => match deref s b with
    | some v => lookup t obj ch (cfg.shardOf v) ++ [⟨t, .unlock (cfg.shardOf v)⟩]
    | none => []
  -- the destructor may read the value and follow its handles
  | .dropFree b => looks t obj ch.before ++ [⟨t, .free (obj b)⟩]
  | .lenScan i m _ => if i < m then [⟨t, .rlock i⟩, ⟨t, .size i⟩, ⟨t, .runlock i⟩] else []
  | .lenDone _ => []
  | .shrinkScan i m =>
    if i < m then [⟨t, .lock i⟩, ⟨t, .table i⟩] ++ looks t obj ch.under ++ [⟨t, .unlock i⟩] else []

/-- Events of a table operation that unwinds: hashing panicked, or a comparison under the lock did. -/
def panicEvents [Hashable V] (cfg : Cfg V) (s : State V) (obj : Addr → Nat) (ch : Choice) (t : Tid) (th : Thread V) :
    List Ev :=
  if ch.early then looks t obj ch.before
  else match th.pc.wants cfg s with
    | some i => lookup t obj ch i ++ [⟨t, .unlock i⟩]
    | none => []

/-- Events of one action. -/
def events [BEq V] [Hashable V] (cfg : Cfg V) (od : Orders) (s : State V) (obj : Addr → Nat) (ch : Choice) (n : Nat) :
    Act V → List Ev
  | .new t _ _ => ch.hs.map fun h => ⟨t, .give h.1⟩
  | .clone t path => match borrow cfg s path with
    | .ok q => [⟨t, .use ch.h⟩] ++ looks t obj ch.before ++ [⟨t, .rmw (obj q) od.clone⟩, ⟨t, .use ch.h⟩, ⟨t, .got n⟩]
    | _ => []
  | .read t _ => [⟨t, .use ch.h⟩] ++ looks t obj ch.before ++ [⟨t, .use ch.h⟩]
  | .drop t _ => [⟨t, .give ch.h⟩]
  | .run t _ => match s.threads[t]? with
    | some th => runEvents cfg od s obj ch n t th
    | none => []
  | .panic t => match s.threads[t]? with
    | some th => panicEvents cfg s obj ch t th
    | none => []
  | _ => []

/-- A new box is a new object, numbered by the position of its `make` event. -/
def newObj (s : State V) (obj : Addr → Nat) (n : Nat) : Act V → Addr → Nat
  | .run t a => match s.threads[t]? with
    | some th => match th.pc with
      | .newAlloc _ => fun b => if b = a then n else obj b
      | _ => obj
    | none => obj
  | _ => obj

/-- The client's handles after the action. -/
def newOwn (cfg : Cfg V) (s : State V) (own : List (Nat × Addr)) (ch : Choice) (n : Nat) : Act V → List (Nat × Addr)
  | .new _ _ _ => ch.rest
  | .clone _ path => match borrow cfg s path with
    | .ok q => (n, q) :: own
    | _ => own
  | .drop _ p => own.erase (ch.h, p)
  | .run t _ => match s.threads[t]? with
    | some th => match th.pc, th.todo, th.ret with
      | .idle, [], some b => (n, b) :: own
      | _, _, _ => own
    | none => own
  | _ => own

/-- Executions with their traces. `obj` gives the serial number of the object at each address, `own` the client's
handles. -/
inductive Traced [BEq V] [Hashable V] (cfg : Cfg V) (od : Orders) :
    State V → (Addr → Nat) → List (Nat × Addr) → List Ev → Prop
  | init : Traced cfg od init (fun _ => 0) [] []
  | step {s s' : State V} {obj own tr} {a : Act V} {ch : Choice} : Traced cfg od s obj own tr → a.Sane →
      step cfg s a = .ok s' → Small cfg s' → ch.Ok cfg s own a →
      Traced cfg od s' (newObj s obj tr.length a) (newOwn cfg s own ch tr.length a)
        (tr ++ events cfg od s obj ch tr.length a)

/-- The object whose box an event reads, writes or updates. -/
def What.touch : What → Option Nat
  | .make o | .look o | .rmw o _ => some o
  | _ => none

end Arc
