/-
Interleaving model of the lock-protected intern pools: `Intern<T>` (src/intern.rs, through src/container.rs and
src/boxedset.rs) and `Arena<T>` (src/arena.rs).

A pool is one `HashSet`: one per type `T` for `Intern<T>` (container.rs:18-30), one per arena for `Arena<T>`
(arena.rs:51-57). All pools are treated together; `K` names pools. That the type-indexed shards of container.rs really
give one set per type is proved separately (`Verif/Props/TypeMap.lean`, C28).
-/
namespace Pool

abbrev Tid := Nat

/-- A (possibly fat) pointer: address and metadata (slice length, vtable; 0 for sized types). `Intern` and `ArenaIntern`
have one field of type `&T` (intern.rs:55-57, arena.rs:80-82); comparing two with `core::ptr::eq` compares both parts. -/
structure Ptr where
  addr : Nat
  info : Nat
  deriving DecidableEq, Repr

/-- What `HashSet::get(key)` uses of its argument (boxedset.rs:53-67): the key's hash and the comparison
`<P::Target as Borrow<Q>>::borrow(k) == key`. -/
structure Query (V : Type) where
  hash : UInt64
  eq : V → Bool

/-- The query made by `m.get(&val)`. -/
def Query.ofVal {V : Type} [BEq V] [Hashable V] (v : V) : Query V := { hash := Hashable.hash v, eq := fun x => x == v }

/-- Calls.
* `intern k q mk`: look `q` up in pool `k`; if it is missing store the value `mk` built from the argument. All interning
  functions have this shape: `Intern::new` (intern.rs:210-219), `from_ref` (225-237), `via_box` (151-164),
  `From<Box<T>>` (167-178); `Arena::intern` (arena.rs:118-132), `intern_ref` (136-155), `intern_from_owned` (156-174),
  `intern_from` (406-424).
* `query k q`: `Intern::is_interned` (intern.rs:274-279).
* `len k`: `Intern::num_objects_interned` (intern.rs:249-251).
* `clear k`: `benchmarking_only_clear_interns` (intern.rs:255-257, only with the `bench` feature). -/
inductive Op (K V : Type) where
  | intern (k : K) (q : Query V) (mk : V)
  | query (k : K) (q : Query V)
  | len (k : K)
  | clear (k : K)

/-- The pool an operation works on. -/
def Op.pool {K V : Type} : Op K V → K
  | .intern k _ _ | .query k _ | .len k | .clear k => k

/-- Results. -/
inductive Ret where
  | ptr (p : Ptr)
  | bool (b : Bool)
  | num (n : Nat)
  | unit
  deriving DecidableEq

/-- A boxed value in memory. -/
structure Obj (K V : Type) where
  pool : K
  ptr : Ptr
  val : V

/-- Parameters.
* `lockOf k`: the mutex protecting pool `k`: one of 32 shards for `Intern` (container.rs:62-66, 117-121), the arena's own
  for `Arena` (arena.rs:53-56).
* `owns k`: does the set own its elements (`HashSet<Box<T>>`, arena) or only refer to leaked ones
  (`HashSet<&'static T>`, Intern)?
* `zst k v`, `info k v`, `dangle k v`: is the value zero-sized, its pointer metadata, and the dangling address
  (its alignment) given to boxes of zero-sized values. -/
structure Cfg (K V : Type) where
  lockOf : K → Nat
  owns : K → Bool
  zst : K → V → Bool
  info : K → V → Nat
  dangle : K → V → Nat

/-- Memory layout facts: the size of a value is a function of its type and pointer metadata, and a zero-sized value
carries no information besides them. -/
structure Cfg.Layout {K V : Type} (cfg : Cfg K V) : Prop where
  size : ∀ k v w, cfg.info k v = cfg.info k w → cfg.zst k v = cfg.zst k w
  unique : ∀ k v w, cfg.zst k v = true → cfg.zst k w = true → cfg.info k v = cfg.info k w → v = w

/-- Program counters inside a call. -/
inductive Pc (K V : Type) where
  | idle
  /-- about to lock (container.rs:119, `get_mut()`; arena.rs:119). -/
  | want (o : Op K V)
  /-- lock held: about to do the lookup (or to read `len`, or to clear). -/
  | inside (o : Op K V)
  /-- lookup missed: about to build the value (user `From`) and allocate its box (intern.rs:215, 233; arena.rs:126, 148). -/
  | build (k : K) (q : Query V) (mk : V)
  /-- box `p` allocated: about to `m.insert(..)` (intern.rs:216; arena.rs:128). -/
  | insert (k : K) (q : Query V) (mk : V) (p : Ptr)
  /-- the lookup hit `p`: about to drop the argument (user `Drop`), still under the lock (the argument is a local of the
  closure, intern.rs:211-213). Simplification: `Arena`'s functions unlock first and drop the argument afterwards (it is a
  parameter, arena.rs:118-124); there the two steps are modelled in the opposite order
  (`Verif/Pool/Late.lean` has the exact order and shows that every execution in it is covered by one here). -/
  | dropArg (k : K) (q : Query V) (mk : V) (p : Ptr)
  /-- about to unlock and return. -/
  | leave (o : Op K V) (r : Ret)

/-- A call that has taken effect: who, what, and its result. -/
structure Entry (K V : Type) where
  tid : Tid
  op : Op K V
  ret : Ret

/-- State.
* `heap`: boxes in memory (including leaked ones).
* `table k`: the elements of the set of pool `k`, newest first.
* `lock i`: the holder of mutex `i`.
* `log`: the calls that have taken effect, newest first, in the order in which they did (inside their critical section).
* `done`: the calls that have returned, with the result they returned, newest first.
* `gone`: arenas that have been dropped. -/
structure State (K V : Type) where
  heap : List (Obj K V)
  table : K → List Ptr
  lock : Nat → Option Tid
  threads : List (Pc K V)
  log : List (Entry K V)
  done : List (Entry K V)
  gone : List K

def init {K V : Type} : State K V :=
  { heap := [], table := fun _ => [], lock := fun _ => none, threads := [], log := [], done := [], gone := [] }

inductive Res (σ : Type) where
  | ok (s : σ)
  | blocked
  | ub

/-- Actions. -/
inductive Act (K V : Type) where
  | spawn
  /-- an idle thread starts a call. -/
  | call (t : Tid) (o : Op K V)
  /-- one step of a thread; `a` is the allocator's answer, if the step allocates. -/
  | run (t : Tid) (a : Nat)
  /-- user code (Hash, Eq, Borrow, From, Drop) panics in the next step of thread `t`. -/
  | panic (t : Tid)
  /-- the owner drops arena `k`; Rust's lifetimes allow this only when no call on it is running. -/
  | dropArena (k : K)
  /-- somebody reads through a handle of pool `k`. -/
  | read (k : K) (p : Ptr)

section
variable {K V : Type} [DecidableEq K]

/-- Is `o` the box of pool `k` at `p`? -/
def Obj.is (k : K) (p : Ptr) (o : Obj K V) : Bool := decide (o.pool = k ∧ o.ptr = p)

/-- Reading through a pointer; `none` = freed memory. -/
def deref (s : State K V) (k : K) (p : Ptr) : Option V := (s.heap.find? (Obj.is k p)).map (·.val)

/-- `HashMap` lookup (boxedset.rs:53-67). -/
def find [Hashable V] (s : State K V) (k : K) (q : Query V) : Option Ptr :=
  (s.table k).find? fun p => match deref s k p with
    | some x => hash x == q.hash && q.eq x
    | none => false

/-- A lookup reads the elements of the set; it is only defined if they are all in memory. -/
def tableOk (s : State K V) (k : K) : Bool := (s.table k).all fun p => (deref s k p).isSome

/-- Freeing one box. -/
def free (h : List (Obj K V)) (k : K) (p : Ptr) : List (Obj K V) := h.eraseP (Obj.is k p)

/-- The call takes effect with result `r`; thread `t` is about to return it. -/
def State.commit (s : State K V) (t : Tid) (o : Op K V) (r : Ret) : State K V :=
  { s with threads := s.threads.set t (.leave o r), log := { tid := t, op := o, ret := r } :: s.log }
def State.at (s : State K V) (t : Tid) (pc : Pc K V) : State K V := { s with threads := s.threads.set t pc }
def State.unlock (s : State K V) (i : Nat) : State K V :=
  { s with lock := fun j => if j = i then none else s.lock j }
def State.setTable (s : State K V) (k : K) (l : List Ptr) : State K V :=
  { s with table := fun j => if j = k then l else s.table j }

/-- The address a new box gets: zero-sized values are not allocated; otherwise any address at which no
(non-zero-sized) box lives. -/
def allocAt (cfg : Cfg K V) (s : State K V) (k : K) (v : V) (a : Nat) : Option Nat :=
  if cfg.zst k v then some (cfg.dangle k v)
  else if a ≠ 0 ∧ s.heap.all (fun o => cfg.zst o.pool o.val || o.ptr.addr != a) then some a
  else none

/-- One step of a thread at `pc`. -/
def run [BEq V] [Hashable V] (cfg : Cfg K V) (s : State K V) (t : Tid) (a : Nat) : Pc K V → Res (State K V)
  | .idle => .blocked
  -- take the mutex; poisoning is ignored (container.rs:53-62, arena.rs:59-71)
  | .want o =>
    if (s.lock (cfg.lockOf o.pool)).isSome then .blocked
    else .ok ({ s with lock := fun j => if j = cfg.lockOf o.pool then some t else s.lock j }.at t (.inside o))
  | .inside o =>
    if tableOk s o.pool then
      match o with
      -- intern.rs:212 `if let Some(&b) = m.get(&val)`
      | .intern k q mk => match find s k q with
        | some p => .ok (s.at t (.dropArg k q mk p))
        | none => .ok (s.at t (.build k q mk))
      | .query k q => .ok (s.commit t o (.bool (find s k q).isSome))
      | .len k => .ok (s.commit t o (.num (s.table k).length))
      | .clear k => if cfg.owns k then .blocked else .ok ((s.setTable k []).commit t o .unit)
    else .ub
  -- intern.rs:215 `Box::leak(Box::new(val))`, arena.rs:126 `Box::new(val)`
  | .build k q mk => match allocAt cfg s k mk a with
    | none => .blocked
    | some addr =>
      let p : Ptr := { addr := addr, info := cfg.info k mk }
      .ok ({ s with heap := { pool := k, ptr := p, val := mk } :: s.heap }.at t (.insert k q mk p))
  -- `HashMap::insert(key, ())` looks the key up again; if an equal key is present that one stays and the new one is
  -- dropped (boxedset.rs:81-83): a `Box` is freed, a `&'static` is not. The function returns the new pointer anyway.
  | .insert k q mk p =>
    if tableOk s k then
      match find s k (.ofVal mk) with
      | some _ =>
        let s' := if cfg.owns k then { s with heap := free s.heap k p } else s
        .ok (s'.commit t (.intern k q mk) (.ptr p))
      | none => .ok ((s.setTable k (p :: s.table k)).commit t (.intern k q mk) (.ptr p))
    else .ub
  | .dropArg k q mk p => .ok (s.commit t (.intern k q mk) (.ptr p))
  | .leave o r =>
    .ok { (s.unlock (cfg.lockOf o.pool)).at t .idle with done := { tid := t, op := o, ret := r } :: s.done }

/-- User code panics: locals are dropped (a box that was about to be inserted into an arena is freed, a leaked one is
not), the guard is released by unwinding; no handle is returned. -/
def runPanic (cfg : Cfg K V) (s : State K V) (t : Tid) : Pc K V → Res (State K V)
  -- Hash/Eq/Borrow in the lookup
  | .inside o => .ok ((s.unlock (cfg.lockOf o.pool)).at t .idle)
  -- From
  | .build k _ _ => .ok ((s.unlock (cfg.lockOf k)).at t .idle)
  -- Hash/Eq in the insertion (also when the table grows: hashbrown then leaves the old table as it was)
  | .insert k _ _ p =>
    .ok ({ s with heap := if cfg.owns k then free s.heap k p else s.heap }.unlock (cfg.lockOf k) |>.at t .idle)
  -- Drop of the unused argument
  | .dropArg k _ _ _ => .ok ((s.unlock (cfg.lockOf k)).at t .idle)
  | _ => .blocked

/-- The pool a thread is working on. -/
def Pc.pool? : Pc K V → Option K
  | .idle => none
  | .want o | .inside o | .leave o _ => some o.pool
  | .build k _ _ | .insert k _ _ _ | .dropArg k _ _ _ => some k

/-- The transition function. -/
def step [BEq V] [Hashable V] (cfg : Cfg K V) (s : State K V) : Act K V → Res (State K V)
  | .spawn => .ok { s with threads := s.threads ++ [.idle] }
  | .call t o => match s.threads[t]? with
    | some .idle => if o.pool ∈ s.gone then .blocked else .ok (s.at t (.want o))
    | _ => .blocked
  | .run t a => match s.threads[t]? with
    | some pc => run cfg s t a pc
    | none => .blocked
  | .panic t => match s.threads[t]? with
    | some pc => runPanic cfg s t pc
    | none => .blocked
  -- drop glue of `HashSet<Box<T>>`: every element is freed
  | .dropArena k =>
    if cfg.owns k && !decide (k ∈ s.gone) && s.threads.all (fun pc => decide (pc.pool? ≠ some k)) then
      .ok { (s.setTable k []) with heap := (s.table k).foldl (fun h p => free h k p) s.heap, gone := k :: s.gone }
    else .blocked
  | .read k p => match deref s k p with
    | some _ => .ok s
    | none => .ub

end
end Pool
