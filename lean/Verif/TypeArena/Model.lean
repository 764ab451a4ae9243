import Verif.TypeMap.Model
/-
Interleaving model of typearena.rs `with_mutex_hashset` (lines 23-84), the type table of `NewIntern`: 32 lock-free
append-only vectors of type-erased `Mutex<HashSet<T>>`.
-/
namespace TypeArena
open TypeMap (Cfg Code Entry Tid Res containerCount)

/-- `Mutex<HashSet<T>>`: contents, holder, poison flag. -/
structure Lock (C : Type) where
  val : C
  owner : Option Tid
  poisoned : Bool

variable (cfg : Cfg)

/-- `AnySend(Box<dyn Any + Send + Sync>)` (typearena.rs:16): a type and a mutex for that type. -/
abbrev Cell := (t : cfg.Ty) × Lock (cfg.C t)

/-- Where a thread is in `with_mutex_hashset`.
* `search`: first loop (typearena.rs:64-69);
* `push`: nothing found, about to push (70-71);
* `again m`: second loop (77-82); `m` elements at least are visible, among them the one this thread pushed;
* `lock pos`: found the mutex at `pos`, about to `lock().unwrap()` (66, 79);
* `inside`: running the closure with the guard. -/
inductive Pc where
  | idle
  | search (t : cfg.Ty) (code : Code (cfg.C t) (cfg.R t))
  | push (t : cfg.Ty) (code : Code (cfg.C t) (cfg.R t))
  | again (t : cfg.Ty) (code : Code (cfg.C t) (cfg.R t)) (m : Nat)
  | lock (t : cfg.Ty) (code : Code (cfg.C t) (cfg.R t)) (pos : Nat)
  | inside (t : cfg.Ty) (orig : Code (cfg.C t) (cfg.R t)) (n : Nat) (k : Code (cfg.C t) (cfg.R t)) (pos : Nat)

/-- State: the vectors, the threads, the calls whose closure ran, by type, newest first, and the calls that panicked on a
poisoned mutex. -/
structure State where
  vecs : List (List (Cell cfg))
  threads : List (Pc cfg)
  log : (t : cfg.Ty) → List (Entry (cfg.C t) (cfg.R t))
  refused : List (Tid × cfg.Ty)

/-- `CONTAINERS` (typearena.rs:21). -/
def init : State cfg :=
  { vecs := List.replicate containerCount [], threads := [], log := fun _ => [], refused := [] }

/-- Actions. `run u n`: a step of thread `u`; if the step iterates over a vector, `n` is the number of elements it sees:
the length of an `AppendOnlyVec` is an atomic counter, a thread may read an old value of it, but not one older than its
own last push to the vector. -/
inductive Act where
  | spawn
  | call (u : Tid) (t : cfg.Ty) (code : Code (cfg.C t) (cfg.R t))
  | run (u : Tid) (n : Nat)
  | panic (u : Tid)

variable {cfg}

/-- `downcast_ref::<Mutex<HashSet<T>>>()`. -/
def downcast (t : cfg.Ty) (x : Cell cfg) : Option (Lock (cfg.C t)) := if h : x.1 = t then some (h ▸ x.2) else none

/-- The loops: the first of the visible elements that is a mutex for `t`. -/
def find (v : List (Cell cfg)) (t : cfg.Ty) (n : Nat) : Option Nat :=
  (v.take n).findIdx? fun x => (downcast t x).isSome

def State.setLog (s : State cfg) (t : cfg.Ty) (e : Entry (cfg.C t) (cfg.R t)) : (t : cfg.Ty) → List (Entry (cfg.C t) (cfg.R t)) :=
  fun t' => if h : t = t' then h ▸ (e :: s.log t) else s.log t'

/-- Write the mutex at `pos` of the shard of `t`. -/
def setCell (V : List (List (Cell cfg))) (t : cfg.Ty) (pos : Nat) (c : Lock (cfg.C t)) : List (List (Cell cfg)) :=
  V.modify (cfg.shard t) fun v => v.set pos ⟨t, c⟩

/-- Read it; `none` = out of bounds or of another type (cannot happen). -/
def getCell (V : List (List (Cell cfg))) (t : cfg.Ty) (pos : Nat) : Option (Lock (cfg.C t)) :=
  ((V[cfg.shard t]?).bind (·[pos]?)).bind (downcast t)

/-- One step of a thread. -/
def run (s : State cfg) (u : Tid) (n : Nat) : Pc cfg → Res (State cfg)
  | .idle => .blocked
  | .search t code => match s.vecs[cfg.shard t]? with
    | none => .bug
    | some v =>
      if v.length < n then .blocked
      else match find v t n with
        | some pos => .ok { s with threads := s.threads.set u (.lock t code pos) }
        | none => .ok { s with threads := s.threads.set u (.push t code) }
  | .push t code => match s.vecs[cfg.shard t]? with
    | none => .bug
    | some v => .ok
      { s with vecs := s.vecs.set (cfg.shard t) (v ++ [⟨t, { val := cfg.dflt t, owner := none, poisoned := false }⟩]),
               threads := s.threads.set u (.again t code (v.length + 1)) }
  | .again t code m => match s.vecs[cfg.shard t]? with
    | none => .bug
    | some v =>
      if n < m ∨ v.length < n then .blocked
      else match find v t n with
        | some pos => .ok { s with threads := s.threads.set u (.lock t code pos) }
        -- `unreachable!()` (typearena.rs:83)
        | none => .bug
  | .lock t code pos => match getCell s.vecs t pos with
    | none => .bug
    | some c =>
      if c.owner.isSome then .blocked
      -- `lock().unwrap()` panics; the guard inside the error is dropped
      else if c.poisoned then .ok { s with threads := s.threads.set u .idle, refused := (u, t) :: s.refused }
      else .ok { s with vecs := setCell s.vecs t pos { c with owner := some u },
                        threads := s.threads.set u (.inside t code 0 code pos) }
  | .inside t orig i k pos => match getCell s.vecs t pos with
    | none => .bug
    | some c => match k with
      | .ret r => .ok { s with vecs := setCell s.vecs t pos { c with owner := none }, threads := s.threads.set u .idle,
                               log := s.setLog t ⟨orig, i, some r⟩ }
      | .next f k => .ok { s with vecs := setCell s.vecs t pos { c with val := f c.val },
                                  threads := s.threads.set u (.inside t orig (i + 1) (k c.val) pos) }

/-- User code panics inside the closure: the guard is dropped while panicking and poisons the mutex. -/
def runPanic (s : State cfg) (u : Tid) : Pc cfg → Res (State cfg)
  | .inside t orig i _ pos => match getCell s.vecs t pos with
    | none => .bug
    | some c => .ok { s with vecs := setCell s.vecs t pos { c with owner := none, poisoned := true },
                             threads := s.threads.set u .idle, log := s.setLog t ⟨orig, i, none⟩ }
  | _ => .blocked

def step (s : State cfg) : Act cfg → Res (State cfg)
  | .spawn => .ok { s with threads := s.threads ++ [.idle] }
  | .call u t code => match s.threads[u]? with
    | some .idle => .ok { s with threads := s.threads.set u (.search t code) }
    | _ => .blocked
  | .run u n => match s.threads[u]? with
    | some pc => run s u n pc
    | none => .blocked
  | .panic u => match s.threads[u]? with
    | some pc => runPanic s u pc
    | none => .blocked

inductive Reach : State cfg → Prop where
  | init : Reach (init cfg)
  | step {s s' a} : Reach s → TypeArena.step s a = .ok s' → Reach s'

/-- Any number of further steps. -/
inductive Steps (s : State cfg) : State cfg → Prop where
  | refl : Steps s s
  | step {s' s'' a} : Steps s s' → TypeArena.step s' a = .ok s'' → Steps s s''

/-- The table in use for type `t`: the first mutex for `t` in its vector. -/
def table (s : State cfg) (t : cfg.Ty) : Option (Nat × Lock (cfg.C t)) :=
  (s.vecs[cfg.shard t]?).bind fun v => (find v t v.length).bind fun pos => (getCell s.vecs t pos).map fun c => (pos, c)

end TypeArena
