import Verif.TypeMap.Hasher
import Verif.TypeMap.Code
/-
Interleaving model of container.rs: 32 mutex-protected vectors of type-erased tables, and `Arena::with`.
-/
namespace TypeMap

abbrev Tid := Nat

/-- The types used with `Arena::with`: `Ty` their `TypeId`s, `C t` the values of type `t` (for `Intern<T>` that is
`HashSet<&'static T>`), `dflt` their `Default`, `R t` the results of the closures, `writes t` what hashing the `TypeId` of
`t` writes to the hasher, `w` the width of `usize`. -/
structure Cfg where
  Ty : Type
  [dec : DecidableEq Ty]
  C : Ty → Type
  dflt : (t : Ty) → C t
  R : Ty → Type
  writes : Ty → List Write
  w : Nat

instance (cfg : Cfg) : DecidableEq cfg.Ty := cfg.dec

variable (cfg : Cfg)

/-- A type-erased value with its type, `Box<dyn Any + Send>` (container.rs:15). -/
abbrev Dyn := (t : cfg.Ty) × cfg.C t

/-- The shard of a type (container.rs:118). -/
def Cfg.shard (t : cfg.Ty) : Nat := shardIndex cfg.w (hashWrites (cfg.writes t))

/-- Where a thread is in `Arena::with` (container.rs:117-122). `inside t orig n k pos`: it holds the mutex, has a
`&mut` to position `pos` of the vector, and has executed `n` steps of the closure `orig`; `k` remains. -/
inductive Pc where
  | idle
  | want (t : cfg.Ty) (code : Code (cfg.C t) (cfg.R t))
  | inside (t : cfg.Ty) (orig : Code (cfg.C t) (cfg.R t)) (n : Nat) (k : Code (cfg.C t) (cfg.R t)) (pos : Nat)

/-- State: the 32 vectors (container.rs:66-68), the holders of their mutexes, the threads, and the calls that are over,
by type, newest first. -/
structure State where
  shards : List (List (Dyn cfg))
  lock : Nat → Option Tid
  threads : List (Pc cfg)
  log : (t : cfg.Ty) → List (Entry (cfg.C t) (cfg.R t))

/-- `Arena::new` (container.rs:71-77). -/
def init : State cfg :=
  { shards := List.replicate containerCount [], lock := fun _ => none, threads := [], log := fun _ => [] }

/-- Results; `bug` is an index out of bounds or an `unwrap` of `None`. -/
inductive Res (σ : Type) where
  | ok (s : σ)
  | blocked
  | bug

inductive Act where
  | spawn
  | call (u : Tid) (t : cfg.Ty) (code : Code (cfg.C t) (cfg.R t))
  | run (u : Tid)
  | panic (u : Tid)

variable {cfg}

/-- `downcast_mut::<T>()`. -/
def downcast (t : cfg.Ty) (x : Dyn cfg) : Option (cfg.C t) := if h : x.1 = t then some (h ▸ x.2) else none

/-- `get_type_mut` (container.rs:18-30): the vector afterwards and the position of the reference returned; `none` = one
of the `unwrap`s or the index panics. -/
def getTypeMut (v : List (Dyn cfg)) (t : cfg.Ty) : Option (List (Dyn cfg) × Nat) :=
  match v.findIdx? (fun x => (downcast t x).isSome) with
  | some i => match v[i]? with
    | some x => (downcast t x).map fun _ => (v, i)
    | none => none
  | none =>
    let v' := v ++ [⟨t, cfg.dflt t⟩]
    match v'.getLast? with
    | some x => (downcast t x).map fun _ => (v', v'.length - 1)
    | none => none

def State.setLog (s : State cfg) (t : cfg.Ty) (e : Entry (cfg.C t) (cfg.R t)) : (t : cfg.Ty) → List (Entry (cfg.C t) (cfg.R t)) :=
  fun t' => if h : t = t' then h ▸ (e :: s.log t) else s.log t'

/-- The guard is dropped; the call is over. -/
def State.finish (s : State cfg) (u : Tid) (t : cfg.Ty) (e : Entry (cfg.C t) (cfg.R t)) : State cfg :=
  { s with lock := fun j => if j = cfg.shard t then none else s.lock j, threads := s.threads.set u .idle,
           log := s.setLog t e }

/-- One step of a thread. -/
def run (s : State cfg) (u : Tid) : Pc cfg → Res (State cfg)
  | .idle => .blocked
  -- `self.containers[i].get_mut().get_type_mut()` (container.rs:118-120); poisoning is ignored (53-62)
  | .want t code => match s.shards[cfg.shard t]? with
    | none => .bug
    | some v =>
      if (s.lock (cfg.shard t)).isSome then .blocked
      else match getTypeMut v t with
        | none => .bug
        | some (v', pos) => .ok
          { s with shards := s.shards.set (cfg.shard t) v',
                   lock := fun j => if j = cfg.shard t then some u else s.lock j,
                   threads := s.threads.set u (.inside t code 0 code pos) }
  -- `f(..)`; the guard is a temporary of the call expression, dropped when `f` has returned
  | .inside t orig n k pos => match k with
    | .ret r => .ok (s.finish u t ⟨orig, n, some r⟩)
    | .next f k => match s.shards[cfg.shard t]? with
      | none => .bug
      | some v => match v[pos]? with
        | none => .bug
        | some x => match downcast t x with
          | none => .bug
          | some c => .ok { s with shards := s.shards.set (cfg.shard t) (v.set pos ⟨t, f c⟩),
                                   threads := s.threads.set u (.inside t orig (n + 1) (k c) pos) }

/-- User code called by the closure panics: the guard is dropped by unwinding, the table stays as it is. -/
def runPanic (s : State cfg) (u : Tid) : Pc cfg → Res (State cfg)
  | .inside t orig n _ _ => .ok (s.finish u t ⟨orig, n, none⟩)
  | _ => .blocked

def step (s : State cfg) : Act cfg → Res (State cfg)
  | .spawn => .ok { s with threads := s.threads ++ [.idle] }
  | .call u t code => match s.threads[u]? with
    | some .idle => .ok { s with threads := s.threads.set u (.want t code) }
    | _ => .blocked
  | .run u => match s.threads[u]? with
    | some pc => run s u pc
    | none => .blocked
  | .panic u => match s.threads[u]? with
    | some pc => runPanic s u pc
    | none => .blocked

inductive Reach : State cfg → Prop where
  | init : Reach (init cfg)
  | step {s s' a} : Reach s → TypeMap.step s a = .ok s' → Reach s'

/-- The table of type `t` is at position `pos` of its shard, with contents `c`. -/
def Holds (s : State cfg) (i pos : Nat) (t : cfg.Ty) (c : cfg.C t) : Prop :=
  ∃ v, s.shards[i]? = some v ∧ v[pos]? = some ⟨t, c⟩

end TypeMap
