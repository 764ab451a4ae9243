/-
Interleaving model of `ArcIntern::get_container` (src/arc.rs:145-180): how threads find the one container of a
type.
-/
namespace Cont

/-- Containers (`&'static Container<T>`), identified by address. -/
abbrev CId := Nat
abbrev Tid := Nat

/-- Where a thread is inside `get_container::<T>()`; `ty` stands for `TypeId::of::<T>()`. -/
inductive Pc (Ty : Type) where
  /-- not inside `get_container`. -/
  | idle
  /-- about to look at the `OnceCell` that applies (arc.rs:155-157 for the common types, arc.rs:167 otherwise). -/
  | start (ty : Ty)
  /-- running the closure of `CONTAINER.get_or_init` (arc.rs:157). -/
  | cellInit (ty : Ty)
  /-- running the closure of `ARC_CONTAINERS.get_or_init` (arc.rs:167). -/
  | outerInit (ty : Ty)
  /-- about to call `type_map.get` (arc.rs:169). -/
  | get (ty : Ty)
  /-- about to call `type_map.entry` (arc.rs:172-173). -/
  | entry (ty : Ty)
  /-- vacant entry, write lock held: about to create and insert a container (arc.rs:174-176). -/
  | vacant (ty : Ty)
  /-- holding a read guard on the entry (arc.rs:170, 177): about to downcast and return (arc.rs:179). -/
  | guard (ty : Ty) (c : CId)
  /-- static container found: about to return it (arc.rs:160). -/
  | ret (ty : Ty) (c : CId)
  deriving DecidableEq

/-- Shared state.
* `cells`: the `static CONTAINER` of each common type (arc.rs:156).
* `outer`: is `ARC_CONTAINERS` initialised (arc.rs:147)?
* `map`: the contents of `ARC_CONTAINERS`.
* `made`: every container created so far with the type of its elements (they are static or leaked, never freed).
* `results`: the history of calls that returned: type asked for, container obtained.
Locks are not stored: a shard is write-locked exactly while a thread is at `vacant` for a type of that shard and
read-locked exactly while a thread is at `guard`; a `OnceCell` is being initialised exactly while a thread is at
`cellInit`/`outerInit`. -/
structure St (Ty : Type) where
  cells : Ty → Option CId
  outer : Bool
  map : List (Ty × CId)
  made : List (CId × Ty)
  threads : List (Pc Ty)
  results : List (Ty × CId)

/-- Start of the process. -/
def init {Ty : Type} : St Ty :=
  { cells := fun _ => none, outer := false, map := [], made := [], threads := [], results := [] }

/-- `common`: the types with a static container of their own (`str`, `String`, arc.rs:165); `shard`: the DashMap shard of
a `TypeId`. -/
structure Cfg (Ty : Type) where
  common : Ty → Bool
  shard : Ty → Nat

/-- `panic`: `downcast_ref().unwrap()` fails (arc.rs:179). -/
inductive Res (σ : Type) where
  | ok (s : σ)
  | blocked
  | panic

inductive Act (Ty : Type) where
  | spawn
  /-- an idle thread calls `get_container::<T>()`. -/
  | call (t : Tid) (ty : Ty)
  /-- one step; `a` is the address of the container if the step creates one. -/
  | run (t : Tid) (a : CId)

section
variable {Ty : Type} [DecidableEq Ty]

/-- Lookup in an association list. -/
def look {α β : Type} [DecidableEq α] (k : α) : List (α × β) → Option β
  | [] => none
  | (x, y) :: l => if x = k then some y else look k l

/-- Is shard `i` write-locked? -/
def wlocked (cfg : Cfg Ty) (s : St Ty) (i : Nat) : Bool :=
  s.threads.any fun pc => match pc with | .vacant ty => cfg.shard ty == i | _ => false
/-- Is shard `i` read-locked? -/
def rlocked (cfg : Cfg Ty) (s : St Ty) (i : Nat) : Bool :=
  s.threads.any fun pc => match pc with | .guard ty _ => cfg.shard ty == i | _ => false
/-- Is some thread initialising the static container of `ty`? -/
def cellBusy (s : St Ty) (ty : Ty) : Bool := s.threads.any fun pc => decide (pc = .cellInit ty)
/-- Is some thread initialising `ARC_CONTAINERS`? -/
def outerBusy (s : St Ty) : Bool := s.threads.any fun pc => match pc with | .outerInit _ => true | _ => false

def St.at (s : St Ty) (t : Tid) (pc : Pc Ty) : St Ty := { s with threads := s.threads.set t pc }

/-- One step of a thread at `pc` (arc.rs:145-180). -/
def run (cfg : Cfg Ty) (s : St Ty) (t : Tid) (a : CId) : Pc Ty → Res (St Ty)
  | .idle => .blocked
  | .start ty =>
    if cfg.common ty then
      match s.cells ty with
      | some c => .ok (s.at t (.ret ty c))
      | none => if cellBusy s ty then .blocked else .ok (s.at t (.cellInit ty))
    else if s.outer then .ok (s.at t (.get ty))
    else if outerBusy s then .blocked
    else .ok (s.at t (.outerInit ty))
  | .cellInit ty =>
    if (look a s.made).isSome then .blocked
    else .ok ({ s with cells := fun x => if x = ty then some a else s.cells x, made := (a, ty) :: s.made }.at t (.ret ty a))
  -- the new `DashMap` is empty
  | .outerInit ty => .ok ({ s with outer := true, map := [] }.at t (.get ty))
  | .get ty =>
    if wlocked cfg s (cfg.shard ty) then .blocked
    else match look ty s.map with
      | some c => .ok (s.at t (.guard ty c))
      | none => .ok (s.at t (.entry ty))
  | .entry ty =>
    if wlocked cfg s (cfg.shard ty) || rlocked cfg s (cfg.shard ty) then .blocked
    else match look ty s.map with
      | some c => .ok (s.at t (.guard ty c))
      | none => .ok (s.at t (.vacant ty))
  | .vacant ty =>
    if (look a s.made).isSome then .blocked
    else .ok ({ s with map := (ty, a) :: s.map, made := (a, ty) :: s.made }.at t (.guard ty a))
  | .guard ty c =>
    if look c s.made = some ty then .ok { s.at t .idle with results := (ty, c) :: s.results } else .panic
  | .ret ty c => .ok { s.at t .idle with results := (ty, c) :: s.results }

def step (cfg : Cfg Ty) (s : St Ty) : Act Ty → Res (St Ty)
  | .spawn => .ok { s with threads := s.threads ++ [.idle] }
  | .call t ty => if s.threads[t]? = some .idle then .ok (s.at t (.start ty)) else .blocked
  | .run t a => match s.threads[t]? with
    | some pc => run cfg s t a pc
    | none => .blocked

/-- States reachable by any interleaving. -/
inductive Reach (cfg : Cfg Ty) : St Ty → Prop
  | init : Reach cfg init
  | step {s s' : St Ty} {a : Act Ty} : Reach cfg s → step cfg s a = .ok s' → Reach cfg s'

end
end Cont
