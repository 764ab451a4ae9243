/-
The crate's own unit tests, transcribed and run on the model.

These are tests *of the model*, not proofs of properties: each one replays on `Arc.step` / `Pool.step` the calls that a
`#[test]` of the crate makes and checks the assertions that test makes. They guard against a model that proves the
properties but does something else than the code. Where a test uses strings the values here are numbers standing for them;
the allocator always returns the lowest free address, so freed addresses are reused at once.
-/
import Verif.Arc.Model
import Verif.Pool.Model
import Verif.Dst.Layout
import Verif.DeepCtx
import Verif.Fits64
import Verif.TypeMap.Model

namespace Conformance

/-! ## `ArcIntern` -/
namespace OfArc
open Arc

/-- A value type with one variant that owns a handle (`enum Nat` of arc.rs, 542-545). -/
inductive Val where
  | num (n : Nat)
  | succ (p : Addr)
  deriving DecidableEq

instance : Hashable Val where
  hash
    | .num n => UInt64.ofNat n
    | .succ p => UInt64.ofNat (p + 1)

def cfg : Cfg Val where
  kids
    | .num _ => []
    | .succ p => [p]
  shards := 4
  pick h := h.toNat % 4
  W := 18446744073709551616

/-- A test: a program over the state that can fail. -/
abbrev Test := StateT (State Val) Option

/-- The lowest address that is not in use. -/
def lowest (s : State Val) : Nat → Nat → Addr
  | 0, a => a
  | n + 1, a => if a ∈ keys s.heap then lowest s n (a + 1) else a

/-- One action; a test fails if the model blocks or has undefined behaviour. -/
def act (x : Act Val) : Test Unit := do
  match step cfg (← get) x with
  | .ok s => set s
  | _ => failure

/-- Run thread `t` until its call is over. -/
def finish (t : Tid) : Nat → Test Unit
  | 0 => failure
  | n + 1 => do
    let s ← get
    match s.threads[t]? with
    | none => failure
    | some th => if th.isIdle then pure () else do act (.run t (lowest s 20 1)); finish t n

/-- `ArcIntern::new(v)`, or an unsized constructor. -/
def new (v : Val) (dst : Bool := false) : Test Addr := do
  act (.new 0 v dst)
  finish 0 50
  match (← get).handles with
  | p :: _ => pure p
  | [] => failure

/-- `p.clone()`. -/
def clone (p : Addr) : Test Addr := do act (.clone 0 [p]); pure p

/-- A handle goes out of scope. -/
def drop (p : Addr) : Test Unit := do act (.drop 0 p); finish 0 50

/-- `*p`. -/
def read (p : Addr) : Test Val := do
  act (.read 0 [p])
  match Arc.get (← get).heap p with
  | some c => pure c.data
  | none => failure

/-- `p.refcount()`. -/
def refcount (p : Addr) : Test Nat := do
  act (.read 0 [p])
  match Arc.get (← get).heap p with
  | some c => pure c.count
  | none => failure

/-- Run `num_objects_interned` up to its result. -/
def scan : Nat → Test Nat
  | 0 => failure
  | n + 1 => do
    match (← get).threads[0]? with
    | some th => match th.pc with
      | .lenDone m => do act (.run 0 0); pure m
      | _ => do act (.run 0 0); scan n
    | none => failure

/-- `num_objects_interned()`. -/
def num : Test Nat := do act (.len 0 0 4); scan 20

def assert (b : Bool) : Test Unit := if b then pure () else failure

/-- Does the test pass, starting from a fresh process with one thread? -/
def passes (x : Test Unit) : Bool := ((do act .spawn; x).run init).isSome

/-- `eq_string` (arc.rs:470-474). -/
example : passes (do
    let a ← new (.num 1); let b ← new (.num 1)
    assert (a = b)
    drop a; drop b
    let c ← new (.num 2); let d ← new (.num 3)
    assert (c ≠ d)
    drop c; drop d) := by decide +kernel

/-- `can_clone`, `has_borrow`, `has_deref` (arc.rs:492-510). -/
example : passes (do
    let x ← new (.num 0); let y ← clone x; let z ← new (.num 0)
    assert (y = z)
    assert ((← read x) = (← read z))) := by decide +kernel

/-- `test_arcintern_freeing` (arc.rs:513-536). -/
example : passes (do
    assert ((← num) = 0)
    let a ← new (.num 5); let b ← new (.num 5)
    assert (a = b)
    drop a; drop b
    let i ← new (.num 6)
    assert ((← num) = 1)
    drop i
    let i ← new (.num 6)
    assert ((← num) = 1)
    drop i
    let i ← new (.num 7)
    assert ((← num) = 1)
    drop i
    let six ← new (.num 6)
    let i ← new (.num 7)
    assert ((← num) = 2)
    drop i
    assert ((← new (.num 6)) = six)) := by decide +kernel

/-- `test_arcintern_nested_drop` (arc.rs:539-548): the inner handle moves into the outer value; both are destroyed at the
end (the assertion about the count is added here). -/
example : passes (do
    let z ← new (.num 0)
    let one ← new (.succ z)
    assert ((← num) = 2)
    drop one
    assert ((← num) = 0)) := by decide +kernel

/-- `like_doctest_arcintern` (arc.rs:604-612). -/
example : passes (do
    let x ← new (.num 1)
    let y ← new (.num 2)
    assert (x ≠ y)
    let x' ← new (.num 1)
    assert (x = x')
    let y' ← new (.num 2)
    assert (y = y')
    assert ((← read x) = .num 1)) := by decide +kernel

/-- `arc_intern_str` (arc_dst.rs:388-411). -/
example : passes (do
    let x ← new (.num 5) true
    assert ((← refcount x) = 1)
    let y ← new (.num 5) true
    assert ((← refcount x) = 2)
    assert ((← refcount y) = 2)
    assert (x = y)
    let z ← new (.num 5) true
    assert ((← refcount x) = 3)
    assert ((← refcount y) = 3)
    assert ((← refcount z) = 3)
    drop x
    assert ((← refcount y) = 2)
    assert ((← refcount z) = 2)
    drop y
    assert ((← refcount z) = 1)) := by decide +kernel

/-- `test_shrink_to_fit` (arc.rs:630-645), without its assertions about capacity, which the model does not have. -/
example : passes (do
    let v ← new (.num 0)
    act (.shrink 0 0 4); finish 0 20
    assert ((← num) = 1)
    drop v
    act (.shrink 0 0 4); finish 0 20
    assert ((← num) = 0)) := by decide +kernel

/-- One thread of `multithreading1` (arc.rs:566-590), as a list of calls to make. -/
inductive Todo where
  | new (v : Val)
  | dropAll

/-- Let the threads take turns, one step each; a blocked thread just waits. An idle thread starts its next call; a call
that returns leaves its handle in the (common) pool of client handles, from which `dropAll` takes one. -/
def turn (todo : List (List Todo)) (t : Tid) : Test (List (List Todo)) := do
  let s ← get
  match s.threads[t]? with
  | none => failure
  | some th =>
    if th.isIdle then
      match (todo[t]?).getD [] with
      | [] => pure todo
      | .new v :: rest => do act (.new t v false); pure (todo.set t rest)
      | .dropAll :: rest => match s.handles.getLast? with
        | some p => do act (.drop t p); pure (todo.set t rest)
        | none => failure
    else match step cfg s (.run t (lowest s 20 1)) with
      | .ok s => do set s; pure todo
      | .blocked => pure todo
      | .ub => failure

/-- `n` rounds over all threads. -/
def rounds (todo : List (List Todo)) : Nat → Test Unit
  | 0 => assert (todo.all (·.isEmpty))
  | n + 1 => do
    let todo ← (List.range todo.length).foldlM turn todo
    rounds todo n

/-- `multithreading1` with three threads and one iteration each, under the schedule in which the threads take turns. -/
example : passes (do
    act .spawn; act .spawn
    rounds (List.replicate 3 [.new (.num 1), .new (.num 2), .dropAll, .dropAll]) 40
    assert ((← num) = 0)
    assert ((← get).heap.isEmpty)) := by decide +kernel

end OfArc

/-! ## `Intern` and `Arena` -/
namespace OfPool
open Pool

/-- Pool 0 is `Intern<i32>`, pool 1 an `Arena<i32>`, pool 2 another arena. -/
def cfg : Cfg Nat Nat where
  lockOf k := k
  owns k := k != 0
  zst _ _ := false
  info _ _ := 0
  dangle _ _ := 8

abbrev Test := StateT (State Nat Nat) Option

def lowest (s : State Nat Nat) : Nat → Nat → Nat
  | 0, a => a
  | n + 1, a => if s.heap.any (fun o => o.ptr.addr == a) then lowest s n (a + 1) else a

def act (x : Act Nat Nat) : Test Unit := do
  match step cfg (← get) x with
  | .ok s => set s
  | _ => failure

def finish (t : Tid) : Nat → Test Unit
  | 0 => failure
  | n + 1 => do
    let s ← get
    match s.threads[t]? with
    | none => failure
    | some .idle => pure ()
    | some _ => do act (.run t (lowest s 20 1)); finish t n

/-- A call and its result. -/
def call (o : Op Nat Nat) : Test Ret := do
  act (.call 0 o)
  finish 0 10
  match (← get).done with
  | e :: _ => pure e.ret
  | [] => failure

/-- `Intern::new(v)` / `arena.intern(v)`. -/
def new (k v : Nat) : Test Ptr := do
  match ← call (.intern k (.ofVal v) v) with
  | .ptr p => pure p
  | _ => failure

/-- `num_objects_interned()`. -/
def num (k : Nat) : Test Nat := do
  match ← call (.len k) with
  | .num n => pure n
  | _ => failure

/-- `is_interned(&v)`. -/
def known (k v : Nat) : Test Bool := do
  match ← call (.query k (.ofVal v)) with
  | .bool b => pure b
  | _ => failure

/-- `*p`. -/
def read (k : Nat) (p : Ptr) : Test Nat := do
  act (.read k p)
  match deref (← get) k p with
  | some v => pure v
  | none => failure

def assert (b : Bool) : Test Unit := if b then pure () else failure
def passes (x : Test Unit) : Bool := ((do act .spawn; x).run init).isSome

/-- `eq_string` (intern.rs:506-510; arena.rs:552-557), for `Intern` and for an arena. -/
example : [0, 1].all fun k => passes (do
    assert ((← new k 1) = (← new k 1))
    assert ((← new k 2) ≠ (← new k 3))) := by decide +kernel

/-- `like_doctest_intern` (intern.rs:59-67). -/
example : passes (do
    let x ← new 0 1; let y ← new 0 2
    assert (x ≠ y)
    assert (x = (← new 0 1))
    assert (y = (← new 0 2))
    assert ((← read 0 x) = 1)) := by decide +kernel

/-- `test_intern_num_objects` (intern.rs:712-729). -/
example : passes (do
    assert ((← num 0) = 0)
    assert ((← new 0 5) = (← new 0 5))
    let interned ← new 0 6
    assert ((← read 0 interned) = 6)
    assert ((← num 0) = 2)
    let _ ← new 0 6
    assert ((← num 0) = 2)
    let _ ← new 0 7
    assert ((← num 0) = 3)) := by decide +kernel

/-- `test_benchmarking_only_clear_interns` (intern.rs:282-287), after something has been interned. -/
example : passes (do
    let x ← new 0 5
    let _ ← call (.clear 0)
    assert ((← num 0) = 0)
    assert ((← read 0 x) = 5)) := by decide +kernel

/-- `test_deep_size` (intern.rs:594-617): a string of 26 bytes is interned three times and counted once (24 bytes for the
`String`, 26 for its text). `set_size` is 48, the capacity 3, pointers have 8 bytes. -/
example : passes (do
    let _ ← new 0 26; let _ ← new 0 26; let _ ← new 0 26
    let s ← get
    assert (DeepSize.poolDeep (K := Nat) { own := fun _ => 24, heap := fun n => n, arcs := fun _ => [], ptr := 8 }
      { own := fun _ => 0, kids := fun _ => [], rank := fun _ => 0, down := nofun } 48 3 s 0 (s.table 0)
      = some ((24 + 26) + 48 + 8 * 3))) := by decide +kernel

/-- `test_deep_size_with_context` (intern.rs:652-708): three values of 16 bytes that share one `Arc<String>` of 50 bytes. -/
example : passes (do
    let _ ← new 0 1; let _ ← new 0 2; let _ ← new 0 3
    let s ← get
    assert (DeepSize.poolDeep (K := Nat) { own := fun _ => 16, heap := fun _ => 0, arcs := fun _ => [77], ptr := 8 }
      { own := fun _ => 50, kids := fun _ => [], rank := fun _ => 0, down := nofun } 48 3 s 0 (s.table 0)
      = some (50 + 16 * 3 + 48 + 8 * 3))) := by decide +kernel

/-- Two arenas do not share values, and neither shares with `Intern` (the crate's tests use one arena each). -/
example : passes (do
    let x ← new 1 5
    let y ← new 2 5
    assert (x ≠ y)
    assert (!(← known 0 5))
    act (.dropArena 2)
    assert ((← read 1 x) = 5)) := by decide +kernel

/-- `multithreading_intern` (intern.rs:559-574) with two threads, one iteration each, taking turns. -/
def turn (t : Tid) (a : Nat) : Test Unit := do
  match step cfg (← get) (.run t a) with
  | .ok s => set s
  | .blocked => pure ()
  | .ub => failure

def rounds : Nat → Test Unit
  | 0 => pure ()
  | n + 1 => do
    turn 0 (lowest (← get) 20 1)
    turn 1 (lowest (← get) 20 1)
    rounds n

example : passes (do
    act .spawn
    act (.call 0 (.intern 0 (.ofVal 5) 5)); act (.call 1 (.intern 0 (.ofVal 5) 5))
    rounds 12
    act (.call 0 (.intern 0 (.ofVal 10) 10)); act (.call 1 (.intern 0 (.ofVal 10) 10))
    rounds 12
    assert ((← get).done.length = 4)
    assert ((← num 0) = 2)) := by decide +kernel

end OfPool

/-! ## `test_arena` (container.rs:127-142) -/
namespace OfTypeMap
open TypeMap

/-- Two types, `i32` (false) and `u32` (true), whose `TypeId`s fall into the same shard. -/
abbrev cfg : Cfg where
  Ty := Bool
  C _ := Nat
  dflt _ := 0
  R _ := Nat
  writes b := [.u64 (if b then 32 else 0)]
  w := 64

abbrev Test := StateT (State cfg) Option

def act (x : Act cfg) : Test Unit := do
  match step (← get) x with
  | .ok s => set s
  | _ => failure

/-- `arena.with(|x| { *x = n; })`. -/
def write (t : Bool) (n : Nat) : Test Unit := do
  act (.call 0 t (.next (fun _ => n) fun _ => .ret 0))
  act (.run 0); act (.run 0); act (.run 0)

/-- `arena.with(|x| *x)`. -/
def read (t : Bool) : Test Nat := do
  act (.call 0 t (.next id fun c => .ret c))
  act (.run 0); act (.run 0); act (.run 0)
  match (← get).log t with
  | e :: _ => match e.res with
    | some n => pure n
    | none => failure
  | [] => failure

def assert (b : Bool) : Test Unit := if b then pure () else failure

example : ((do
    act .spawn
    write false 42
    write true 137
    assert ((← read false) = 42)
    assert ((← read true) = 137) : Test Unit).run (init cfg)).isSome := by decide +kernel

example : cfg.shard false = cfg.shard true := by decide +kernel

end OfTypeMap

/-! ## `test_intern_set64` (intern.rs:338-357)

A `Set64` stores `to_u64` of each element: elements are found again, and others are not. -/
namespace OfFits64
open Fits64

example : ([0x1000, 0x1004, 0x1008] : List UInt64).all fun p =>
    fromU64 0x7f0000001238 4 (toU64 0x7f0000001238 4 p) = some p ∧
    toU64 0x7f0000001238 4 p ≠ toU64 0x7f0000001238 4 0x100c := by decide +kernel

end OfFits64

/-! ## `dst_memory_aligned` (arc_dst.rs:435-476) -/
namespace OfLayout
open Dst

/-- On a 64-bit target, for every alignment the test tries, ten elements of that alignment lie after the counter at an
aligned offset, and the allocation ends at a multiple of the box's alignment. -/
example : ([1, 2, 4, 8, 16, 32, 64, 128, 256, 512, 1024, 2048, 4096].all fun al =>
    match Target.fromSliceLayout ⟨8, 3, rfl⟩ ⟨al, al⟩ 10 with
    | some l => l.align = max 8 al ∧ l.size = (if al < 8 then (8 + 10 * al + 7) / 8 * 8 else al + 10 * al)
    | none => False) := by decide +kernel

end OfLayout
end Conformance
