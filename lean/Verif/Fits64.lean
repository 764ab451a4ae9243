/-
The tinyset support of `Intern` (intern.rs:288-337; typearena.rs:311-365 is the same code).
-/
namespace Fits64

/-- `to_u64` (intern.rs:334-336): `(self.get_pointer() as u64 / sz::<T>()) ^ (heap_location() / sz::<T>())`, where
`sz::<T>()` is the alignment of `T` (316-318). -/
def toU64 (heap sz ptr : UInt64) : UInt64 := (ptr / sz) ^^^ (heap / sz)

/-- `from_u64` (intern.rs:329-333): `((x ^ (heap_location() / sz::<T>())) * sz::<T>()) as *const T`; `none` = the
multiplication overflows (a panic in builds with overflow checks, a wrong pointer in others). -/
def fromU64 (heap sz x : UInt64) : Option UInt64 :=
  if (x ^^^ (heap / sz)).toNat * sz.toNat < 2 ^ 64 then some ((x ^^^ (heap / sz)) * sz) else none

/-! ### `heap_location` (intern.rs:295-315) -/
namespace Heap

abbrev Tid := Nat

/-- Where a thread is in `heap_location`. -/
inductive Pc where
  | idle
  /-- before the relaxed load (line 300). -/
  | load
  /-- the load returned 0: before `allocate_ptr` (302). -/
  | alloc
  /-- before the compare_exchange (303-308) with the new box `p`. -/
  | cas (p : Nat)
  deriving DecidableEq

/-- State: the modification order of `HEAP_LOCATION`, oldest value first (it starts as null); for each thread the oldest
position it may still read (coherence) and its program counter; the results of the finished calls. -/
structure State where
  hist : List Nat
  seen : List Nat
  threads : List Pc
  results : List (Tid × Nat)

def init : State := { hist := [0], seen := [], threads := [], results := [] }

inductive Act where
  | spawn
  | call (t : Tid)
  /-- a step of thread `t`. `i` is the position in the modification order it reads, if it reads; `p` the address the
  allocator returns, if it allocates. -/
  | run (t : Tid) (i p : Nat)

/-- `t` returns `x`, having read position `i`. -/
def State.return (s : State) (t : Tid) (i x : Nat) : State :=
  { s with seen := s.seen.set t i, threads := s.threads.set t .idle, results := (t, x) :: s.results }

/-- Steps; `none` = not possible. Relaxed loads may return any value that is not older, in the modification order, than
one the thread has already read or written. A successful compare_exchange reads the last value of the modification order
(atomicity of read-modify-writes); a failed one is a relaxed load of a value different from the expected one (strong
version: no spurious failure). The allocator never returns null here (`Box::new` aborts instead). -/
def step (s : State) : Act → Option State
  | .spawn => some { s with seen := s.seen ++ [0], threads := s.threads ++ [.idle] }
  | .call t => match s.threads[t]? with
    | some .idle => some { s with threads := s.threads.set t .load }
    | _ => none
  | .run t i p => match s.threads[t]?, s.seen[t]? with
    | some .load, some j => match s.hist[i]? with
      | some x => if i < j then none
        else if x = 0 then some { s with seen := s.seen.set t i, threads := s.threads.set t .alloc }
        else some (s.return t i x)
      | none => none
    | some .alloc, some _ => if p = 0 then none else some { s with threads := s.threads.set t (.cas p) }
    | some (.cas q), some j => match s.hist[i]? with
      | some x => if i < j then none
        else if x ≠ 0 then some (s.return t i x)
        else if i + 1 = s.hist.length then some ({ s with hist := s.hist ++ [q] }.return t (i + 1) q)
        else none
      | none => none
    | _, _ => none

inductive Reach : State → Prop where
  | init : Reach init
  | step {s s' a} : Reach s → Heap.step s a = some s' → Reach s'

end Heap
end Fits64
