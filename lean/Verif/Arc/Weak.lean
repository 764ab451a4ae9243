import Verif.Arc.Loads
/-!
`ArcIntern` when plain (non-atomic) reads may return outdated values (C66).

In `Verif.Arc.Model` every read sees the newest value in memory. In the memory model of Rust and C++ a plain read may return any
value written to the location, unless the write is known (happens-before) to have been overwritten. The plain locations are: the
value in each box (written once per allocation, arc.rs:244-247, arc_dst.rs:24-64) and the hash table of each shard of the DashMap.
This file has the code of `Verif.Arc.Model` with all plain reads taken from a `View`, and says which views are possible.

As before, the read-modify-writes of the counters and the acquisitions of the locks read the newest value: for them this is
what atomicity means. The order of an execution is then any order of its steps that extends program order and reads-from.
-/
namespace Arc
variable {V : Type}

/-- The hash table of shard `i`: the registered boxes that hash to it. -/
def shardElems [Hashable V] (cfg : Cfg V) (s : State V) (i : Nat) : List Addr :=
  s.table.filter fun b => match get s.heap b with
    | some c => cfg.shardOf c.data == i
    | none => false

namespace Weak

/-- What the plain reads of one step return: `own`, the values in boxes, read while the step holds no lock; `under`, the values in
boxes, read under the lock of the shard that the step uses; `shard`, the hash table of this shard. -/
structure View (V : Type) where
  own : Addr → Option V
  under : Addr → Option V
  shard : List Addr

/-- As `Arc.find`: probing the hash table of one shard. -/
def View.find [BEq V] [Hashable V] (w : View V) (v : V) : Option Addr :=
  w.shard.find? fun b => match w.under b with
    | some x => keyEq x v
    | none => false

/-- As `Arc.tableOk`: probing reads the boxes registered in the shard; they must be allocated. -/
def View.ok (w : View V) (s : State V) : Bool := w.shard.all fun b => (get s.heap b).isSome

/-- As `Arc.run` (`Verif/Arc/Model.lean`), with the plain reads taken from `w`. Steps without plain reads are unchanged. Reading
memory that was never written is undefined behaviour. -/
def run [BEq V] [Hashable V] (w : View V) (cfg : Cfg V) (s : State V) (t : Tid) (th : Thread V) (a : Addr) : Res (State V) :=
  match th.pc with
  -- arc.rs:227 / arc_dst.rs:79: `m.get_mut(val)`
  | .newLoop c =>
    let sh := cfg.shardOf c.val
    if (s.locks sh).isSome then .blocked
    else if !w.ok s then .ub
    else match w.find c.val with
      | some b => .ok ((s.lock sh t).setThread t { th with pc := .newFound c sh b })
      | none =>
        match c.conv with
        | some b => .ok (s.setThread t { th with pc := .newEntry { c with conv := none } b })
        | none => .ok (s.setThread t { th with pc := .newAlloc c })
  -- arc.rs:248: `m.entry(BoxRefCount(b))`: the key is read by `Hash`, and again by `Eq` under the lock
  | .newEntry c b =>
    match get s.heap b, w.own b, w.under b with
    | some _, some x, some y =>
      let sh := cfg.shardOf x
      if (s.locks sh).isSome then .blocked
      else if !w.ok s then .ub
      else match w.find y with
        | none => .ok ((s.lock sh t).setThread t { th with pc := .newVacant c sh b })
        | some _ => .ok ((s.lock sh t).setThread t { th with pc := .newOccupied c sh b })
    | _, _, _ => .ub
  -- arc.rs:260: `val = box_ref_count.into_inner()`
  | .newUnbox c b =>
    match get s.heap b, w.own b with
    | some _, some x => .ok ({ s with heap := free s.heap b }.setThread t { th with pc := .newLoop { c with val := x } })
    | _, _ => .ub
  -- arc.rs:321-322: `m.remove(self.pointer.as_ref())`: as above
  | .dropRemove b =>
    match get s.heap b, w.own b, w.under b with
    | some _, some x, some y =>
      if (s.locks (cfg.shardOf x)).isSome then .blocked
      else if !w.ok s then .ub
      else match w.find y with
        | some r => .ok ({ s with table := s.table.erase r }.setThread t { th with pc := .dropFree r })
        | none => .ok (s.setThread t { th with pc := .idle })
    | _, _, _ => .ub
  -- destruction of an owned box reads its fields
  | .dropFree b =>
    match get s.heap b, w.own b with
    | some _, some x =>
      .ok ({ s with heap := free s.heap b }.setThread t { th with pc := .idle, todo := cfg.kids x ++ th.todo })
    | _, _ => .ub
  -- arc.rs:204: `DashMap::len` reads the size of the table
  | .lenScan i m acc =>
    if i < m then
      if (s.locks i).isSome then .blocked
      else .ok (s.setThread t { th with pc := .lenScan (i + 1) m (acc + w.shard.length) })
    else .ok (s.setThread t { th with pc := .lenDone acc })
  | _ => Arc.run cfg s t th a

/-- As `Arc.follow`: following handles reads the values that contain them. -/
def follow (w : View V) (cfg : Cfg V) (s : State V) (p : Addr) : List Addr → Res Addr
  | [] => match get s.heap p with
    | some _ => .ok p
    | none => .ub
  | q :: path => match get s.heap p, w.own p with
    | some _, some x => if q ∈ cfg.kids x then follow w cfg s q path else .blocked
    | _, _ => .ub

/-- As `Arc.borrow`. -/
def borrow (w : View V) (cfg : Cfg V) (s : State V) : List Addr → Res Addr
  | [] => .blocked
  | p :: path => if p ∈ s.handles then follow w cfg s p path else .blocked

/-- As `Arc.step`, with the plain reads taken from `w`. -/
def step [BEq V] [Hashable V] (w : View V) (cfg : Cfg V) (s : State V) : Act V → Res (State V)
  | .clone t path =>
    match s.threads[t]? with
    | none => .blocked
    | some th =>
      if th.isIdle then
        match borrow w cfg s path with
        | .ok p =>
          match get s.heap p with
          | some x => .ok { s with heap := setCount s.heap p (cfg.inc x.count), handles := p :: s.handles }
          | none => .ub
        | .blocked => .blocked
        | .ub => .ub
      else .blocked
  | .read t path =>
    match s.threads[t]? with
    | none => .blocked
    | some th =>
      if th.isIdle then
        match borrow w cfg s path with
        | .ok _ => .ok s
        | .blocked => .blocked
        | .ub => .ub
      else .blocked
  | .run t a =>
    match s.threads[t]? with
    | none => .blocked
    | some th => run w cfg s t th a
  | act => Arc.step cfg s act

/-! ### Which values a plain read may return -/

/-- The event at position `k` writes a value into the box at address `b`: it is the creation of that box. -/
def WritesData : List (Instant V) → Nat → Addr → Prop
  | c' :: c :: l, k, b =>
    (c.tr.length ≤ k ∧ (∃ t o, c'.tr[k]? = some ⟨t, .make o⟩) ∧ deref c.s b = none ∧ (deref c'.s b).isSome = true) ∨
      WritesData (c :: l) k b
  | _, _, _ => False

/-- The event at position `k` writes the hash table of shard `i`: it accesses the table in a step that changes it. -/
def WritesShard [Hashable V] (cfg : Cfg V) : List (Instant V) → Nat → Nat → Prop
  | c' :: c :: l, k, i =>
    (c.tr.length ≤ k ∧ (∃ t, c'.tr[k]? = some ⟨t, .table i⟩) ∧ shardElems cfg c'.s i ≠ shardElems cfg c.s i) ∨
      WritesShard cfg (c :: l) k i
  | _, _, _ => False

/-- An event that thread `t` appends to the execution `l` after the events `evs` reads the value in box `b`. It may see the value
that was there at any instant `c1`, provided that every write of the location that happens before the read is older than `c1`. -/
def SeesData (l : List (Instant V)) (tr : List Ev) (evs : List Ev) (r : Ev) (b : Addr) (x : Option V) : Prop :=
  ∃ c1 ∈ l, deref c1.s b = x ∧
    ∀ k, WritesData l k b → HB (tr ++ evs ++ [r]) k (tr.length + evs.length) → k < c1.tr.length

/-- The same for the hash table of shard `i`. -/
def SeesShard [Hashable V] (cfg : Cfg V) (l : List (Instant V)) (tr : List Ev) (evs : List Ev) (r : Ev) (i : Nat)
    (xs : List Addr) : Prop :=
  ∃ c1 ∈ l, shardElems cfg c1.s i = xs ∧
    ∀ k, WritesShard cfg l k i → HB (tr ++ evs ++ [r]) k (tr.length + evs.length) → k < c1.tr.length

/-- The shard that a table operation of the step locks: the one the key, as the step sees it, hashes to. -/
def lockedShard [Hashable V] (w : View V) (cfg : Cfg V) : Pc V → Option Nat
  | .newLoop c => some (cfg.shardOf c.val)
  | .newEntry _ b | .dropRemove b => (w.own b).map cfg.shardOf
  | _ => none

/-- The views possible for an action after the execution `c :: l`; `h` is the client's handle that a `clone` or `read` uses. -/
def Sees [Hashable V] (cfg : Cfg V) (c : Instant V) (l : List (Instant V)) (h : Nat) (w : View V) : Act V → Prop
  | .clone t _ | .read t _ => ∀ b, SeesData (c :: l) c.tr [⟨t, .use h⟩] ⟨t, .look (c.obj b)⟩ b (w.own b)
  | .run t _ => ∀ th, c.s.threads[t]? = some th →
      (∀ b, SeesData (c :: l) c.tr [] ⟨t, .look (c.obj b)⟩ b (w.own b)) ∧
      (∀ i, lockedShard w cfg th.pc = some i →
        SeesShard cfg (c :: l) c.tr [⟨t, .lock i⟩] ⟨t, .table i⟩ i w.shard ∧
        ∀ b, SeesData (c :: l) c.tr [⟨t, .lock i⟩, ⟨t, .table i⟩] ⟨t, .look (c.obj b)⟩ b (w.under b)) ∧
      ∀ i m acc, th.pc = .lenScan i m acc → SeesShard cfg (c :: l) c.tr [⟨t, .rlock i⟩] ⟨t, .size i⟩ i w.shard
  | _ => True

/-- Executions in which every plain read may return any value that the memory model does not exclude. -/
inductive Instants [BEq V] [Hashable V] (cfg : Cfg V) (od : Orders) : List (Instant V) → Prop
  | init : Instants cfg od [⟨Arc.init, fun _ => 0, [], []⟩]
  | step {c : Instant V} {l : List (Instant V)} {s' : State V} {a : Act V} {ch : Choice} {w : View V} :
      Instants cfg od (c :: l) → a.Sane → Sees cfg c l ch.h w a → step w cfg c.s a = .ok s' → Small cfg s' →
      ch.Ok cfg c.s c.own a →
      Instants cfg od (⟨s', newObj c.s c.obj c.tr.length a, newOwn cfg c.s c.own ch c.tr.length a,
        c.tr ++ events cfg od c.s c.obj ch c.tr.length a⟩ :: c :: l)

end Weak
end Arc
