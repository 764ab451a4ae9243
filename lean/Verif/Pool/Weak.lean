import Verif.Pool.Trace
/-!
`Intern` and `Arena` when plain (non-atomic) reads may return outdated values (C67).

In `Verif.Pool.Model` every read sees the newest value in memory. In the memory model of Rust and C++ a plain read may return any
value written to the location, unless the write is known (happens-before) to have been overwritten. The plain locations are the
memory of the boxes, by address (written when a value is boxed: intern.rs:215, 233; arena.rs:126, 148) and the hash sets. This file has
the code of `Verif.Pool.Model` with these reads taken from a `View`, and says which views are possible.

Acquiring a mutex reads its newest state: this is what makes it a lock. Dropping an arena has exclusive access (`&mut self`) to all of
its memory, and is left as it is.
-/
namespace Pool
variable {K V : Type} [DecidableEq K]

/-- One instant of an execution: the state and the events so far. -/
structure Instant (K V : Type) where
  s : State K V
  tr : List (Ev K)

/-- All instants of an execution, the latest first. The steps are those of `Run`. -/
inductive Instants [BEq V] [Hashable V] (cfg : Cfg K V) : List (Instant K V) → Prop
  | init : Instants cfg [⟨init, []⟩]
  | act {c l s' a} : Instants cfg (c :: l) → Act.Lawful a → step cfg c.s a = .ok s' →
      Instants cfg (⟨s', c.tr ++ events cfg c.s a⟩ :: c :: l)
  | use {c l t k p} : Instants cfg (c :: l) → Has c.s c.tr t k p → k ∉ c.s.gone →
      Instants cfg (⟨c.s, c.tr ++ [⟨t, .use k p⟩]⟩ :: c :: l)
  | send {c l t k p} : Instants cfg (c :: l) → Has c.s c.tr t k p → Instants cfg (⟨c.s, c.tr ++ [⟨t, .send k p⟩]⟩ :: c :: l)
  | recv {c l t u n k p} : Instants cfg (c :: l) → c.tr[n]? = some ⟨u, .send k p⟩ →
      Instants cfg (⟨c.s, c.tr ++ [⟨t, .recv n k p⟩]⟩ :: c :: l)

namespace Weak

/-- What the plain reads of one step return: the elements of the hash set it works on, and the values behind pointers. -/
structure View (V : Type) where
  table : List Ptr
  val : Ptr → Option V

/-- As `Pool.find`. -/
def View.find [Hashable V] (w : View V) (q : Query V) : Option Ptr :=
  w.table.find? fun p => match w.val p with
    | some x => hash x == q.hash && q.eq x
    | none => false

/-- As `Pool.tableOk`: a lookup reads the elements of the set; they must be in memory, and initialised. -/
def View.ok (w : View V) (s : State K V) (k : K) : Bool :=
  w.table.all fun p => (deref s k p).isSome && (w.val p).isSome

/-- As `Pool.run`, with the plain reads taken from `w`. Steps without plain reads are unchanged. -/
def run [BEq V] [Hashable V] (w : View V) (cfg : Cfg K V) (s : State K V) (t : Tid) (a : Nat) : Pc K V → Res (State K V)
  | .inside o =>
    if w.ok s o.pool then
      match o with
      | .intern k q mk => match w.find q with
        | some p => .ok (s.at t (.dropArg k q mk p))
        | none => .ok (s.at t (.build k q mk))
      | .query _ q => .ok (s.commit t o (.bool (w.find q).isSome))
      | .len _ => .ok (s.commit t o (.num w.table.length))
      | .clear k => if cfg.owns k then .blocked else .ok ((s.setTable k []).commit t o .unit)
    else .ub
  | .insert k q mk p =>
    if w.ok s k then
      match w.find (.ofVal mk) with
      | some _ =>
        let s' := if cfg.owns k then { s with heap := free s.heap k p } else s
        .ok (s'.commit t (.intern k q mk) (.ptr p))
      | none => .ok ((s.setTable k (p :: w.table)).commit t (.intern k q mk) (.ptr p))
    else .ub
  | pc => Pool.run cfg s t a pc

/-- As `Pool.step`. -/
def step [BEq V] [Hashable V] (w : View V) (cfg : Cfg K V) (s : State K V) : Act K V → Res (State K V)
  | .run t a => match s.threads[t]? with
    | some pc => run w cfg s t a pc
    | none => .blocked
  | act => Pool.step cfg s act

/-! ### Which values a plain read may return -/

/-- The value in memory at address `a` (zero-sized values are not in memory). -/
def cell (cfg : Cfg K V) (s : State K V) (a : Nat) : Option V :=
  (s.heap.find? fun o => !cfg.zst o.pool o.val && o.ptr.addr == a).map (·.val)

/-- The event at position `i` writes the memory at address `a`: it creates the value that is there from then on. -/
def WritesCell (cfg : Cfg K V) : List (Instant K V) → Nat → Nat → Prop
  | c' :: c :: l, i, a =>
    (c.tr.length ≤ i ∧ (∃ t k p, c'.tr[i]? = some ⟨t, .make k p⟩ ∧ p.addr = a) ∧ cell cfg c.s a = none ∧
      (cell cfg c'.s a).isSome = true) ∨ WritesCell cfg (c :: l) i a
  | _, _, _ => False

/-- The event at position `i` writes the hash set of pool `k`: it accesses it in a step that changes it. -/
def WritesTable : List (Instant K V) → Nat → K → Prop
  | c' :: c :: l, i, k =>
    (c.tr.length ≤ i ∧ (∃ t, c'.tr[i]? = some ⟨t, .table k⟩) ∧ c'.s.table k ≠ c.s.table k) ∨ WritesTable (c :: l) i k
  | _, _, _ => False

/-- The event `r`, appended to the execution `l` with events `tr`, reads the value behind pointer `p` of pool `k`. If the value is
zero-sized nothing is read: there is one value with this metadata. Otherwise it may see the value that was at the address of `p`, whatever it
belonged to, at any instant `c1`, provided that every write of this address that happens before `r` is older than `c1`. -/
def SeesVal (cfg : Cfg K V) (l : List (Instant K V)) (tr : List (Ev K)) (r : Ev K) (k : K) (p : Ptr) (x : Option V) : Prop :=
  (∃ v, cfg.zst k v = true ∧ cfg.info k v = p.info ∧ x = some v) ∨
  ((∀ v, cfg.info k v = p.info → cfg.zst k v = false) ∧ ∃ c1 ∈ l, cell cfg c1.s p.addr = x ∧
    ∀ i, WritesCell cfg l i p.addr → HB (tr ++ [r]) i tr.length → i < c1.tr.length)

/-- The same for the hash set of pool `k`. -/
def SeesTable (l : List (Instant K V)) (tr : List (Ev K)) (r : Ev K) (k : K) (xs : List Ptr) : Prop :=
  ∃ c1 ∈ l, c1.s.table k = xs ∧ ∀ i, WritesTable l i k → HB (tr ++ [r]) i tr.length → i < c1.tr.length

/-- The pool whose set a step reads. -/
def _root_.Pool.Pc.reads : Pc K V → Option K
  | .inside o => some o.pool
  | .insert k _ _ _ => some k
  | _ => none

/-- The views possible for an action after the execution `c :: l`. -/
def Sees (cfg : Cfg K V) (c : Instant K V) (l : List (Instant K V)) (w : View V) : Act K V → Prop
  | .run t _ => ∀ pc k, c.s.threads[t]? = some pc → pc.reads = some k →
      SeesTable (c :: l) c.tr ⟨t, .table k⟩ k w.table ∧ ∀ p, SeesVal cfg (c :: l) c.tr ⟨t, .table k⟩ k p (w.val p)
  | _ => True

/-- Executions in which every plain read may return any value that the memory model does not exclude. -/
inductive Instants [BEq V] [Hashable V] (cfg : Cfg K V) : List (Instant K V) → Prop
  | init : Instants cfg [⟨Pool.init, []⟩]
  | act {c l s' a} (w : View V) : Instants cfg (c :: l) → Act.Lawful a → Sees cfg c l w a → step w cfg c.s a = .ok s' →
      Instants cfg (⟨s', c.tr ++ events cfg c.s a⟩ :: c :: l)
  | use {c l t k p} : Instants cfg (c :: l) → Has c.s c.tr t k p → k ∉ c.s.gone →
      Instants cfg (⟨c.s, c.tr ++ [⟨t, .use k p⟩]⟩ :: c :: l)
  | send {c l t k p} : Instants cfg (c :: l) → Has c.s c.tr t k p → Instants cfg (⟨c.s, c.tr ++ [⟨t, .send k p⟩]⟩ :: c :: l)
  | recv {c l t u n k p} : Instants cfg (c :: l) → c.tr[n]? = some ⟨u, .send k p⟩ →
      Instants cfg (⟨c.s, c.tr ++ [⟨t, .recv n k p⟩]⟩ :: c :: l)

end Weak
end Pool
