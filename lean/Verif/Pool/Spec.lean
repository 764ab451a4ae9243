import Verif.Pool.Model
/-
Small sequential specification of a pool, in terms of the calls made and their results only.
-/
namespace Pool
variable {K V : Type} [DecidableEq K] [BEq V] [Hashable V]

/-- The distinct values interned in pool `k` by a history of calls (newest first), each with the handle it got: a value
counts when no equal value was interned before it. -/
def interned : List (Entry K V) → K → List (Ptr × V)
  | [], _ => []
  | e :: l, k => match e.op, e.ret with
    | .intern k' _ v, .ptr p =>
      if k' = k ∧ (interned l k).any (fun x => x.2 == v) = false then (p, v) :: interned l k else interned l k
    | _, _ => interned l k

/-- The right answer of a call after the history `l`. -/
def Correct (l : List (Entry K V)) (o : Op K V) (r : Ret) : Prop :=
  match o, r with
  -- the handle of the equal value already interned, or a handle not in use for any other value of the pool
  | .intern k _ v, .ptr p =>
    (∃ x ∈ interned l k, x.1 = p ∧ (x.2 == v) = true) ∨
    ((∀ x ∈ interned l k, (x.2 == v) = false) ∧ ∀ x ∈ interned l k, x.1 ≠ p)
  | .query k q, .bool b => b = (interned l k).any (fun x => q.eq x.2)
  | .len k, .num n => n = (interned l k).length
  | _, _ => False

/-- A sequential history all of whose answers are right. -/
def Sequential : List (Entry K V) → Prop
  | [] => True
  | e :: l => Correct l e.op e.ret ∧ Sequential l

/-- Calls with lawful user code: the looked-up key has the hash of, and compares like, the value that will be stored
(`Borrow` is consistent with `Hash`/`Eq`, and `From` builds a value that borrows back to the key); queries respect the
equality of values. The benchmarking-only `clear` is excluded. -/
def Op.Lawful : Op K V → Prop
  | .intern _ q v => q.hash = hash v ∧ ∀ x, q.eq x = (x == v)
  | .query _ q => (∀ x, q.eq x = true → hash x = q.hash) ∧ ∀ x y, (x == y) = true → q.eq x = q.eq y
  | .len _ => True
  | .clear _ => False

def Act.Lawful : Act K V → Prop
  | .call _ o => o.Lawful
  | .read _ _ => False
  | _ => True

/-- Reachable by executions whose calls are lawful (with panics at any point). Reads are not state changes and are
dealt with in the theorems. -/
inductive Reach (cfg : Cfg K V) : State K V → Prop where
  | init : Reach cfg init
  | step {s s' a} : Reach cfg s → Act.Lawful a → Pool.step cfg s a = .ok s' → Reach cfg s'

end Pool
