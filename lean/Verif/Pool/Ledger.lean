import Verif.Pool.Late
import Verif.Pool.Chaos
/-
What becomes of the values given to `Intern` and `Arena` (C76): when they are handed over or built, and when they are destroyed. The
executions are those of `Verif/Pool/Late.lean` (exact order of the steps), with user code that keeps no contract as in
`Verif/Pool/Chaos.lean`.
-/
namespace Pool
variable {K V : Type} [DecidableEq K]

/-- As `lateStep` (`Verif/Pool/Late.lean`), but `found` is the answer of the lookup, if the step makes one. -/
def lateStepWith (found : Option Ptr) (cfg : Cfg K V) (x : LateState K V) : Act K V → Res (LateState K V)
  | .run t a => match x.base.threads[t]? with
    | some .idle => match x.late.find? (fun e => decide (e.tid = t)) with
      | some e => .ok { base := { x.base with done := e :: x.base.done },
                        late := x.late.eraseP (fun e => decide (e.tid = t)) }
      | none => .blocked
    | some (.dropArg k q mk p) =>
      if cfg.owns k then
        .ok { base := { (x.base.unlock (cfg.lockOf k)).at t .idle with
                        log := { tid := t, op := .intern k q mk, ret := .ptr p } :: x.base.log },
              late := { tid := t, op := .intern k q mk, ret := .ptr p } :: x.late }
      else x.lift (stepWith found cfg x.base (.run t a))
    | _ => x.lift (stepWith found cfg x.base (.run t a))
  | .panic t => match x.base.threads[t]? with
    | some .idle => match x.late.find? (fun e => decide (e.tid = t)) with
      | some _ => .ok { x with late := x.late.eraseP (fun e => decide (e.tid = t)) }
      | none => .blocked
    | some (.dropArg k _ _ _) => if cfg.owns k then .blocked else x.lift (stepWith found cfg x.base (.panic t))
    | _ => x.lift (stepWith found cfg x.base (.panic t))
  | .dropArena k =>
    if x.late.any (fun e => decide (e.op.pool = k)) then .blocked else x.lift (stepWith found cfg x.base (.dropArena k))
  | .call t o => x.lift (stepWith found cfg x.base (.call t o))
  | .spawn => x.lift (stepWith found cfg x.base .spawn)
  | .read k p => x.lift (stepWith found cfg x.base (.read k p))

/-! ### Vocabulary

Values are listed with the pool they were given to. A value is a Lean value of type `V`; equality of values in the sense of the user's
`Eq` does not matter here, so `V` may contain a serial number, which tells values that are `==` apart. `byVal` says which calls take
their argument by value (`Intern::new`, `From<Box<T>>`, `Arena::intern`, `intern_box`, `intern_string`, …); the others take a reference
and build the value from it if they need it (`from_ref`, `via_box`, `intern_ref`, `intern_from`). -/

/-- The argument of a call. -/
def Op.arg (byVal : Op K V → Bool) : Op K V → List (K × V)
  | .intern k q v => if byVal (.intern k q v) then [(k, v)] else []
  | _ => []

/-- The argument held by a running call: until it has moved to a box (`build`) or has been destroyed. -/
def Pc.arg (byVal : Op K V → Bool) : Pc K V → List (K × V)
  | .want o | .inside o => o.arg byVal
  | .build k q v | .dropArg k q v _ => Op.arg byVal (.intern k q v)
  | .idle | .insert .. | .leave .. => []

def Obj.kv (o : Obj K V) : K × V := (o.pool, o.val)

/-- The values in the care of the library: arguments of running calls, arguments of arena calls that have not been destroyed yet, and
boxes in memory. -/
def LateState.values (byVal : Op K V → Bool) (x : LateState K V) : List (K × V) :=
  x.base.threads.flatMap (Pc.arg byVal) ++ x.late.flatMap (fun e => e.op.arg byVal) ++ x.base.heap.map Obj.kv

/-- Values that come into the care of the library in a step: the argument of a call by value, or the value that a call by reference
builds (intern.rs:157, 233; arena.rs:149, 418). -/
def supplies (byVal : Op K V → Bool) (x : LateState K V) : Act K V → List (K × V)
  | .call _ o => o.arg byVal
  | .run t _ => match x.base.threads[t]? with
    | some (.build k q v) => if byVal (.intern k q v) then [] else [(k, v)]
    | _ => []
  | _ => []

/-- Values whose destructor runs in a step.
* A call by value that found an equal value destroys its argument: `Intern` under the lock (intern.rs:212), `Arena` at the end
  (arena.rs:124).
* If `HashMap::insert` finds an equal element after all, it destroys the new one (boxedset.rs:82): with an arena that is the box, with
  `Intern` only a reference.
* A panic in user code destroys the arguments and boxes owned by the call. The destructor that panics has itself been run.
* Dropping an arena destroys its elements. -/
def destroys (byVal : Op K V → Bool) (found : Option Ptr) (cfg : Cfg K V) (x : LateState K V) : Act K V → List (K × V)
  | .run t _ => match x.base.threads[t]? with
    | some .idle => match x.late.find? (fun e => decide (e.tid = t)) with
      | some e => e.op.arg byVal
      | none => []
    | some (.dropArg k q v _) => if cfg.owns k then [] else Op.arg byVal (.intern k q v)
    | some (.insert k _ v _) => if cfg.owns k && found.isSome then [(k, v)] else []
    | _ => []
  | .panic t => match x.base.threads[t]? with
    | some .idle => match x.late.find? (fun e => decide (e.tid = t)) with
      | some e => e.op.arg byVal
      | none => []
    | some (.insert k _ v _) => if cfg.owns k then [(k, v)] else []
    | some pc => pc.arg byVal
    | none => []
  | .dropArena k => ((x.base.table k).filterMap (deref x.base k)).map fun v => (k, v)
  | _ => []

/-- Executions with the values supplied and the values destroyed so far, newest first. Any calls, any answers of lookups, any panics in
user code, any interleaving. -/
inductive Ledger (byVal : Op K V → Bool) (cfg : Cfg K V) : LateState K V → List (K × V) → List (K × V) → Prop where
  | init : Ledger byVal cfg lateInit [] []
  | step {x x' sup des a found} : Ledger byVal cfg x sup des → Answer x.base found a → lateStepWith found cfg x a = .ok x' →
      Ledger byVal cfg x' (supplies byVal x a ++ sup) (destroys byVal found cfg x a ++ des)

end Pool
