import Verif.Pool.Model
/-!
The intern pools with user code that keeps no contract at all (C61).

`Hash`, `Eq` and `Borrow` are safe traits: their implementations may answer inconsistently (differently each time, or because
the value has interior mutability). `hashbrown` then gives wrong answers, but it still returns only elements that are in the
table. So here the answer of every lookup is chosen by an adversary among "nothing" and the elements of the table.
-/
namespace Pool
variable {K V : Type} [DecidableEq K]

/-- As `Pool.run` (`Verif/Pool/Model.lean`), but `found` is the answer of the lookup, if the step makes one. -/
def runWith (found : Option Ptr) (cfg : Cfg K V) (s : State K V) (t : Tid) (a : Nat) : Pc K V → Res (State K V)
  | .idle => .blocked
  | .want o =>
    if (s.lock (cfg.lockOf o.pool)).isSome then .blocked
    else .ok ({ s with lock := fun j => if j = cfg.lockOf o.pool then some t else s.lock j }.at t (.inside o))
  | .inside o =>
    if tableOk s o.pool then
      match o with
      | .intern k q mk => match found with
        | some p => .ok (s.at t (.dropArg k q mk p))
        | none => .ok (s.at t (.build k q mk))
      | .query _ _ => .ok (s.commit t o (.bool found.isSome))
      | .len k => .ok (s.commit t o (.num (s.table k).length))
      | .clear k => if cfg.owns k then .blocked else .ok ((s.setTable k []).commit t o .unit)
    else .ub
  | .build k q mk => match allocAt cfg s k mk a with
    | none => .blocked
    | some addr =>
      let p : Ptr := { addr := addr, info := cfg.info k mk }
      .ok ({ s with heap := { pool := k, ptr := p, val := mk } :: s.heap }.at t (.insert k q mk p))
  | .insert k q mk p =>
    if tableOk s k then
      match found with
      | some _ =>
        let s' := if cfg.owns k then { s with heap := free s.heap k p } else s
        .ok (s'.commit t (.intern k q mk) (.ptr p))
      | none => .ok ((s.setTable k (p :: s.table k)).commit t (.intern k q mk) (.ptr p))
    else .ub
  | .dropArg k q mk p => .ok (s.commit t (.intern k q mk) (.ptr p))
  | .leave o r =>
    .ok { (s.unlock (cfg.lockOf o.pool)).at t .idle with done := { tid := t, op := o, ret := r } :: s.done }

/-- The answer an honest lookup gives in this step. -/
def honest [BEq V] [Hashable V] (s : State K V) : Pc K V → Option Ptr
  | .inside (.intern k q _) | .inside (.query k q) => find s k q
  | .insert k _ mk _ => find s k (.ofVal mk)
  | _ => none

/-- With the honest answers this is the model of `Verif/Pool/Model.lean`. -/
theorem runWith_honest [BEq V] [Hashable V] (cfg : Cfg K V) (s : State K V) (t : Tid) (a : Nat) (pc : Pc K V) :
    runWith (honest s pc) cfg s t a pc = run cfg s t a pc := by
  cases pc with
  | inside o => cases o <;> rfl
  | _ => rfl

/-- The transition function, given the answer of the lookup. -/
def stepWith (found : Option Ptr) (cfg : Cfg K V) (s : State K V) : Act K V → Res (State K V)
  | .spawn => .ok { s with threads := s.threads ++ [.idle] }
  | .call t o => match s.threads[t]? with
    | some .idle => if o.pool ∈ s.gone then .blocked else .ok (s.at t (.want o))
    | _ => .blocked
  | .run t a => match s.threads[t]? with
    | some pc => runWith found cfg s t a pc
    | none => .blocked
  | .panic t => match s.threads[t]? with
    | some pc => runPanic cfg s t pc
    | none => .blocked
  | .dropArena k =>
    if cfg.owns k && !decide (k ∈ s.gone) && s.threads.all (fun pc => decide (pc.pool? ≠ some k)) then
      .ok { (s.setTable k []) with heap := (s.table k).foldl (fun h p => free h k p) s.heap, gone := k :: s.gone }
    else .blocked
  | .read k p => match deref s k p with
    | some _ => .ok s
    | none => .ub

/-- The answer is nothing, or an element of the table of the pool the thread works on. -/
def Answer (s : State K V) (found : Option Ptr) : Act K V → Prop
  | .run t _ => ∀ p ∈ found, ∀ pc ∈ s.threads[t]?, ∀ k ∈ pc.pool?, p ∈ s.table k
  | _ => True

/-- Executions: any calls (with any arguments, `clear` included), any answers, any panics, any interleaving. -/
inductive Chaos (cfg : Cfg K V) : State K V → Prop where
  | init : Chaos cfg init
  | step {s s' a found} : Chaos cfg s → Answer s found a → stepWith found cfg s a = .ok s' → Chaos cfg s'

/-- What may happen later. -/
inductive ChaosSteps (cfg : Cfg K V) : State K V → State K V → Prop where
  | refl {s} : ChaosSteps cfg s s
  | tail {s s' s'' a found} : ChaosSteps cfg s s' → Answer s' found a → stepWith found cfg s' a = .ok s'' → ChaosSteps cfg s s''

end Pool
