import Verif.TypeArena.Trace
import Verif.Props.EndToEnd
/-!
`NewIntern` when plain (non-atomic) reads may return outdated values (C68).

In `Verif.TypeArena.Model` every read sees the newest value in memory. In the memory model of Rust and C++ a plain read may return any
value written to the location, unless the write is known (happens-before) to have been overwritten. The plain locations are the
elements of the vectors with the types of the boxes behind them (written by a push: typearena.rs:70-71) and the hash sets inside the
mutexes together with the leaked values they own. This file has the code of `Verif.TypeArena.Model` with these reads taken from a
`View`, and says which views are possible.

Acquiring a mutex reads its newest state, with its poison flag: this is what makes it a lock. The length of a vector is an atomic
counter; the model lets a thread read any old value of it that is not older than its own last push.
-/
namespace TypeArena
open TypeMap (Cfg Code Entry Tid Res)
open Trace
variable {cfg : Cfg}

/-- One instant of an execution: the state and the events so far. -/
structure Instant (cfg : Cfg) where
  s : State cfg
  tr : List (Ev cfg)

/-- All instants of an execution, the latest first. The steps are those of `Trace.Run`, with actions that satisfy `A`. -/
inductive Instants (A : Act cfg → Prop) : List (Instant cfg) → Prop
  | init : Instants A [⟨init cfg, []⟩]
  | act {c l s' a} : Instants A (c :: l) → A a → step c.s a = .ok s' → Instants A (⟨s', c.tr ++ events c.s a⟩ :: c :: l)
  | use {c l u t r} : Instants A (c :: l) → Has c.tr u t r → Instants A (⟨c.s, c.tr ++ [⟨u, .use t r⟩]⟩ :: c :: l)
  | send {c l u t r} : Instants A (c :: l) → Has c.tr u t r → Instants A (⟨c.s, c.tr ++ [⟨u, .send t r⟩]⟩ :: c :: l)
  | recv {c l u u' n t r} : Instants A (c :: l) → c.tr[n]? = some ⟨u', .send t r⟩ →
      Instants A (⟨c.s, c.tr ++ [⟨u, .recv n t r⟩]⟩ :: c :: l)

namespace Weak

/-- What the plain reads of one step return: the types found in the elements of the vector, and the hash set of the type. -/
structure View (cfg : Cfg) where
  ty : Nat → Option cfg.Ty
  val : (t : cfg.Ty) → Option (cfg.C t)

/-- As `TypeArena.find`. -/
def View.find (w : View cfg) (t : cfg.Ty) (n : Nat) : Option Nat := (List.range n).find? fun p => decide (w.ty p = some t)

/-- All visible elements are initialised. -/
def View.ok (w : View cfg) (n : Nat) : Bool := (List.range n).all fun p => (w.ty p).isSome

/-- As `TypeArena.run`, with the plain reads taken from `w`; reading memory that is not initialised is undefined behaviour (`bug`).
Locking the mutex needs the element that was found. Steps without plain reads are unchanged. -/
def run (w : View cfg) (s : State cfg) (u : Tid) (n : Nat) : Pc cfg → Res (State cfg)
  | .search t code => match s.vecs[cfg.shard t]? with
    | none => .bug
    | some v =>
      if v.length < n then .blocked
      else if w.ok n then match w.find t n with
        | some pos => .ok { s with threads := s.threads.set u (.lock t code pos) }
        | none => .ok { s with threads := s.threads.set u (.push t code) }
      else .bug
  | .again t code m => match s.vecs[cfg.shard t]? with
    | none => .bug
    | some v =>
      if n < m ∨ v.length < n then .blocked
      else if w.ok n then match w.find t n with
        | some pos => .ok { s with threads := s.threads.set u (.lock t code pos) }
        | none => .bug
      else .bug
  | .lock t code pos => if w.ty pos = some t then TypeArena.run s u n (.lock t code pos) else .bug
  | .inside t orig i (.next f k) pos => match getCell s.vecs t pos with
    | none => .bug
    | some c => match w.val t with
      | none => .bug
      | some x => .ok { s with vecs := setCell s.vecs t pos { c with val := f x },
                               threads := s.threads.set u (.inside t orig (i + 1) (k x) pos) }
  | pc => TypeArena.run s u n pc

/-- As `TypeArena.step`. -/
def step (w : View cfg) (s : State cfg) : Act cfg → Res (State cfg)
  | .run u n => match s.threads[u]? with
    | some pc => run w s u n pc
    | none => .blocked
  | a => TypeArena.step s a

/-! ### Which values a plain read may return -/

/-- The type in element `p` of vector `i`; `none` = not initialised. -/
def cellTy (s : State cfg) (i p : Nat) : Option cfg.Ty := ((s.vecs[i]?).bind (·[p]?)).map (·.1)

/-- The set in the mutex for `t` in element `pos` of its vector. -/
def valAt (s : State cfg) (t : cfg.Ty) (pos : Nat) : Option (cfg.C t) := (getCell s.vecs t pos).map (·.val)

/-- The event at position `k` writes the set for `t` at `pos`: it pushes the mutex, or accesses the set, in a step that changes
the set. -/
def WritesVal : List (Instant cfg) → Nat → cfg.Ty → Nat → Prop
  | c' :: c :: l, k, t, pos =>
    (c.tr.length ≤ k ∧ (∃ u, c'.tr[k]? = some ⟨u, .data t pos⟩ ∨ c'.tr[k]? = some ⟨u, .push (cfg.shard t) pos⟩) ∧
      valAt c'.s t pos ≠ valAt c.s t pos) ∨ WritesVal (c :: l) k t pos
  | _, _, _, _ => False

/-- The event `r`, after the events `tr` of the execution `l` (and perhaps of the same step), reads element `p` of vector `i`: it may
see what was there at any instant `c1`, provided that a push of the element that happens before `r` is older than `c1`. -/
def SeesTy (l : List (Instant cfg)) (tr : List (Ev cfg)) (r : Ev cfg) (i p : Nat) (x : Option cfg.Ty) : Prop :=
  ∃ c1 ∈ l, cellTy c1.s i p = x ∧
    ∀ (k : Nat) (u : Tid), tr[k]? = some ⟨u, .push i p⟩ → HB (tr ++ [r]) k tr.length → k < c1.tr.length

/-- The same for the set of type `t` at `pos`. -/
def SeesVal (l : List (Instant cfg)) (tr : List (Ev cfg)) (r : Ev cfg) (t : cfg.Ty) (pos : Nat) (x : Option (cfg.C t)) : Prop :=
  ∃ c1 ∈ l, valAt c1.s t pos = x ∧ ∀ k, WritesVal l k t pos → HB (tr ++ [r]) k tr.length → k < c1.tr.length

/-- A loop that saw length `n` reads the elements one after the other. -/
def SeesAll (l : List (Instant cfg)) (tr : List (Ev cfg)) (u : Tid) (i n : Nat) (ty : Nat → Option cfg.Ty) : Prop :=
  ∀ p, p < n → SeesTy l (tr ++ ⟨u, .load i n⟩ :: (List.range p).map fun q => ⟨u, .look i q⟩) ⟨u, .look i p⟩ i p (ty p)

/-- The views possible for a thread after the execution `l` with events `tr`. -/
def SeesPc (l : List (Instant cfg)) (tr : List (Ev cfg)) (w : View cfg) (u : Tid) (n : Nat) : Pc cfg → Prop
  | .search t _ | .again t _ _ => SeesAll l tr u (cfg.shard t) n w.ty
  | .lock t _ pos => SeesTy l tr ⟨u, .acq t pos⟩ (cfg.shard t) pos (w.ty pos)
  | .inside t _ _ _ pos => SeesVal l tr ⟨u, .data t pos⟩ t pos (w.val t)
  | _ => True

/-- The views possible for an action after the execution `c :: l`. -/
def Sees (c : Instant cfg) (l : List (Instant cfg)) (w : View cfg) : Act cfg → Prop
  | .run u n => ∀ pc, c.s.threads[u]? = some pc → SeesPc (c :: l) c.tr w u n pc
  | _ => True

/-- Executions in which every plain read may return any value that the memory model does not exclude. -/
inductive Instants (A : Act cfg → Prop) : List (Instant cfg) → Prop
  | init : Instants A [⟨TypeArena.init cfg, []⟩]
  | act {c l s' a} (w : View cfg) : Instants A (c :: l) → A a → Sees c l w a → step w c.s a = .ok s' →
      Instants A (⟨s', c.tr ++ events c.s a⟩ :: c :: l)
  | use {c l u t r} : Instants A (c :: l) → Has c.tr u t r → Instants A (⟨c.s, c.tr ++ [⟨u, .use t r⟩]⟩ :: c :: l)
  | send {c l u t r} : Instants A (c :: l) → Has c.tr u t r → Instants A (⟨c.s, c.tr ++ [⟨u, .send t r⟩]⟩ :: c :: l)
  | recv {c l u u' n t r} : Instants A (c :: l) → c.tr[n]? = some ⟨u', .send t r⟩ →
      Instants A (⟨c.s, c.tr ++ [⟨u, .recv n t r⟩]⟩ :: c :: l)

/-! ### Values behind handles -/
open Closures Closures.NewTables
open Pool (Ptr)
variable {T : Types}

/-- The value behind handle `p` of type `t`. -/
def object (s : State T.cfg) (t : T.Ty) (p : Ptr) : Option (T.V t) := Closures.deref (content s t) p

/-- The event at position `k` writes the value behind `p`: it accesses the set in the step that boxes and inserts the value. -/
def WritesObject : List (Instant T.cfg) → Nat → T.Ty → Ptr → Prop
  | c' :: c :: l, k, t, p =>
    (c.tr.length ≤ k ∧ (∃ u pos, c'.tr[k]? = some ⟨u, .data (cfg := T.cfg) t pos⟩) ∧ object c'.s t p ≠ object c.s t p) ∨
      WritesObject (c :: l) k t p
  | _, _, _, _ => False

/-- The event `r`, appended to the execution `l` with events `tr`, reads the value behind handle `p` of type `t`. -/
def SeesObject (l : List (Instant T.cfg)) (tr : List (Ev T.cfg)) (r : Ev T.cfg) (t : T.Ty) (p : Ptr) (x : Option (T.V t)) : Prop :=
  ∃ c1 ∈ l, object c1.s t p = x ∧ ∀ k, WritesObject l k t p → HB (tr ++ [r]) k tr.length → k < c1.tr.length

end Weak
end TypeArena
