import Verif.Arc.Spec
/-!
`ArcIntern` with user code that keeps no contract (C62): the answers of all lookups are chosen by an adversary, and interned
values may change.

What remains of `DashMap`: a lookup locks the shard the key hashes to *this time* and returns nothing or an element that was
inserted under the lock of the same shard. The function `home` (ghost) says under which shard's lock each box was inserted.
-/
namespace Arc
variable {V : Type}

/-- Storing `v` in the data of box `a`: what a `Cell`, `Mutex` or atomic field inside the value allows through `Deref`
(arc.rs:327-332). -/
def setData (h : List (Addr × Cell V)) (a : Addr) (v : V) : List (Addr × Cell V) :=
  h.map fun e => if e.1 = a then (e.1, { e.2 with data := v }) else e

namespace Wild

/-- As `Arc.run` (`Verif/Arc/Model.lean`), but `sh` is the shard and `found` the answer of the lookup, if the step makes one. -/
def run [BEq V] [Hashable V] (sh : Nat) (found : Option Addr) (cfg : Cfg V) (s : State V) (t : Tid) (th : Thread V)
    (a : Addr) : Res (State V) :=
  match th.pc with
  -- arc.rs:227 / arc_dst.rs:79: `m.get_mut(val)`
  | .newLoop c =>
    if (s.locks sh).isSome then .blocked
    else if !tableOk s then .ub
    else match found with
      | some b => .ok ((s.lock sh t).setThread t { th with pc := .newFound c sh b })
      | none =>
        match c.conv with
        | some b => .ok (s.setThread t { th with pc := .newEntry { c with conv := none } b })
        | none => .ok (s.setThread t { th with pc := .newAlloc c })
  -- arc.rs:248: `m.entry(BoxRefCount(b))`
  | .newEntry c b =>
    match get s.heap b with
    | none => .ub
    | some _ =>
      if (s.locks sh).isSome then .blocked
      else if !tableOk s then .ub
      else match found with
        | none => .ok ((s.lock sh t).setThread t { th with pc := .newVacant c sh b })
        | some _ => .ok ((s.lock sh t).setThread t { th with pc := .newOccupied c sh b })
  -- arc.rs:321-322: `m.remove(self.pointer.as_ref())`
  | .dropRemove b =>
    match get s.heap b with
    | none => .ub
    | some _ =>
      if (s.locks sh).isSome then .blocked
      else if !tableOk s then .ub
      else match found with
        | some r => .ok ({ s with table := s.table.erase r }.setThread t { th with pc := .dropFree r })
        | none => .ok (s.setThread t { th with pc := .idle })
  | _ => Arc.run cfg s t th a

/-- As `Arc.step`, with the answer of the lookup given. -/
def step [BEq V] [Hashable V] (sh : Nat) (found : Option Addr) (cfg : Cfg V) (s : State V) : Act V → Res (State V)
  | .run t a =>
    match s.threads[t]? with
    | none => .blocked
    | some th => run sh found cfg s t th a
  | act => Arc.step cfg s act

/-- A lookup returns an element inserted under the lock of the same shard. The lookup of the removal in `drop`
(arc.rs:321-322), whose key is the box that is to be removed, finds this very box if anything. -/
def Answer (home : Addr → Nat) (s : State V) (sh : Nat) (found : Option Addr) : Act V → Prop
  | .run t _ => ∀ th ∈ s.threads[t]?, ∀ r ∈ found, r ∈ s.table ∧ home r = sh ∧ ∀ b, th.pc = .dropRemove b → r = b
  | _ => True

/-- Where boxes live after a step: an insertion (arc.rs:254) is made under the shard lock the thread holds. -/
def rehomePc (home : Addr → Nat) : Pc V → Addr → Nat
  | .newVacant _ sh b => fun r => if r = b then sh else home r
  | _ => home

/-- Where boxes live after an action. -/
def rehome (home : Addr → Nat) (s : State V) : Act V → Addr → Nat
  | .run t _ => match s.threads[t]? with
    | some th => rehomePc home th.pc
    | none => home
  | _ => home

/-- Executions: any calls on any number of threads, any lookup answers, user panics in lookups, and at any time changes of values
(reached through a client handle) that leave the handles stored in them in place. -/
inductive Reach [BEq V] [Hashable V] (cfg : Cfg V) : (Addr → Nat) → State V → Prop
  | init {home} : Reach cfg home init
  | step {home s s' a sh found} : Reach cfg home s → a.Sane → Answer home s sh found a → step sh found cfg s a = .ok s' →
      Small cfg s' → Reach cfg (rehome home s a) s'
  | store {home s path p x v} : Reach cfg home s → borrow cfg s path = .ok p → get s.heap p = some x →
      cfg.kids v = cfg.kids x.data → Reach cfg home { s with heap := setData s.heap p v }

end Wild
end Arc
