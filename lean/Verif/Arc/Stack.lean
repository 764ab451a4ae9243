import Verif.Arc.Facts
/-!
The call stack of recursive drops (C60).

Dropping the last handle to an object destroys the object's value (arc.rs:297-325: `_remove` goes out of scope), which
drops the handles stored in it one after the other, each of which may do the same again. `Verif/Arc/Model.lean` keeps the
handles a thread still has to drop in the flat list `Thread.todo`. Here the list is cut into stack frames.
-/
namespace Arc
variable {V : Type} [BEq V] [Hashable V]

/-- A destructor that is waiting for the drop of one of the handles inside its value: the value and the handles in it that
are still to be dropped after that. -/
structure Waiting (V : Type) where
  val : V
  rest : List Addr

/-- For each thread the destructors that are running, innermost first. -/
abbrev Stacks (V : Type) := Tid → List (Waiting V)

/-- Destructors with nothing left to do return. -/
def popDone : List (Waiting V) → List (Waiting V)
  | ⟨_, []⟩ :: fs => popDone fs
  | fs => fs

/-- The stack of a thread after its next step, before finished destructors have returned. -/
def advance (cfg : Cfg V) (s : State V) (th : Thread V) (fs : List (Waiting V)) : List (Waiting V) :=
  match th.pc with
  -- the innermost destructor goes on with the next handle
  | .idle => match fs with
    | ⟨v, _ :: ps⟩ :: fs => ⟨v, ps⟩ :: fs
    | fs => fs
  -- the box is freed: the destructor of the value in it begins (arc.rs:324)
  | .dropFree b => match get s.heap b with
    | some x => ⟨x.data, cfg.kids x.data⟩ :: fs
    | none => fs
  -- `new` found an existing object: its argument is destroyed (arc.rs:234; the unsized variants only borrow it)
  | .newHit c _ _ => if c.dst then [] else [⟨c.val, cfg.kids c.val⟩]
  | _ => fs

/-- The stack after a panic: only a panic in the lookup of `new` begins a destructor, that of the argument
(arc.rs:227). -/
def unwound (cfg : Cfg V) (th : Thread V) (fs : List (Waiting V)) : List (Waiting V) :=
  match th.pc with
  | .newLoop c => if c.dst then [] else [⟨c.val, cfg.kids c.val⟩]
  | _ => fs

/-- When a drop has ended, the destructors with nothing left to do return. -/
def settle (s' : State V) (t : Tid) (fs : List (Waiting V)) : List (Waiting V) :=
  match s'.threads[t]? with
  | some th => match th.pc with
    | .idle => popDone fs
    | _ => fs
  | none => fs

/-- The stacks after action `a` has led from `s` to `s'`. -/
def stacksAfter (cfg : Cfg V) (s : State V) (F : Stacks V) (a : Act V) (s' : State V) : Stacks V := fun u =>
  match a with
  | .run t _ => if u = t then match s.threads[t]? with
      | some th => settle s' t (advance cfg s th (F t))
      | none => F u
    else F u
  | .panic t => if u = t then match s.threads[t]? with
      | some th => settle s' t (unwound cfg th (F t))
      | none => F u
    else F u
  | _ => F u

/-- Executions with the stack of every thread, in which every action `a` taken in a state `s` satisfies `ok s a`. -/
inductive Stacked (cfg : Cfg V) (ok : State V → Act V → Prop) : State V → Stacks V → Prop
  | init : Stacked cfg ok init fun _ => []
  | step {s s' : State V} {F : Stacks V} {a : Act V} : Stacked cfg ok s F → a.Sane → ok s a → step cfg s a = .ok s' →
      Small cfg s' → Stacked cfg ok s' (stacksAfter cfg s F a s')

/-- `level v` bounds the nesting of `v`: every value passed to `new` has a higher level than the values of the handles in it,
and no value has a level above `B`. -/
def Levelled (cfg : Cfg V) (level : V → Nat) (B : Nat) (s : State V) : Act V → Prop
  | .new _ v _ => level v ≤ B ∧ ∀ q ∈ cfg.kids v, ∀ w, deref s q = some w → level w < level v
  | _ => True

theorem Stacked.reach {cfg : Cfg V} {ok : State V → Act V → Prop} {s : State V} {F : Stacks V} (h : Stacked cfg ok s F) :
    Reach cfg s := by
  induction h with
  | init => exact .init
  | step _ h1 _ h2 h3 ih => exact .step ih h1 h2 h3

end Arc
