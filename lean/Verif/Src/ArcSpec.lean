import Verif.Src.ArcCode
/-
The vocabulary of C80, about executions of the code in `Verif/Src/ArcCode.lean`.
-/
namespace Src.ArcCode
open Arc (Addr Tid Cell Cfg Res)

variable {V : Type}

abbrev It (V : Type) := Item Var Op (Glue V)

/-- The handles that a variable contains, or refers to. -/
def Val.mentions (cfg : Cfg V) : Val V → List Addr
  | .owned v | .borrowed v => cfg.kids v
  | .guard _ b | .ref b | .handle b | .vacant _ b => [b]
  | .box _ | .optBox _ | .occupied _ _ | .num _ => []

/-- The handle that is going to be dropped. -/
def itemMentions : It V → List Addr
  | .glue (.handle b) => [b]
  | _ => []

/-- The handles in the local variables of a running function, those it is about to drop, and the one it is about to return. -/
def frameMentions (cfg : Cfg V) (f : Frame Var (Val V) Op (Glue V)) : List Addr :=
  (f.scopes.flatMap fun sc => sc.flatMap fun x => x.2.toList.flatMap (Val.mentions cfg)) ++
  f.items.flatMap itemMentions ++ f.ret.toList.flatMap (Val.mentions cfg)

/-- All handles and references to them: those of clients, in local variables, and inside values. -/
def mentions (cfg : Cfg V) (S : State V) : List Addr :=
  S.handles ++ (S.threads.flatMap fun fs => fs.flatMap (frameMentions cfg)) ++ Arc.storedHandles cfg S.mem.heap

/-- No object has 2^64 or more. -/
def Few (cfg : Cfg V) (S : State V) : Prop := ∀ p, (mentions cfg S).count p < cfg.W

/-- The thread is about to perform the removal of `drop` (arc.rs:322). -/
def Removing : Stack V → Prop
  | f :: _ => ∃ x y r, f.items = .stmt (.assign x (.remove y)) :: r
  | [] => False

/-- Everything but a panic inside the table insertion (C19, C78). -/
def Act.Sane : Act V → Prop
  | .panicInsert _ => False
  | _ => True

/-- User code panics in the removal of a `drop` (C20). -/
def dropPanic (S : State V) : Act V → Prop
  | .panic t => ∃ fs, S.threads[t]? = some fs ∧ Removing fs
  | _ => False

section
variable [BEq V] [Hashable V]

/-- The states of the program, as long as no object has 2^64 handles. -/
inductive Reach (cfg : Cfg V) : State V → Prop
  | init : Reach cfg init
  | step {S S' : State V} {act : Act V} : Reach cfg S → act.Sane → step cfg S act = .ok S' → Few cfg S' → Reach cfg S'

/-- And those reached without a panic in the removal of a `drop`. -/
inductive ReachND (cfg : Cfg V) : State V → Prop
  | init : ReachND cfg init
  | step {S S' : State V} {act : Act V} : ReachND cfg S → act.Sane → ¬ dropPanic S act → step cfg S act = .ok S' → Few cfg S' → ReachND cfg S'

/-- An execution fragment in which thread `t` starts no call of `new` or `drop`. -/
inductive During (cfg : Cfg V) (t : Tid) : State V → State V → Prop
  | refl (S : State V) : During cfg t S S
  | step {S S' S'' : State V} {act : Act V} : During cfg t S S' → act.Sane → (∀ v dst, act ≠ .new t v dst) → (∀ p, act ≠ .drop t p) →
      step cfg S' act = .ok S'' → Few cfg S'' → During cfg t S S''

/-- No function is running. -/
def Quiet (S : State V) : Prop := ∀ fs ∈ S.threads, fs = []

/-- The value that a handle leads to. -/
def deref (S : State V) (p : Addr) : Option V := (Arc.get S.mem.heap p).map (·.data)

/-- The counter of an object (`refcount()`, arc.rs:206-208). -/
def refcount (S : State V) (p : Addr) : Option Nat := (Arc.get S.mem.heap p).map (·.count)

/-- All handles, when no function is running: those of clients and those inside values. -/
def allHandles (cfg : Cfg V) (S : State V) : List Addr := S.handles ++ Arc.storedHandles cfg S.mem.heap

/-- The next thing the thread does is to destroy a value, or it is executing the `drop` function of a value that is being destroyed. -/
def Destroying (fs : Stack V) : Prop := (∃ f g r, fs.head? = some f ∧ f.items = .glue g :: r ∧ ∀ sh, g ≠ .unlock sh) ∨ 2 ≤ fs.length

/-- Running the right thread, again and again, leads to a state that satisfies `G`, whatever addresses the allocator returns. -/
inductive Must (cfg : Cfg V) (G : State V → Prop) : State V → Prop
  | done {S : State V} : G S → Must cfg G S
  | step {S : State V} (t : Tid) : (∀ a, a ≠ 0 → a ∉ Arc.keys S.mem.heap → ∃ S', step cfg S (.run t a) = .ok S') →
      (∀ a S', a ≠ 0 → a ∉ Arc.keys S.mem.heap → step cfg S (.run t a) = .ok S' → Must cfg G S') → Must cfg G S

/-- Thread `t` takes `n` steps. -/
def runFor (cfg : Cfg V) (t : Tid) : Nat → State V → Res (State V)
  | 0, S => .ok S
  | n + 1, S => match step cfg S (.run t 0) with
    | .ok S' => runFor cfg t n S'
    | .blocked => .blocked
    | .ub => .ub

end
end Src.ArcCode
