import Verif.Src.ArcSpec
import Verif.Arc.Main
/-
How a state of the code (`Verif/Src/ArcCode.lean`) corresponds to a state of the interleaving model (`Verif/Arc/Model.lean`).
-/
namespace Src.ArcCode
open Arc (Addr Tid Cell Cfg Res Call Pc Thread)

variable {V : Type}

/-- The drop glue of a scope. -/
def scGlue (cfg : Cfg V) (sc : List (Var × Option (Val V))) : List (Glue V) := sc.flatMap fun x => x.2.toList.flatMap (glue cfg)

/-- All the glue that a function on its way out is going to run, if it has nothing else to do. -/
def wind (cfg : Cfg V) (exiting : Bool) : Scopes Var (Val V) → List (It V) → Option (List (Glue V))
  | _, [] => some []
  | scs, .glue g :: r => (wind cfg exiting scs r).map (g :: ·)
  | [], .close :: _ => none
  | sc :: scs, .close :: r => (wind cfg exiting scs r).map (scGlue cfg sc ++ ·)
  | scs, .again _ :: r => if exiting then wind cfg exiting scs r else none
  | scs, .stmt _ :: r => if exiting then wind cfg exiting scs r else none

/-- All functions on the stack are on their way out; together they will run the glue `G`, and the outermost returns `r`. -/
inductive Winds (cfg : Cfg V) : Stack V → List (Glue V) → Option Addr → Prop
  | nil : Winds cfg [] [] none
  | last {f : Frame Var (Val V) Op (Glue V)} {g : List (Glue V)} {r : Option Addr} : wind cfg f.exiting f.scopes f.items = some g →
      f.ret = r.map .handle → Winds cfg [f] g r
  | cons {f f2 : Frame Var (Val V) Op (Glue V)} {fs : Stack V} {g G : List (Glue V)} {r : Option Addr} :
      wind cfg f.exiting f.scopes f.items = some g → f.ret = none → Winds cfg (f2 :: fs) G r → Winds cfg (f :: f2 :: fs) (g ++ G) r

/-- Glue that only drops handles and releases memory. -/
def Glue.soft : Glue V → Bool
  | .value _ | .handle _ | .dealloc _ => true
  | _ => false

/-- The handles that are going to be dropped. -/
def handlesOf (G : List (Glue V)) : List Addr := G.filterMap fun | .handle b => some b | _ => none

/-- The memory that is going to be released. -/
def deallocsOf (l : List (It V)) : List Addr := l.filterMap fun | .glue (.dealloc b) => some b | _ => none

/-- Boxes whose content is being destroyed, and whose memory is released afterwards. -/
def dying (fs : Stack V) : List Addr := fs.flatMap fun f => deallocsOf f.items

/-- How much a function that goes on can still grow before it next does something that the model sees, see `work`. -/
def slack : List (It V) → Nat
  | [] => 0
  | .close :: l | .glue _ :: l | .stmt (.exec .yieldNow) :: l | .stmt (.exec .getContainer) :: l | .stmt (.exec .fence) :: l
  | .stmt (.uninit _) :: l | .stmt (.bind _ .noBox) :: l | .stmt (.assign _ (.someBox _)) :: l => slack l
  | .again _ :: _ | .stmt (.loop _) :: _ | .stmt (.choose _ (.isOne _) _ _) :: _ => 6
  | .stmt (.block _) :: _ => 4
  | .stmt (.choose _ (.nonzero _) _ _) :: _ => 2
  | .stmt (.bind _ (.handleOf _)) :: _ => 1
  | .stmt _ :: _ => 0

def cost (cfg : Cfg V) (f : Frame Var (Val V) Op (Glue V)) : Nat :=
  f.items.length + (f.scopes.map fun sc => (scGlue cfg sc).length).sum + (if f.exiting then 0 else slack f.items) + 1

/-- A measure that decreases in every step that the model does not see. -/
def work (cfg : Cfg V) (fs : Stack V) : Nat := (fs.map (cost cfg)).sum

/-- The variables of `new` before the value is moved into a box. -/
def params (c : Call V) : List (Var × Option (Val V)) :=
  if c.dst then [(.converted, some (.optBox c.conv)), (.val, some (.borrowed c.val))] else [(.val, some (.owned c.val))]

/-- And after it. -/
def taken (c : Call V) : List (Var × Option (Val V)) :=
  if c.dst then [(.converted, some (.optBox none)), (.val, some (.borrowed c.val))] else [(.val, none)]

/-- The drop glue of the argument of `new`; the unsized constructors have only borrowed it. -/
def argGlue (cfg : Cfg V) (c : Call V) : List (Glue V) := (if c.dst then [] else [.value c.val]) ++ (cfg.kids c.val).map .handle

/-- What a call that leaves destroys: the variables in `params`. -/
def unw (cfg : Cfg V) (c : Call V) : List (Glue V) := c.conv.toList.map .destroy ++ argGlue cfg c

/-- Unsized values contain no handles, and only the unsized constructors have a `converted`. -/
def OkCall (cfg : Cfg V) (c : Call V) : Prop := (c.dst = true → cfg.kids c.val = []) ∧ (c.dst = false → c.conv = none)

/-- What follows the body of the loop. -/
def after (dst : Bool) : List (It V) := [.again (body dst), .close]
/-- What follows the `if let` in the body. -/
def rest (dst : Bool) : List (It V) := .close :: .stmt (.exec .yieldNow) :: .close :: after dst

/-- The places in `new`, with the variables there, and the program counter and returned handle of the model that belong to them. -/
inductive NewAt (cfg : Cfg V) : Scopes Var (Val V) → List (It V) → Pc V → Option Addr → Prop
  | conv {v : V} : cfg.kids v = [] → NewAt cfg [[(.val, some (.borrowed v))]]
      [.stmt (.bind .converted .noBox), .stmt (.loop (body true)), .close] (.newLoop ⟨v, true, none⟩) none
  | loop {c : Call V} : OkCall cfg c → NewAt cfg [params c] [.stmt (.loop (body c.dst)), .close] (.newLoop c) none
  | block {c : Call V} : OkCall cfg c → NewAt cfg [params c] (.stmt (.block (body c.dst)) :: after c.dst) (.newLoop c) none
  | cont {c : Call V} : OkCall cfg c → NewAt cfg [[], params c]
      (.stmt (.exec .getContainer) :: .stmt (.choose .g (.getMut .val) found (missing c.dst)) :: .stmt (.exec .yieldNow) :: .close ::
        after c.dst) (.newLoop c) none
  | look {c : Call V} : OkCall cfg c → NewAt cfg [[], params c]
      (.stmt (.choose .g (.getMut .val) found (missing c.dst)) :: .stmt (.exec .yieldNow) :: .close :: after c.dst) (.newLoop c) none
  | hit1 {c : Call V} {sh : Nat} {b : Addr} : OkCall cfg c → NewAt cfg [[(.g, some (.guard sh b))], [], params c]
      (found.map .stmt ++ rest c.dst) (.newFound c sh b) none
  | hit2 {c : Call V} {sh : Nat} {b : Addr} : OkCall cfg c →
      NewAt cfg [[(.b, some (.ref b)), (.g, some (.guard sh b))], [], params c]
        (.stmt (.bind .oldval (.fetchAdd .b)) ::
          .stmt (.choose .u (.nonzero .oldval) [.ret (.handleOf .b)] [.exec (.fetchSub .b)]) :: rest c.dst) (.newFound c sh b) none
  | hit3 {c : Call V} {sh n : Nat} {b : Addr} : OkCall cfg c →
      NewAt cfg [[(.oldval, some (.num n)), (.b, some (.ref b)), (.g, some (.guard sh b))], [], params c]
        (.stmt (.choose .u (.nonzero .oldval) [.ret (.handleOf .b)] [.exec (.fetchSub .b)]) :: rest c.dst)
        (if n ≠ 0 then .newHit c sh b else .newUndo c sh b) none
  | hit4 {c : Call V} {sh n : Nat} {b : Addr} : OkCall cfg c →
      NewAt cfg [[(.u, none)], [(.oldval, some (.num n)), (.b, some (.ref b)), (.g, some (.guard sh b))], [], params c]
        (.stmt (.ret (.handleOf .b)) :: .close :: rest c.dst) (.newHit c sh b) none
  | undo1 {c : Call V} {sh n : Nat} {b : Addr} : OkCall cfg c →
      NewAt cfg [[(.u, none)], [(.oldval, some (.num n)), (.b, some (.ref b)), (.g, some (.guard sh b))], [], params c]
        (.stmt (.exec (.fetchSub .b)) :: .close :: rest c.dst) (.newUndo c sh b) none
  | undo2 {c : Call V} {sh n : Nat} {b : Addr} : OkCall cfg c →
      NewAt cfg [[(.u, none)], [(.oldval, some (.num n)), (.b, some (.ref b)), (.g, some (.guard sh b))], [], params c]
        (.close :: rest c.dst) (.newRelease c sh) none
  | undo3 {c : Call V} {sh n : Nat} {b : Addr} : OkCall cfg c →
      NewAt cfg [[(.oldval, some (.num n)), (.b, some (.ref b)), (.g, some (.guard sh b))], [], params c]
        (rest c.dst) (.newRelease c sh) none
  | undo4 {c : Call V} {sh : Nat} : OkCall cfg c → NewAt cfg [[], params c]
        (.glue (.unlock sh) :: .stmt (.exec .yieldNow) :: .close :: after c.dst) (.newRelease c sh) none
  | yield {c : Call V} : OkCall cfg c → NewAt cfg [[], params c] (.stmt (.exec .yieldNow) :: .close :: after c.dst) (.newLoop c) none
  | endBlock {c : Call V} : OkCall cfg c → NewAt cfg [[], params c] (.close :: after c.dst) (.newLoop c) none
  | again {c : Call V} : OkCall cfg c → NewAt cfg [params c] (after c.dst) (.newLoop c) none
  | miss1 {c : Call V} : OkCall cfg c → NewAt cfg [[(.g, none)], [], params c] ((missing c.dst).map .stmt ++ rest c.dst)
      (match c.conv with | some b => .newEntry { c with conv := none } b | none => .newAlloc c) none
  | miss2 {c : Call V} {b : Addr} : OkCall cfg c → c.conv = none → NewAt cfg [[(.b, some (.box b)), (.g, none)], [], taken c]
      (((missing c.dst).drop 1).map .stmt ++ rest c.dst) (.newEntry c b) none
  | vac1 {c : Call V} {sh : Nat} {b : Addr} : OkCall cfg c → c.conv = none →
      NewAt cfg [[(.e, some (.vacant sh b))], [(.b, none), (.g, none)], [], taken c]
        (.stmt (.bind .p (.handleOf .e)) :: .stmt (.exec (.insert .e)) :: .stmt (.ret (.move .p)) :: .close :: rest c.dst)
        (.newVacant c sh b) none
  | vac2 {c : Call V} {sh : Nat} {b : Addr} : OkCall cfg c → c.conv = none →
      NewAt cfg [[(.p, some (.handle b)), (.e, some (.vacant sh b))], [(.b, none), (.g, none)], [], taken c]
        (.stmt (.exec (.insert .e)) :: .stmt (.ret (.move .p)) :: .close :: rest c.dst) (.newVacant c sh b) none
  | vac3 {c : Call V} {sh : Nat} {b : Addr} : OkCall cfg c → c.conv = none →
      NewAt cfg [[(.p, some (.handle b)), (.e, none)], [(.b, none), (.g, none)], [], taken c]
        (.glue (.unlock sh) :: .stmt (.ret (.move .p)) :: .close :: rest c.dst) (.newInserted c sh b) none
  | vac4 {c : Call V} {b : Addr} : OkCall cfg c → c.conv = none →
      NewAt cfg [[(.p, some (.handle b)), (.e, none)], [(.b, none), (.g, none)], [], taken c]
        (.stmt (.ret (.move .p)) :: .close :: rest c.dst) .idle (some b)
  | occ1 {c : Call V} {sh : Nat} {b : Addr} : OkCall cfg c → c.conv = none →
      NewAt cfg [[(.e, some (.occupied sh b))], [(.b, none), (.g, none)], [], taken c]
        (.stmt (.bind .boxRefCount (.intoKey .e)) ::
          .stmt (if c.dst then .assign .converted (.someBox .boxRefCount) else .assign .val (.intoInner .boxRefCount)) :: .close ::
          rest c.dst) (.newOccupied c sh b) none
  | occ2 {c : Call V} {b : Addr} : OkCall cfg c → c.conv = none →
      NewAt cfg [[(.boxRefCount, some (.box b)), (.e, none)], [(.b, none), (.g, none)], [], taken c]
        (.stmt (if c.dst then .assign .converted (.someBox .boxRefCount) else .assign .val (.intoInner .boxRefCount)) :: .close ::
          rest c.dst) (if c.dst then .newLoop { c with conv := some b } else .newUnbox c b) none
  | occ3 {c : Call V} : OkCall cfg c →
      NewAt cfg [[(.boxRefCount, none), (.e, none)], [(.b, none), (.g, none)], [], params c] (.close :: rest c.dst) (.newLoop c) none
  | occ4 {c : Call V} : OkCall cfg c → NewAt cfg [[(.b, none), (.g, none)], [], params c] (rest c.dst) (.newLoop c) none

/-- The variables of `drop`. -/
def dropVars (b : Addr) (n : Nat) : List (Var × Option (Val V)) := [(.countWas, some (.num n)), (.self, some (.ref b))]

/-- The places in `drop`, while it has something else to do than leaving. -/
inductive DropAt : Scopes Var (Val V) → List (It V) → Pc V → Prop
  | sub {b : Addr} : DropAt [[(.self, some (.ref b))]] (dropCode.map .stmt ++ [.close]) (.dropSub b)
  | test {b : Addr} {n : Nat} : DropAt [dropVars b n] ((dropCode.drop 1).map .stmt ++ [.close]) (if n = 1 then .dropRemove b else .idle)
  | yield {b : Addr} {n : Nat} : DropAt [[(.u, none)], dropVars b n]
      [.stmt (.exec .yieldNow), .stmt (.exec .fence), .stmt (.uninit .remove), .stmt (.exec .getContainer),
        .stmt (.assign .remove (.remove .self)), .close, .close] (.dropRemove b)
  | fence {b : Addr} {n : Nat} : DropAt [[(.u, none)], dropVars b n]
      [.stmt (.exec .fence), .stmt (.uninit .remove), .stmt (.exec .getContainer),
        .stmt (.assign .remove (.remove .self)), .close, .close] (.dropRemove b)
  | uninit {b : Addr} {n : Nat} : DropAt [[(.u, none)], dropVars b n]
      [.stmt (.uninit .remove), .stmt (.exec .getContainer), .stmt (.assign .remove (.remove .self)), .close, .close] (.dropRemove b)
  | cont {b : Addr} {n : Nat} : DropAt [[(.remove, none), (.u, none)], dropVars b n]
      [.stmt (.exec .getContainer), .stmt (.assign .remove (.remove .self)), .close, .close] (.dropRemove b)
  | remove {b : Addr} {n : Nat} : DropAt [[(.remove, none), (.u, none)], dropVars b n]
      [.stmt (.assign .remove (.remove .self)), .close, .close] (.dropRemove b)

/-- A thread of the code and a thread of the model. -/
inductive Rel (cfg : Cfg V) : Stack V → Thread V → Prop
  | leave {fs : Stack V} {G : List (Glue V)} {r : Option Addr} {arg : Option V} : Winds cfg fs G r → G.all Glue.soft = true →
      Rel cfg fs ⟨.idle, handlesOf G, r, arg⟩
  | destroy {fs : Stack V} {b : Addr} {G : List (Glue V)} {r : Option Addr} {arg : Option V} : Winds cfg fs (.destroy b :: G) r →
      G.all Glue.soft = true → Rel cfg fs ⟨.dropFree b, handlesOf G, r, arg⟩
  | unlock {fs : Stack V} {c : Call V} {sh : Nat} {b : Addr} {arg : Option V} : Winds cfg fs (.unlock sh :: unw cfg c) (some b) →
      fs.length ≤ 1 →
      Rel cfg fs ⟨.newHit c sh b, [], none, arg⟩
  | drop {scs : Scopes Var (Val V)} {items : List (It V)} {pc : Pc V} {fs : Stack V} {G : List (Glue V)} {r : Option Addr} {arg : Option V} :
      DropAt scs items pc → Winds cfg fs G r → G.all Glue.soft = true →
      Rel cfg ({ scopes := scs, items := items } :: fs) ⟨pc, handlesOf G, r, arg⟩
  | new {scs : Scopes Var (Val V)} {items : List (It V)} {pc : Pc V} {r : Option Addr} {arg : Option V} : NewAt cfg scs items pc r →
      Rel cfg [{ scopes := scs, items := items }] ⟨pc, [], r, arg⟩

/-- Shared memory of the code and of the model: the model has already released the boxes `D` whose content is being destroyed. -/
structure Shared (D : List Addr) (m : Mem V) (s : Arc.State V) : Prop where
  table : s.table = m.table
  locks : s.locks = m.locks
  heap : s.heap = m.heap.filter fun e => decide (e.1 ∉ D)

/-- A state of the code and a state of the model. -/
structure Sim (cfg : Cfg V) (S : State V) (s : Arc.State V) : Prop where
  shared : Shared (S.threads.flatMap dying) S.mem s
  handles : s.handles = S.handles
  len : s.threads.length = S.threads.length
  th : ∀ (t : Tid) (fs : Stack V) (th : Thread V), S.threads[t]? = some fs → s.threads[t]? = some th → Rel cfg fs th
  alloc : ∀ b ∈ S.threads.flatMap dying, b ∈ Arc.keys S.mem.heap
  nodup : ∀ b, (S.threads.flatMap dying).count b ≤ 1

end Src.ArcCode
