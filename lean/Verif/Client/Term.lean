import Verif.Client.Arc
import Verif.Props.ArcTree
/-
Programs that build terms (C93).

A node has a label and children that are handles themselves: `struct Node { label: L, kids: Vec<ArcIntern<Node>> }`, with derived `PartialEq`,
`Eq` and `Hash` (`Arc.Node`, `Verif/Props/ArcTree.lean`). `==` and `hash` of a child are those of its address (arc.rs:383-395), so that
interning a node costs no more for a large term than for a small one: this is what is called hash-consing.

A program consists of threads with local variables. They build nodes from handles that they own, clone and drop handles, compare them, look at
the label and the number of children of a node, take a child out (as a clone), and send handles to other threads.
-/
namespace Client.Term
open Arc (Addr Cfg Node Tree Unfolds)

/-- The rest of a thread. `i`, `j` number its local variables, in the order of their creation, `q` the queues for sending. -/
inductive Prog (L R : Type)
  /-- the end, with a result. -/
  | done (r : R)
  /-- `let x = ArcIntern::new(Node { label: l, kids: vec![xᵢ, …] })`; the variables are moved from. -/
  | build (l : L) (is : List Nat) (k : Prog L R)
  /-- `let x = xᵢ.clone()`. -/
  | clone (i : Nat) (k : Prog L R)
  /-- `let x = xᵢ.kids[n].clone()`. -/
  | kid (i n : Nat) (k : Prog L R)
  /-- `drop(xᵢ)`. -/
  | drop (i : Nat) (k : Prog L R)
  /-- `xᵢ == xⱼ`. -/
  | eq (i j : Nat) (k : Bool → Prog L R)
  /-- `xᵢ.label` and `xᵢ.kids.len()`. -/
  | node (i : Nat) (k : L → Nat → Prog L R)
  /-- `queue_q.send(xᵢ)`. -/
  | give (q i : Nat) (k : Prog L R)
  /-- `let x = queue_q.receive()`. -/
  | take (q : Nat) (k : Prog L R)

/-- What a thread is doing: its own code, or a call of the library. `H` is what stands for a term: a handle, or the term itself. -/
inductive Phase (H : Type)
  | own
  /-- it is building a node with these children. -/
  | building (kids : List H)
  | dropping

/-- A thread. A variable is `none` after it was moved from or dropped. -/
structure Thread (L R H : Type) where
  prog : Prog L R
  locals : List (Option H)
  phase : Phase H

/-- All threads, and what was sent and has not been received. -/
structure Conf (L R H : Type) where
  threads : List (Thread L R H)
  queues : List (List H)

/-- The start of a program with `n` queues. -/
def start {L R H : Type} (ps : List (Prog L R)) (n : Nat) : Conf L R H :=
  { threads := ps.map fun p => { prog := p, locals := [], phase := .own }, queues := List.replicate n [] }

/-- The code of every thread. -/
def Conf.progs {L R H : Type} (c : Conf L R H) : List (Prog L R) := c.threads.map (·.prog)

/-- Move out of variables. It is not possible to move out of a variable twice. -/
def move {H : Type} : List Nat → List (Option H) → Option (List H × List (Option H))
  | [], l => some ([], l)
  | i :: is, l => match l[i]? with
    | some (some p) => (move is (l.set i none)).map fun (ps, l') => (p :: ps, l')
    | _ => none

/-- What threads see of what stands for a term. -/
structure View (L H : Type) where
  eq : H → H → Bool → Prop
  node : H → L → Nat → Prop

/-- A step of a thread that does not call the interner. -/
inductive Look {L R H : Type} (S : View L H) (th : Thread L R H) (qs : List (List H)) : Thread L R H → List (List H) → Prop
  | eq {i j : Nat} {k : Bool → Prog L R} {p q : H} {b : Bool} : th.prog = .eq i j k → th.locals[i]? = some (some p) →
      th.locals[j]? = some (some q) → S.eq p q b → Look S th qs { th with prog := k b } qs
  | node {i : Nat} {k : L → Nat → Prog L R} {p : H} {l : L} {n : Nat} : th.prog = .node i k → th.locals[i]? = some (some p) →
      S.node p l n → Look S th qs { th with prog := k l n } qs
  | give {q i : Nat} {k : Prog L R} {p : H} {l : List H} : th.prog = .give q i k → th.locals[i]? = some (some p) → qs[q]? = some l →
      Look S th qs { th with prog := k, locals := th.locals.set i none } (qs.set q (l ++ [p]))
  | take {q : Nat} {k : Prog L R} {p : H} {l : List H} : th.prog = .take q k → qs[q]? = some (p :: l) →
      Look S th qs { th with prog := k, locals := th.locals ++ [some p] } (qs.set q l)

/-! ### The same program with trees in place of handles -/

mutual
/-- Are two trees the same? -/
def same {L : Type} [BEq L] : Tree L → Tree L → Bool
  | .node l ts, .node m us => l == m && sameAll ts us
/-- The same for lists of trees. -/
def sameAll {L : Type} [BEq L] : List (Tree L) → List (Tree L) → Bool
  | [], [] => true
  | t :: ts, u :: us => same t u && sameAll ts us
  | _, _ => false
end

def label {L : Type} : Tree L → L
  | .node l _ => l

def kids {L : Type} : Tree L → List (Tree L)
  | .node _ ts => ts

/-- Trees are compared from top to bottom. -/
def trees {L : Type} [BEq L] : View L (Tree L) where
  eq t u b := b = same t u
  node t l n := l = label t ∧ n = (kids t).length

/-- A step of the program. -/
inductive VStep {L R : Type} [BEq L] (c : Conf L R (Tree L)) : Conf L R (Tree L) → Prop
  | look {t : Nat} {th th' : Thread L R (Tree L)} {qs : List (List (Tree L))} : c.threads[t]? = some th → th.phase = .own →
      Look trees th c.queues th' qs → VStep c { threads := c.threads.set t th', queues := qs }
  /-- the variables are moved from. -/
  | build {t : Nat} {th : Thread L R (Tree L)} {l : L} {is : List Nat} {k : Prog L R} {ts : List (Tree L)} {ls : List (Option (Tree L))} :
      c.threads[t]? = some th → th.phase = .own → th.prog = .build l is k → move is th.locals = some (ts, ls) →
      VStep c { c with threads := c.threads.set t { th with locals := ls, phase := .building ts } }
  /-- and the tree is put into a new one. -/
  | built {t : Nat} {th : Thread L R (Tree L)} {l : L} {is : List Nat} {k : Prog L R} {ts : List (Tree L)} :
      c.threads[t]? = some th → th.phase = .building ts → th.prog = .build l is k →
      VStep c { c with threads := c.threads.set t { prog := k, locals := th.locals ++ [some (.node l ts)], phase := .own } }
  | clone {t : Nat} {th : Thread L R (Tree L)} {i : Nat} {x : Tree L} {k : Prog L R} : c.threads[t]? = some th → th.phase = .own →
      th.prog = .clone i k → th.locals[i]? = some (some x) →
      VStep c { c with threads := c.threads.set t { th with prog := k, locals := th.locals ++ [some x] } }
  | kid {t : Nat} {th : Thread L R (Tree L)} {i n : Nat} {x y : Tree L} {k : Prog L R} : c.threads[t]? = some th → th.phase = .own →
      th.prog = .kid i n k → th.locals[i]? = some (some x) → (kids x)[n]? = some y →
      VStep c { c with threads := c.threads.set t { th with prog := k, locals := th.locals ++ [some y] } }
  | drop {t : Nat} {th : Thread L R (Tree L)} {i : Nat} {x : Tree L} {k : Prog L R} : c.threads[t]? = some th → th.phase = .own →
      th.prog = .drop i k → th.locals[i]? = some (some x) →
      VStep c { c with threads := c.threads.set t { th with prog := k, locals := th.locals.set i none } }

/-- An execution of it. -/
inductive VRun {L R : Type} [BEq L] (c : Conf L R (Tree L)) : Conf L R (Tree L) → Prop
  | refl : VRun c c
  | step {c' c'' : Conf L R (Tree L)} : VRun c c' → VStep c' c'' → VRun c c''

/-- The result of one thread on its own, computed with trees. -/
def Prog.eval {L R : Type} [BEq L] : Prog L R → List (Option (Tree L)) → Option R
  | .done r, _ => some r
  | .build l is k, ls => match move is ls with
    | some (ts, ls') => k.eval (ls' ++ [some (.node l ts)])
    | none => none
  | .clone i k, ls => match ls[i]? with
    | some (some x) => k.eval (ls ++ [some x])
    | _ => none
  | .kid i n k, ls => match ls[i]? with
    | some (some x) => match (kids x)[n]? with
      | some y => k.eval (ls ++ [some y])
      | none => none
    | _ => none
  | .drop i k, ls => match ls[i]? with
    | some (some _) => k.eval (ls.set i none)
    | _ => none
  | .eq i j k, ls => match ls[i]?, ls[j]? with
    | some (some x), some (some y) => (k (same x y)).eval ls
    | _, _ => none
  | .node i k, ls => match ls[i]? with
    | some (some x) => (k (label x) (kids x).length).eval ls
    | _ => none
  | .give .., _ | .take .., _ => none

/-- The thread neither sends nor receives. -/
inductive Prog.Alone {L R : Type} : Prog L R → Prop
  | done (r : R) : Alone (.done r)
  | build {l : L} {is : List Nat} {k : Prog L R} : Alone k → Alone (.build l is k)
  | clone {i : Nat} {k : Prog L R} : Alone k → Alone (.clone i k)
  | kid {i n : Nat} {k : Prog L R} : Alone k → Alone (.kid i n k)
  | drop {i : Nat} {k : Prog L R} : Alone k → Alone (.drop i k)
  | eq {i j : Nat} {k : Bool → Prog L R} : (∀ b, Alone (k b)) → Alone (.eq i j k)
  | node {i : Nat} {k : L → Nat → Prog L R} : (∀ l n, Alone (k l n)) → Alone (.node i k)

/-! ### The program with `ArcIntern` -/

section
variable {L : Type} [BEq L] [Hashable (Node L)]

/-- `==` of handles, and reading through a handle. -/
def handles (cfg : Cfg (Node L)) (X : (arc cfg).State) : View L Addr where
  eq p q b := b = Traits.eq p q
  node p l n := ∃ ks, (arc cfg).deref X p = some ⟨l, ks⟩ ∧ n = ks.length

/-- Thread `t` clones child number `n` of the node that `p` leads to, which is `q`. -/
def Picks (cfg : Cfg (Node L)) (X : (arc cfg).State) (t : Tid) (p : Addr) (n : Nat) (q : Addr) (X' : (arc cfg).State) : Prop :=
  X.base.threads[t]? = some [] ∧ (∃ l ks, (arc cfg).deref X p = some ⟨l, ks⟩ ∧ ks[n]? = some q) ∧
  Src.ArcHeld.step cfg X (.act (.clone t [p, q])) = .ok X' ∧ Src.ArcNest.Few cfg X'.base

/-- The number of copies of handle `p` that the program owns, in variables and queues. -/
def Conf.held {R : Type} (c : Conf L R Addr) (p : Addr) : Nat :=
  (c.threads.map fun th => th.locals.count (some p)).sum + (c.queues.map fun l => l.count p).sum

/-- The process and a program. -/
structure World (cfg : Cfg (Node L)) (R : Type) where
  state : (arc cfg).State
  conf : Conf L R Addr

/-- A step. -/
inductive WStep {R : Type} {cfg : Cfg (Node L)} (w : World cfg R) : World cfg R → Prop
  /-- anything happens, in the calls of the program, in user code called by them, and in other parts of the process; but no thread of the
  program starts a call or ends a call of `new` in this way, and nobody takes handles away that the program owns. -/
  | inside {s : (arc cfg).State} : (arc cfg).Step w.state s →
      (∀ t th, w.conf.threads[t]? = some th → th.phase ≠ .dropping → ((arc cfg).idle w.state t ↔ (arc cfg).idle s t)) →
      (arc cfg).Owns s w.conf.held → WStep w ⟨s, w.conf⟩
  | look {t : Nat} {th th' : Thread L R Addr} {qs : List (List Addr)} : w.conf.threads[t]? = some th → th.phase = .own →
      Look (handles cfg w.state) th w.conf.queues th' qs → WStep w ⟨w.state, { threads := w.conf.threads.set t th', queues := qs }⟩
  /-- the handles are moved into the node. -/
  | call {s : (arc cfg).State} {t : Nat} {th : Thread L R Addr} {l : L} {is : List Nat} {k : Prog L R} {ps : List Addr}
      {ls : List (Option Addr)} : w.conf.threads[t]? = some th → th.phase = .own → th.prog = .build l is k →
      move is th.locals = some (ps, ls) → (arc cfg).Calls w.state t ⟨l, ps⟩ s →
      WStep w ⟨s, { w.conf with threads := w.conf.threads.set t { th with locals := ls, phase := .building ps } }⟩
  | ret {s : (arc cfg).State} {t : Nat} {th : Thread L R Addr} {l : L} {is : List Nat} {k : Prog L R} {ps : List Addr} {b : Addr} :
      w.conf.threads[t]? = some th → th.phase = .building ps → th.prog = .build l is k → (arc cfg).Returns w.state t b s →
      WStep w ⟨s, { w.conf with threads := w.conf.threads.set t { prog := k, locals := th.locals ++ [some b], phase := .own } }⟩
  | clone {s : (arc cfg).State} {t : Nat} {th : Thread L R Addr} {i : Nat} {p : Addr} {k : Prog L R} : w.conf.threads[t]? = some th →
      th.phase = .own → th.prog = .clone i k → th.locals[i]? = some (some p) → (arc cfg).Clones w.state t p s →
      WStep w ⟨s, { w.conf with threads := w.conf.threads.set t { th with prog := k, locals := th.locals ++ [some p] } }⟩
  | kid {s : (arc cfg).State} {t : Nat} {th : Thread L R Addr} {i n : Nat} {p q : Addr} {k : Prog L R} : w.conf.threads[t]? = some th →
      th.phase = .own → th.prog = .kid i n k → th.locals[i]? = some (some p) → Picks cfg w.state t p n q s →
      WStep w ⟨s, { w.conf with threads := w.conf.threads.set t { th with prog := k, locals := th.locals ++ [some q] } }⟩
  | drop {s : (arc cfg).State} {t : Nat} {th : Thread L R Addr} {i : Nat} {p : Addr} {k : Prog L R} : w.conf.threads[t]? = some th →
      th.phase = .own → th.prog = .drop i k → th.locals[i]? = some (some p) → (arc cfg).Drops w.state t p s →
      WStep w ⟨s, { w.conf with threads := w.conf.threads.set t { prog := k, locals := th.locals.set i none, phase := .dropping } }⟩
  /-- the call of `drop` has ended. -/
  | dropped {t : Nat} {th : Thread L R Addr} : w.conf.threads[t]? = some th → th.phase = .dropping → (arc cfg).idle w.state t →
      WStep w ⟨w.state, { w.conf with threads := w.conf.threads.set t { th with phase := .own } }⟩

/-- An execution. -/
inductive WRun {R : Type} {cfg : Cfg (Node L)} (w : World cfg R) : World cfg R → Prop
  | refl : WRun w w
  | step {w' w'' : World cfg R} : WRun w w' → WStep w' w'' → WRun w w''

/-- A program is started in some state of the process. -/
structure Starts {R : Type} {cfg : Cfg (Node L)} (ps : List (Prog L R)) (n : Nat) (w : World cfg R) : Prop where
  conf : w.conf = start ps n
  reach : (arc cfg).Reach w.state
  idle : ∀ t < ps.length, (arc cfg).idle w.state t

/-! ### What the theorems say -/

/-- A handle stands for a tree: following it and the handles in the nodes gives the tree. -/
def Stands {cfg : Cfg (Node L)} (X : (arc cfg).State) (p : Addr) (t : Tree L) : Prop := Unfolds X.base.view p t

/-- The same for a variable: they are both moved from, or a handle stands for a tree. -/
def StandsVar {cfg : Cfg (Node L)} (X : (arc cfg).State) : Option Addr → Option (Tree L) → Prop
  | none, none => True
  | some p, some t => Stands X p t
  | _, _ => False

/-- Both threads are building a node with as many children, or none of them is. -/
def SamePhase : Phase Addr → Phase (Tree L) → Prop
  | .building ps, .building ts => ps.length = ts.length
  | .own, .own | .dropping, .own => True
  | _, _ => False

/-- Both threads are at the same place in the code, and their variables correspond. -/
structure SameThread {R : Type} {cfg : Cfg (Node L)} (X : (arc cfg).State) (th : Thread L R Addr) (th' : Thread L R (Tree L)) : Prop where
  prog : th.prog = th'.prog
  phase : SamePhase th.phase th'.phase
  locals : Pairs (StandsVar X) th.locals th'.locals

/-- And so for all threads, and all queues. -/
structure Same {R : Type} {cfg : Cfg (Node L)} (w : World cfg R) (c : Conf L R (Tree L)) : Prop where
  threads : Pairs (SameThread w.state) w.conf.threads c.threads
  queues : Pairs (Pairs (Stands w.state)) w.conf.queues c.queues

end
end Client.Term
