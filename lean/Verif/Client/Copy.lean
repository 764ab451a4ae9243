import Verif.Client.Term
import Verif.Client.Pool
/-
Programs that build terms from handles that are `Copy` (C96): `Intern`, `ArenaIntern`, and the `Intern` of typearena.rs.

A node has a label and children that are handles themselves: `struct Node { label: L, kids: Vec<Intern<Node>> }`, with derived `PartialEq`, `Eq` and
`Hash`. `==` and `hash` of a child are those of its address (intern.rs:414-426, arena.rs:520-532, typearena.rs:429-441).

Handles need not be cloned, moved or dropped: variables keep what they were given once.
-/
namespace Client.Copy
open Arc (Tree)
open Client.Term (label kids same)

/-- A node. `P` are the handles. -/
structure Node (L P : Type) where
  label : L
  kids : List P
  deriving DecidableEq

section
variable {L P : Type} [BEq L] [DecidableEq P]

/-- What `#[derive(PartialEq)]` makes. -/
instance : BEq (Node L P) := ⟨fun x y => x.label == y.label && x.kids == y.kids⟩

instance [LawfulBEq L] : LawfulBEq (Node L P) where
  eq_of_beq := by
    intro x y h
    obtain ⟨h1, h2⟩ := Bool.and_eq_true_iff.mp h
    cases x; cases y
    rw [Node.mk.injEq]
    exact ⟨eq_of_beq h1, eq_of_beq h2⟩
  rfl := by
    intro x
    show (x.label == x.label && x.kids == x.kids) = true
    simp

end

/-- The rest of a thread. `i`, `j` number its local variables, in the order of their creation, `q` the queues for sending. -/
inductive Prog (L R : Type)
  /-- the end, with a result. -/
  | done (r : R)
  /-- `let x = Intern::new(Node { label: l, kids: vec![xᵢ, …] })`. -/
  | build (l : L) (is : List Nat) (k : Prog L R)
  /-- `let x = xᵢ.kids[n]`. -/
  | kid (i n : Nat) (k : Prog L R)
  /-- `xᵢ == xⱼ`. -/
  | eq (i j : Nat) (k : Bool → Prog L R)
  /-- `xᵢ.label` and `xᵢ.kids.len()`. -/
  | node (i : Nat) (k : L → Nat → Prog L R)
  /-- `queue_q.send(xᵢ)`. -/
  | give (q i : Nat) (k : Prog L R)
  /-- `let x = queue_q.receive()`. -/
  | take (q : Nat) (k : Prog L R)

/-- A thread. `H` is what stands for a term: a handle, or the term itself. `busy`: it is in a call of the library. -/
structure Thread (L R H : Type) where
  prog : Prog L R
  locals : List H
  busy : Bool

/-- All threads, and what was sent and has not been received. -/
structure Conf (L R H : Type) where
  threads : List (Thread L R H)
  queues : List (List H)

/-- The start of a program with `n` queues. -/
def start {L R H : Type} (ps : List (Prog L R)) (n : Nat) : Conf L R H :=
  { threads := ps.map fun p => { prog := p, locals := [], busy := false }, queues := List.replicate n [] }

/-- The code of every thread. -/
def Conf.progs {L R H : Type} (c : Conf L R H) : List (Prog L R) := c.threads.map (·.prog)

/-- All handles in variables and queues. -/
def Conf.all {L R H : Type} (c : Conf L R H) : List H := (c.threads.flatMap (·.locals)) ++ c.queues.flatten

/-- The values of variables. -/
def pick {H : Type} : List Nat → List H → Option (List H)
  | [], _ => some []
  | i :: is, l => match l[i]?, pick is l with
    | some p, some ps => some (p :: ps)
    | _, _ => none

/-- What threads see of what stands for a term. -/
structure View (L H : Type) where
  eq : H → H → Bool → Prop
  node : H → L → Nat → Prop
  kid : H → Nat → H → Prop

/-- A step of a thread that does not call the interner. -/
inductive Look {L R H : Type} (S : View L H) (th : Thread L R H) (qs : List (List H)) : Thread L R H → List (List H) → Prop
  | eq {i j : Nat} {k : Bool → Prog L R} {p q : H} {b : Bool} : th.prog = .eq i j k → th.locals[i]? = some p → th.locals[j]? = some q →
      S.eq p q b → Look S th qs { th with prog := k b } qs
  | node {i : Nat} {k : L → Nat → Prog L R} {p : H} {l : L} {n : Nat} : th.prog = .node i k → th.locals[i]? = some p → S.node p l n →
      Look S th qs { th with prog := k l n } qs
  | kid {i n : Nat} {k : Prog L R} {p q : H} : th.prog = .kid i n k → th.locals[i]? = some p → S.kid p n q →
      Look S th qs { th with prog := k, locals := th.locals ++ [q] } qs
  | give {q i : Nat} {k : Prog L R} {p : H} {l : List H} : th.prog = .give q i k → th.locals[i]? = some p → qs[q]? = some l →
      Look S th qs { th with prog := k } (qs.set q (l ++ [p]))
  | take {q : Nat} {k : Prog L R} {p : H} {l : List H} : th.prog = .take q k → qs[q]? = some (p :: l) →
      Look S th qs { th with prog := k, locals := th.locals ++ [p] } (qs.set q l)

/-! ### The same program with trees in place of handles -/

/-- Trees are compared from top to bottom. -/
def trees {L : Type} [BEq L] : View L (Tree L) where
  eq t u b := b = same t u
  node t l n := l = label t ∧ n = (kids t).length
  kid t n u := (kids t)[n]? = some u

/-- A step of the program. -/
inductive VStep {L R : Type} [BEq L] (c : Conf L R (Tree L)) : Conf L R (Tree L) → Prop
  | look {t : Nat} {th th' : Thread L R (Tree L)} {qs : List (List (Tree L))} : c.threads[t]? = some th →
      Look trees th c.queues th' qs → VStep c { threads := c.threads.set t th', queues := qs }
  | build {t : Nat} {th : Thread L R (Tree L)} {l : L} {is : List Nat} {k : Prog L R} {ts : List (Tree L)} :
      c.threads[t]? = some th → th.prog = .build l is k → pick is th.locals = some ts →
      VStep c { c with threads := c.threads.set t { th with prog := k, locals := th.locals ++ [.node l ts] } }

/-- An execution of it. -/
inductive VRun {L R : Type} [BEq L] (c : Conf L R (Tree L)) : Conf L R (Tree L) → Prop
  | refl : VRun c c
  | step {c' c'' : Conf L R (Tree L)} : VRun c c' → VStep c' c'' → VRun c c''

/-- The result of one thread on its own, computed with trees. -/
def Prog.eval {L R : Type} [BEq L] : Prog L R → List (Tree L) → Option R
  | .done r, _ => some r
  | .build l is k, ls => match pick is ls with
    | some ts => k.eval (ls ++ [.node l ts])
    | none => none
  | .kid i n k, ls => match ls[i]? with
    | some x => match (Client.Term.kids x)[n]? with
      | some y => k.eval (ls ++ [y])
      | none => none
    | none => none
  | .eq i j k, ls => match ls[i]?, ls[j]? with
    | some x, some y => (k (same x y)).eval ls
    | _, _ => none
  | .node i k, ls => match ls[i]? with
    | some x => (k (Client.Term.label x) (Client.Term.kids x).length).eval ls
    | none => none
  | .give .., _ | .take .., _ => none

/-- The thread neither sends nor receives. -/
inductive Prog.Alone {L R : Type} : Prog L R → Prop
  | done (r : R) : Alone (.done r)
  | build {l : L} {is : List Nat} {k : Prog L R} : Alone k → Alone (.build l is k)
  | kid {i n : Nat} {k : Prog L R} : Alone k → Alone (.kid i n k)
  | eq {i j : Nat} {k : Bool → Prog L R} : (∀ b, Alone (k b)) → Alone (.eq i j k)
  | node {i : Nat} {k : L → Nat → Prog L R} : (∀ l n, Alone (k l n)) → Alone (.node i k)

/-! ### The program with an interner -/

section
variable {L R P : Type} [DecidableEq P]

/-- `==` of handles, and reading through a handle. -/
def handles (I : Interner (Node L P) P) (s : I.State) : View L P where
  eq p q b := b = Traits.eq p q
  node p l n := ∃ ks, I.deref s p = some ⟨l, ks⟩ ∧ n = ks.length
  kid p n q := ∃ l ks, I.deref s p = some ⟨l, ks⟩ ∧ ks[n]? = some q

/-- The process and a program. -/
structure World (I : Interner (Node L P) P) (R : Type) where
  state : I.State
  conf : Conf L R P

/-- The arena exists, and calls have returned the handles that the program has. -/
def Owned (I : Interner (Node L P) P) (s : I.State) (c : Conf L R P) : Prop := I.Owns s fun p => c.all.count p

/-- A step. -/
inductive WStep {I : Interner (Node L P) P} (w : World I R) : World I R → Prop
  /-- anything happens, in the calls of the program, in user code called by them, and in other parts of the process; but no thread of the
  program starts a call or ends one in this way, and nobody drops the arena. -/
  | inside {s : I.State} : I.Step w.state s → (∀ t < w.conf.threads.length, (I.idle w.state t ↔ I.idle s t)) → Owned I s w.conf →
      WStep w ⟨s, w.conf⟩
  | look {t : Nat} {th th' : Thread L R P} {qs : List (List P)} : w.conf.threads[t]? = some th → th.busy = false →
      Look (handles I w.state) th w.conf.queues th' qs → WStep w ⟨w.state, { threads := w.conf.threads.set t th', queues := qs }⟩
  | call {s : I.State} {t : Nat} {th : Thread L R P} {l : L} {is : List Nat} {k : Prog L R} {ps : List P} : w.conf.threads[t]? = some th →
      th.busy = false → th.prog = .build l is k → pick is th.locals = some ps → I.Calls w.state t ⟨l, ps⟩ s → Owned I s w.conf →
      WStep w ⟨s, { w.conf with threads := w.conf.threads.set t { th with busy := true } }⟩
  | ret {s : I.State} {t : Nat} {th : Thread L R P} {l : L} {is : List Nat} {k : Prog L R} {b : P} : w.conf.threads[t]? = some th →
      th.busy = true → th.prog = .build l is k → I.Returns w.state t b s →
      WStep w ⟨s, { w.conf with threads := w.conf.threads.set t { prog := k, locals := th.locals ++ [b], busy := false } }⟩

/-- An execution. -/
inductive WRun {I : Interner (Node L P) P} (w : World I R) : World I R → Prop
  | refl : WRun w w
  | step {w' w'' : World I R} : WRun w w' → WStep w' w'' → WRun w w''

/-- A program is started in some state of the process. -/
structure Starts {I : Interner (Node L P) P} (ps : List (Prog L R)) (n : Nat) (w : World I R) : Prop where
  conf : w.conf = start ps n
  reach : I.Reach w.state
  /-- (an arena exists.) -/
  owns : I.Owns w.state fun _ => 0
  idle : ∀ t < ps.length, I.idle w.state t

/-! ### What the theorems say -/

mutual
/-- A handle stands for a tree: following it and the handles in the nodes gives the tree. -/
inductive Stands (d : P → Option (Node L P)) : P → Tree L → Prop
  | node {p : P} {l : L} {ks : List P} {ts : List (Tree L)} : d p = some ⟨l, ks⟩ → StandsAll d ks ts → Stands d p (.node l ts)
/-- The same for lists. -/
inductive StandsAll (d : P → Option (Node L P)) : List P → List (Tree L) → Prop
  | nil : StandsAll d [] []
  | cons {p : P} {ps : List P} {t : Tree L} {ts : List (Tree L)} : Stands d p t → StandsAll d ps ts → StandsAll d (p :: ps) (t :: ts)
end

/-- Both threads are at the same place in the code, and their variables correspond. -/
structure SameThread (d : P → Option (Node L P)) (th : Thread L R P) (th' : Thread L R (Tree L)) : Prop where
  prog : th.prog = th'.prog
  locals : Pairs (Stands d) th.locals th'.locals

/-- And so for all threads, and all queues. -/
structure Same {I : Interner (Node L P) P} (w : World I R) (c : Conf L R (Tree L)) : Prop where
  threads : Pairs (SameThread (I.deref w.state)) w.conf.threads c.threads
  queues : Pairs (Pairs (Stands (I.deref w.state))) w.conf.queues c.queues

end
end Client.Copy
