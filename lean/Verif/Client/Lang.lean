import Verif.Traits
/-
Programs that use an interner, and what they would do with plain values (C90).

A program consists of threads. Each has local variables and calls `new` (or another constructor), `clone`, drops a handle, compares two
handles by `==` or `cmp`, reads a value through a handle (`Deref`, `AsRef`, `Borrow`, and with them `Display`, `Debug`, `Serialize`, `lt`,
…, which only read: arc.rs:327-370, 397-445, 550-554, intern.rs:359-407, 428-470, 705-710, arena.rs:434-447, 510-512, 538-550,
typearena.rs:379-421, 554-558), and sends handles to other threads. What a thread does next depends in any way on what it has seen.
-/
namespace Client
open Traits (Methods)

/-- The rest of a thread. `i`, `j` number its local variables, in the order of their creation, `q` the queues for sending. -/
inductive Prog (V R : Type)
  /-- the end, with a result. -/
  | done (r : R)
  /-- `let x = Interner::new(v)`. -/
  | intern (v : V) (k : Prog V R)
  /-- `let x = xᵢ.clone()`. -/
  | clone (i : Nat) (k : Prog V R)
  /-- `drop(xᵢ)`. -/
  | drop (i : Nat) (k : Prog V R)
  /-- `xᵢ == xⱼ`. -/
  | eq (i j : Nat) (k : Bool → Prog V R)
  /-- `xᵢ.cmp(&xⱼ)`. -/
  | cmp (i j : Nat) (k : Ordering → Prog V R)
  /-- `*xᵢ`. -/
  | read (i : Nat) (k : V → Prog V R)
  /-- `queue_q.send(xᵢ)`. -/
  | give (q i : Nat) (k : Prog V R)
  /-- `let x = queue_q.receive()`. -/
  | take (q : Nat) (k : Prog V R)

/-- What a thread is doing: its own code, or a call of the library. -/
inductive Phase
  | own | interning | dropping
  deriving DecidableEq

/-- A thread. A variable is `none` after it was moved from or dropped. `H` is what stands for a value: a handle, or the value itself. -/
structure Thread (V R H : Type) where
  prog : Prog V R
  locals : List (Option H)
  phase : Phase

/-- All threads, and what was sent and has not been received. -/
structure Conf (V R H : Type) where
  threads : List (Thread V R H)
  queues : List (List H)

/-- The start of a program with `n` queues. -/
def start {V R H : Type} (ps : List (Prog V R)) (n : Nat) : Conf V R H :=
  { threads := ps.map fun p => { prog := p, locals := [], phase := .own }, queues := List.replicate n [] }

/-- The code of every thread. -/
def Conf.progs {V R H : Type} (c : Conf V R H) : List (Prog V R) := c.threads.map (·.prog)

/-- What threads see of what stands for a value. -/
structure View (V H : Type) where
  eq : H → H → Bool → Prop
  cmp : H → H → Ordering → Prop
  read : H → V → Prop

/-- A step of a thread that does not call the interner. -/
inductive Look {V R H : Type} (S : View V H) (th : Thread V R H) (qs : List (List H)) : Thread V R H → List (List H) → Prop
  | eq {i j : Nat} {k : Bool → Prog V R} {p q : H} {b : Bool} : th.prog = .eq i j k → th.locals[i]? = some (some p) →
      th.locals[j]? = some (some q) → S.eq p q b → Look S th qs { th with prog := k b } qs
  | cmp {i j : Nat} {k : Ordering → Prog V R} {p q : H} {o : Ordering} : th.prog = .cmp i j k → th.locals[i]? = some (some p) →
      th.locals[j]? = some (some q) → S.cmp p q o → Look S th qs { th with prog := k o } qs
  | read {i : Nat} {k : V → Prog V R} {p : H} {x : V} : th.prog = .read i k → th.locals[i]? = some (some p) → S.read p x →
      Look S th qs { th with prog := k x } qs
  | give {q i : Nat} {k : Prog V R} {p : H} {l : List H} : th.prog = .give q i k → th.locals[i]? = some (some p) → qs[q]? = some l →
      Look S th qs { th with prog := k, locals := th.locals.set i none } (qs.set q (l ++ [p]))
  | take {q : Nat} {k : Prog V R} {p : H} {l : List H} : th.prog = .take q k → qs[q]? = some (p :: l) →
      Look S th qs { th with prog := k, locals := th.locals ++ [some p] } (qs.set q l)

/-! ### The same program with values in place of handles -/

/-- Equality and order are those of values. Reading gives an equal value: if `==` of the type is not identity, an interner may give another
value than the one that was interned. -/
def values {V : Type} [BEq V] (M : Methods V) : View V V where
  eq x y b := b = (x == y)
  cmp x y o := o = M.cmp x y
  read x y := (y == x) = true

/-- A step of the program. -/
inductive VStep {V R : Type} [BEq V] (M : Methods V) (c : Conf V R V) : Conf V R V → Prop
  | look {t : Nat} {th th' : Thread V R V} {qs : List (List V)} : c.threads[t]? = some th → Look (values M) th c.queues th' qs →
      VStep M c { threads := c.threads.set t th', queues := qs }
  /-- `let x = v`. -/
  | intern {t : Nat} {th : Thread V R V} {v : V} {k : Prog V R} : c.threads[t]? = some th → th.prog = .intern v k →
      VStep M c { c with threads := c.threads.set t { th with prog := k, locals := th.locals ++ [some v] } }
  | clone {t : Nat} {th : Thread V R V} {i : Nat} {x : V} {k : Prog V R} : c.threads[t]? = some th → th.prog = .clone i k →
      th.locals[i]? = some (some x) → VStep M c { c with threads := c.threads.set t { th with prog := k, locals := th.locals ++ [some x] } }
  | drop {t : Nat} {th : Thread V R V} {i : Nat} {x : V} {k : Prog V R} : c.threads[t]? = some th → th.prog = .drop i k →
      th.locals[i]? = some (some x) → VStep M c { c with threads := c.threads.set t { th with prog := k, locals := th.locals.set i none } }

/-- An execution of it. -/
inductive VRun {V R : Type} [BEq V] (M : Methods V) (c : Conf V R V) : Conf V R V → Prop
  | refl : VRun M c c
  | step {c' c'' : Conf V R V} : VRun M c c' → VStep M c' c'' → VRun M c c''

/-- The result of one thread on its own, computed with values. -/
def Prog.eval {V R : Type} [BEq V] (M : Methods V) : Prog V R → List (Option V) → Option R
  | .done r, _ => some r
  | .intern v k, l => k.eval M (l ++ [some v])
  | .clone i k, l => match l[i]? with
    | some (some x) => k.eval M (l ++ [some x])
    | _ => none
  | .drop i k, l => match l[i]? with
    | some (some _) => k.eval M (l.set i none)
    | _ => none
  | .eq i j k, l => match l[i]?, l[j]? with
    | some (some x), some (some y) => (k (x == y)).eval M l
    | _, _ => none
  | .cmp i j k, l => match l[i]?, l[j]? with
    | some (some x), some (some y) => (k (M.cmp x y)).eval M l
    | _, _ => none
  | .read i k, l => match l[i]? with
    | some (some x) => (k x).eval M l
    | _ => none
  | .give .., _ | .take .., _ => none

/-- The thread neither sends nor receives, and what it does with a value that it reads does not distinguish equal values (there is nothing to
distinguish if `==` is identity, as for strings and numbers). -/
inductive Prog.Alone {V R : Type} [BEq V] : Prog V R → Prop
  | done (r : R) : Alone (.done r)
  | intern {v : V} {k : Prog V R} : Alone k → Alone (.intern v k)
  | clone {i : Nat} {k : Prog V R} : Alone k → Alone (.clone i k)
  | drop {i : Nat} {k : Prog V R} : Alone k → Alone (.drop i k)
  | eq {i j : Nat} {k : Bool → Prog V R} : (∀ b, Alone (k b)) → Alone (.eq i j k)
  | cmp {i j : Nat} {k : Ordering → Prog V R} : (∀ o, Alone (k o)) → Alone (.cmp i j k)
  | read {i : Nat} {k : V → Prog V R} : (∀ x, Alone (k x)) → (∀ x y, (x == y) = true → k x = k y) → Alone (.read i k)

/-! ### The program with an interner -/

abbrev Tid := Nat

/-- What a program sees of an interner. `P` are its handles. -/
structure Interner (V P : Type) where
  State : Type
  /-- the states that can be reached. -/
  Reach : State → Prop
  /-- one step of anything in the process. -/
  Step : State → State → Prop
  /-- thread `t` is not inside a call of the library. -/
  idle : State → Tid → Prop
  /-- thread `t` calls `new(v)`. -/
  Calls : State → Tid → V → State → Prop
  /-- the call that thread `t` has made ends, and returns handle `b`. -/
  Returns : State → Tid → P → State → Prop
  /-- thread `t` clones handle `p`. -/
  Clones : State → Tid → P → State → Prop
  /-- thread `t` drops handle `p`: the start of the call. -/
  Drops : State → Tid → P → State → Prop
  /-- it is possible to own `n p` copies of handle `p`, for all `p`. -/
  Owns : State → (P → Nat) → Prop
  /-- the value that a handle leads to. -/
  deref : State → P → Option V

/-- `==`, `cmp` and reading for handles (`Verif/Traits.lean`). -/
def Interner.view {V P : Type} [DecidableEq P] (I : Interner V P) (M : Methods V) (s : I.State) : View V P where
  eq p q b := b = Traits.eq p q
  cmp p q o := Traits.cmp (I.deref s) M p q = some o
  read p x := I.deref s p = some x

/-- The number of copies of handle `p` that the program owns, in variables and queues. -/
def Conf.held {V R P : Type} [DecidableEq P] (c : Conf V R P) (p : P) : Nat :=
  (c.threads.map fun th => th.locals.count (some p)).sum + (c.queues.map fun l => l.count p).sum

/-- An interner and a program. -/
structure World {V P : Type} (I : Interner V P) (R : Type) where
  state : I.State
  conf : Conf V R P

/-- A step. -/
inductive WStep {V R P : Type} [DecidableEq P] {I : Interner V P} (M : Methods V) (w : World I R) : World I R → Prop
  /-- anything happens, in the calls of the program, in user code called by them, and in other parts of the process; but no thread of the
  program starts a call or ends a call of `new` in this way, and nobody takes handles away that the program owns. -/
  | inside {s : I.State} : I.Step w.state s →
      (∀ t th, w.conf.threads[t]? = some th → th.phase ≠ .dropping → (I.idle w.state t ↔ I.idle s t)) → I.Owns s w.conf.held →
      WStep M w ⟨s, w.conf⟩
  | look {t : Nat} {th th' : Thread V R P} {qs : List (List P)} : w.conf.threads[t]? = some th → th.phase = .own →
      Look (I.view M w.state) th w.conf.queues th' qs → WStep M w ⟨w.state, { threads := w.conf.threads.set t th', queues := qs }⟩
  /-- (if `v` contains handles itself, they are not among those that the program keeps.) -/
  | call {s : I.State} {t : Nat} {th : Thread V R P} {v : V} {k : Prog V R} : w.conf.threads[t]? = some th → th.phase = .own →
      th.prog = .intern v k → I.Calls w.state t v s → I.Owns s w.conf.held →
      WStep M w ⟨s, { w.conf with threads := w.conf.threads.set t { th with phase := .interning } }⟩
  | ret {s : I.State} {t : Nat} {th : Thread V R P} {v : V} {k : Prog V R} {b : P} : w.conf.threads[t]? = some th →
      th.phase = .interning → th.prog = .intern v k → I.Returns w.state t b s →
      WStep M w ⟨s, { w.conf with threads := w.conf.threads.set t { prog := k, locals := th.locals ++ [some b], phase := .own } }⟩
  | clone {s : I.State} {t : Nat} {th : Thread V R P} {i : Nat} {p : P} {k : Prog V R} : w.conf.threads[t]? = some th →
      th.phase = .own → th.prog = .clone i k → th.locals[i]? = some (some p) → I.Clones w.state t p s →
      WStep M w ⟨s, { w.conf with threads := w.conf.threads.set t { th with prog := k, locals := th.locals ++ [some p] } }⟩
  | drop {s : I.State} {t : Nat} {th : Thread V R P} {i : Nat} {p : P} {k : Prog V R} : w.conf.threads[t]? = some th →
      th.phase = .own → th.prog = .drop i k → th.locals[i]? = some (some p) → I.Drops w.state t p s →
      WStep M w ⟨s, { w.conf with threads := w.conf.threads.set t { prog := k, locals := th.locals.set i none, phase := .dropping } }⟩
  /-- the call of `drop` has ended. -/
  | dropped {t : Nat} {th : Thread V R P} : w.conf.threads[t]? = some th → th.phase = .dropping → I.idle w.state t →
      WStep M w ⟨w.state, { w.conf with threads := w.conf.threads.set t { th with phase := .own } }⟩

/-- An execution. -/
inductive WRun {V R P : Type} [DecidableEq P] {I : Interner V P} (M : Methods V) (w : World I R) : World I R → Prop
  | refl : WRun M w w
  | step {w' w'' : World I R} : WRun M w w' → WStep M w' w'' → WRun M w w''

/-- A program is started in some state of the process. -/
structure Starts {V R P : Type} {I : Interner V P} (ps : List (Prog V R)) (n : Nat) (w : World I R) : Prop where
  conf : w.conf = start ps n
  reach : I.Reach w.state
  /-- (an arena exists.) -/
  owns : I.Owns w.state fun _ => 0
  idle : ∀ t < ps.length, I.idle w.state t

/-! ### What the theorems say -/

/-- Two lists of the same length, related item by item. -/
inductive Pairs {α β : Type} (r : α → β → Prop) : List α → List β → Prop
  | nil : Pairs r [] []
  | cons {a b l m} : r a b → Pairs r l m → Pairs r (a :: l) (b :: m)

section
variable {V R P : Type} [BEq V] {I : Interner V P}

/-- A handle stands for a value: it leads to an equal value. -/
def Stands (I : Interner V P) (s : I.State) (p : P) (x : V) : Prop := ∃ y, I.deref s p = some y ∧ (y == x) = true

/-- The same for a variable: they are both moved from, or a handle stands for a value. -/
def StandsVar (I : Interner V P) (s : I.State) : Option P → Option V → Prop
  | none, none => True
  | some p, some x => Stands I s p x
  | _, _ => False

/-- Both threads are at the same place in the code, and their variables correspond. -/
structure SameThread (I : Interner V P) (s : I.State) (th : Thread V R P) (th' : Thread V R V) : Prop where
  prog : th.prog = th'.prog
  locals : Pairs (StandsVar I s) th.locals th'.locals

/-- And so for all threads, and all queues. -/
structure Same (w : World I R) (c : Conf V R V) : Prop where
  threads : Pairs (SameThread I w.state) w.conf.threads c.threads
  queues : Pairs (Pairs (Stands I w.state)) w.conf.queues c.queues

/-- The next operation of a thread uses variables that it has. -/
def Thread.usable {H : Type} (th : Thread V R H) : Prop := match th.prog with
  | .eq i j _ | .cmp i j _ => (∃ p, th.locals[i]? = some (some p)) ∧ ∃ q, th.locals[j]? = some (some q)
  | .read i _ => ∃ p, th.locals[i]? = some (some p)
  | _ => False

end
end Client
