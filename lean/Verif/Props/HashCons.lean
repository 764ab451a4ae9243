import Verif.Client.TermSim
import Verif.Client.TermDemo
/-
C93: hash-consed terms can be used in place of trees. A program with any number of threads builds nodes whose children are `ArcIntern` handles,
moves handles into nodes, takes children out, clones, drops and compares handles, and sends them to other threads. It does only what the same
program could do if it kept the trees themselves, and compared them from top to bottom.

`Verif/Client/Term.lean` has the programs, their executions with trees (`VRun`) and with `ArcIntern` (`WRun`), and the words that are used here.
`ArcIntern` is the functions as they are written, with user code that calls them too, other parts of the process that use the same table, and
panics. `hk`: the handles inside a node are its children, and nothing else. The `==` of labels is identity (`LawfulBEq L`).
-/
namespace Client.Term
open Arc (Addr Cfg Node Tree nodeCfg)

section
variable {L R : Type} [BEq L] [LawfulBEq L] [Hashable (Node L)] [LawfulHashable (Node L)] {cfg : Cfg (Node L)} {ps : List (Prog L R)} {n : Nat}
  {w w' : World cfg R}

/-- **C93**: for every execution there is one of the same program with trees, in which all threads have got to the same place in their code, and
all variables and all that was sent correspond. -/
theorem C93_refines (hv : cfg.Valid) (hk : ∀ n, cfg.kids n = n.kids) (h : Starts ps n w) (hr : WRun w w') :
    ∃ c, VRun (start ps n) c ∧ c.progs = w'.conf.progs ∧ Same w' c := by
  obtain ⟨c, h1, h2⟩ := inv_run hv hk h hr
  exact ⟨c, h1, h2.same.progs, h2.same⟩

/-- **C93**: the result of a thread that neither sends nor receives is the result computed with trees, whatever the rest of the process does. -/
theorem C93_result (hv : cfg.Valid) (hk : ∀ n, cfg.kids n = n.kids) (h : Starts ps n w) (hr : WRun w w') {t : Nat} {p : Prog L R}
    (hp : ps[t]? = some p) (ha : p.Alone) {r : R} (hd : w'.conf.progs[t]? = some (.done r)) : p.eval [] = some r := by
  obtain ⟨c, h1, h2⟩ := inv_run hv hk h hr
  obtain ⟨th, h3, _, h5⟩ := eval_run h1 hp ha
  rw [← h2.same.progs] at hd
  have h6 : (c.threads.map (·.prog))[t]? = some (.done r) := hd
  rw [List.getElem?_map, h3] at h6
  have h7 : th.prog = .done r := Option.some.inj h6
  rw [← h5]
  simp only [rest, h7]
  split <;> simp_all [Prog.eval]

/-- **C93**: two handles that a thread has are `==` exactly if their trees are the same, and each has a tree. -/
theorem C93_equal (hv : cfg.Valid) (hk : ∀ n, cfg.kids n = n.kids) (h : Starts ps n w) (hr : WRun w w') {t u : Nat} {th tu : Thread L R Addr}
    (ht : w'.conf.threads[t]? = some th) (hu : w'.conf.threads[u]? = some tu) {i j : Nat} {p q : Addr} (hi : th.locals[i]? = some (some p))
    (hj : tu.locals[j]? = some (some q)) :
    ∃ x y, Stands w'.state p x ∧ Stands w'.state q y ∧ (Traits.eq p q = true ↔ x = y) := by
  obtain ⟨c, _, h2⟩ := inv_run hv hk h hr
  have o1 := owned h2.owns (held_local ht (List.mem_of_getElem? hi))
  have o2 := owned h2.owns (held_local hu (List.mem_of_getElem? hj))
  obtain ⟨x, hx⟩ := Src.ArcHeld.own_tree hv hk h2.reach o1
  obtain ⟨y, hy⟩ := Src.ArcHeld.own_tree hv hk h2.reach o2
  refine ⟨x, y, hx, hy, ?_⟩
  rw [← Src.ArcHeld.own_canonical hv hk h2.reach o1 o2 hx hy]
  simp [Traits.eq]

/-- **C93**: looking at a node always works for a handle that a thread has, and shows the root of its tree. -/
theorem C93_readable (hv : cfg.Valid) (hk : ∀ n, cfg.kids n = n.kids) (h : Starts ps n w) (hr : WRun w w') {t : Nat} {th : Thread L R Addr}
    (ht : w'.conf.threads[t]? = some th) {i : Nat} {p : Addr} (hi : th.locals[i]? = some (some p)) :
    ∃ x, Stands w'.state p x ∧ (handles cfg w'.state).node p (label x) (kids x).length := by
  obtain ⟨c, _, h2⟩ := inv_run hv hk h hr
  have o1 := owned h2.owns (held_local ht (List.mem_of_getElem? hi))
  obtain ⟨x, hx⟩ := Src.ArcHeld.own_tree hv hk h2.reach o1
  refine ⟨x, hx, ?_⟩
  cases hx with
  | @node _ l ks ts d a => exact ⟨ks, d, (unfoldsAll_length a).symm⟩

end

/-! ### The hypotheses are met -/

/-- The results of the threads that have ended. -/
def Conf.results {L R H : Type} (c : Conf L R H) : List (Option R) := c.threads.map fun th => match th.prog with
  | .done r => some r
  | _ => none

theorem results_done {L R H : Type} {c : Conf L R H} {t : Nat} {r : R} (h : c.results[t]? = some (some r)) : c.progs[t]? = some (.done r) := by
  simp only [Conf.results, Conf.progs, List.getElem?_map, Option.map_eq_some_iff] at h ⊢
  obtain ⟨th, h1, h2⟩ := h
  refine ⟨th, h1, ?_⟩
  split at h2
  · rename_i e
    rw [e]; simp_all
  · cases h2

/-- Thread 0 builds 2(1(), 1()) and sends it. -/
def sender : Prog Nat (Bool × Bool × Nat × Nat) := .build 1 [] (.clone 0 (.build 2 [0, 1] (.give 0 2 (.done (false, false, 0, 0)))))

/-- Thread 1 builds the same term, receives the other one, and compares both, and children of them. -/
def receiver : Prog Nat (Bool × Bool × Nat × Nat) :=
  .build 1 [] (.clone 0 (.build 2 [0, 1] (.take 0 (.eq 2 3 fun b => .kid 3 0 (.kid 2 1 (.eq 4 5 fun b' => .node 3 fun l n => .done (b, b', l, n)))))))

/-- Thread 2 works alone: it builds 3(1()), takes the child out, drops the term, and builds the child again. -/
def loner : Prog Nat (Bool × Bool × Nat × Nat) :=
  .build 1 [] (.build 3 [0] (.kid 1 0 (.eq 1 2 fun b => .drop 1 (.build 1 [] (.eq 2 3 fun b' => .node 2 fun l n => .done (b, b', l, n))))))

theorem loner_alone : loner.Alone := .build (.build (.kid (.eq fun _ => .drop (.build (.eq fun _ => .node fun _ _ => .done _)))))

def termStart : World nodeCfg (Bool × Bool × Nat × Nat) :=
  ⟨walk Src.ArcHeld.init [.act .spawn, .act .spawn, .act .spawn], start [sender, receiver, loner] 1⟩

theorem termStart_starts : Starts [sender, receiver, loner] 1 termStart where
  conf := rfl
  reach := walk_reach .init
  idle := by
    intro t ht
    have : ∀ t < 3, empty (termStart.state.base.threads[t]?) = true := by decide +kernel
    exact empty_iff.mp (this t ht)

def by_ (t a : Nat) : List (Src.ArcHeld.Act (Node Nat)) := [.lock t, .act (.run t a)]

/-- Calls are made at the same time. -/
def termEnd : World nodeCfg (Bool × Bool × Nat × Nat) := after termStart
  [([], .call 0), ([], .call 1), ([], .call 2), (by_ 0 10, .ret 0 10), (by_ 1 20, .ret 1 20), ([], .clone 0), ([], .call 0), ([], .clone 1),
    (by_ 2 30, .ret 2 30), ([], .call 1), ([], .call 2), (by_ 0 40, .ret 0 40), ([], .look 0), (by_ 1 50, .ret 1 50), ([], .look 1), ([], .look 1),
    (by_ 2 60, .ret 2 60), ([], .kid 2), ([], .kid 1), ([], .look 2), ([], .drop 2), ([], .kid 1), (by_ 2 0, .dropped 2), ([], .call 2), ([], .look 1),
    (by_ 2 70, .ret 2 70), ([], .look 1), ([], .look 2), ([], .look 2)]

theorem termEnd_run : WRun termStart termEnd := after_run ..

/-- A program that ends, with the results that trees would give. -/
example : Starts [sender, receiver, loner] 1 termStart ∧ WRun termStart termEnd ∧
    termEnd.conf.results = [some (false, false, 0, 0), some (true, true, 2, 2), some (false, true, 1, 0)] ∧
    loner.eval [] = some (false, true, 1, 0) :=
  ⟨termStart_starts, termEnd_run, by decide +kernel,
    C93_result Arc.nodeCfg_valid (fun _ => rfl) termStart_starts termEnd_run (t := 2) rfl loner_alone (results_done (by decide +kernel))⟩

deriving instance DecidableEq for Arc.Node

/-- Thread 1 has both copies of the term in variables 2 and 3. -/
example : ∃ th p x, termEnd.conf.threads[1]? = some th ∧ th.locals[2]? = some (some p) ∧ th.locals[3]? = some (some p) ∧
    Stands termEnd.state p x ∧ x = .node 2 [.node 1 [], .node 1 []] := by
  have leaf : Stands termEnd.state 10 (.node 1 []) := .node (ks := []) (by decide +kernel) .nil
  exact ⟨(termEnd.conf.threads[1]?).getD ⟨.done (false, false, 0, 0), [], .own⟩, 40, _, rfl, by decide +kernel, by decide +kernel,
    .node (ks := [10, 10]) (by decide +kernel) (.cons leaf (.cons leaf .nil)), rfl⟩

end Client.Term
