import Verif.Client.TermAble
import Verif.Props.HashCons
/-
C99: whatever a program can do with trees, it can also do with hash-consed terms made of `ArcIntern` handles. The converse of C93: interning a node
refuses nothing, blocks nothing for ever, and rules out no order in which threads can work. Dropping a term, with all the drops of children that
it causes, comes to an end.

`VSteps c m c'` is an execution of `m` steps with trees (`Verif/Client/TermAble.lean`); every `VRun` is one, for some `m` (`C99_counted`). The
number of steps bounds the number of handles that the program makes, and so the room that the reference counts need. `Arc.storedHandles` are
the handles inside of the nodes that are stored.
-/
namespace Client.Term
open Arc (Addr Cfg Node Tree nodeCfg)

section
variable {L R : Type} [BEq L] [LawfulBEq L] [Hashable (Node L)] [LawfulHashable (Node L)] {cfg : Cfg (Node L)} {ps : List (Prog L R)} {n : Nat}
  {w : World cfg R}

omit [LawfulBEq L] [Hashable (Node L)] [LawfulHashable (Node L)] in
/-- Every execution with trees has a number of steps, and every execution of some number of steps is an execution. -/
theorem C99_counted {c c' : Conf L R (Tree L)} : VRun c c' ↔ ∃ m, VSteps c m c' := by
  refine ⟨VRun.steps, ?_⟩
  rintro ⟨m, h⟩
  induction h with
  | refl => exact .refl
  | step _ e ih => exact .step ih e

/-- **C99**: if nobody is inside a call when the program starts, no removal has been abandoned by a panic (C20), and no counter can overflow, then
for every execution with trees there is one with handles in which all threads get to the same place in their code. All variables and all that was
sent correspond, unless the execution with trees stops in the middle of a `build`. -/
theorem C99_achieves (hv : cfg.Valid) (hk : ∀ n, cfg.kids n = n.kids) (h : Starts ps n w) (hnd : Src.ArcHeld.ReachND cfg w.state)
    (hq : Src.ArcNest.Quiet w.state.base) {m : Nat} {c : Conf L R (Tree L)} (hr : VSteps (start ps n) m c)
    (hW : 2 * (w.state.base.handles.length + (Arc.storedHandles cfg w.state.base.mem.heap).length + m) + 4 < cfg.W) :
    ∃ w', WRun w w' ∧ w'.conf.progs = c.progs ∧ ((∀ th ∈ c.threads, th.phase = .own) → Same w' c) := by
  obtain ⟨w', c0, h1, h2, h3⟩ := achieves hv hk h hr 0 ⟨hnd, hq, by rw [Nat.zero_add]; exact hW⟩
  exact ⟨w', h1, h2.same.progs.symm.trans h3.progs.symm, fun ho => h3.eq ho ▸ h2.same⟩

/-- **C99**: the result of a thread that works alone, computed with trees, can be reached. -/
theorem C99_result (hv : cfg.Valid) (hk : ∀ n, cfg.kids n = n.kids) (h : Starts ps n w) (hnd : Src.ArcHeld.ReachND cfg w.state)
    (hq : Src.ArcNest.Quiet w.state.base) {t : Nat} {g : Prog L R} (hg : ps[t]? = some g) {r : R} (he : g.eval [] = some r)
    (hW : 2 * (w.state.base.handles.length + (Arc.storedHandles cfg w.state.base.mem.heap).length + g.steps []) + 4 < cfg.W) :
    ∃ w', WRun w w' ∧ w'.conf.progs[t]? = some (.done r) := by
  have h0 : (start ps n : Conf L R (Tree L)).threads[t]? = some { prog := g, locals := [], phase := .own } := by
    show (ps.map _)[t]? = _
    rw [List.getElem?_map, hg]; rfl
  obtain ⟨c, h1, h2⟩ := eval_steps g he h0
  obtain ⟨w', h3, h4, _⟩ := C99_achieves hv hk h hnd hq h1 hW
  exact ⟨w', h3, h4 ▸ h2⟩

/-- **C99** with **C93**: such a thread can end with a result just if this is the result computed with trees. -/
theorem C99_exactly (hv : cfg.Valid) (hk : ∀ n, cfg.kids n = n.kids) (h : Starts ps n w) (hnd : Src.ArcHeld.ReachND cfg w.state)
    (hq : Src.ArcNest.Quiet w.state.base) {t : Nat} {g : Prog L R} (hg : ps[t]? = some g) (ha : g.Alone)
    (hW : 2 * (w.state.base.handles.length + (Arc.storedHandles cfg w.state.base.mem.heap).length + g.steps []) + 4 < cfg.W) (r : R) :
    (∃ w', WRun w w' ∧ w'.conf.progs[t]? = some (.done r)) ↔ g.eval [] = some r :=
  ⟨fun ⟨_, h1, h2⟩ => C93_result hv hk h h1 hg ha h2, fun he => C99_result hv hk h hnd hq hg he hW⟩

end

/-! ### The hypotheses are met -/

/-- Thread `t` makes a step with trees. -/
def vnext {L R : Type} [BEq L] (c : Conf L R (Tree L)) (t : Nat) : Option (Conf L R (Tree L)) :=
  match c.threads[t]? with
  | none => none
  | some th => match th with
    | ⟨.build l _ k, ls, .building ts⟩ => some { c with threads := c.threads.set t ⟨k, ls ++ [some (.node l ts)], .own⟩ }
    | ⟨.build l is k, ls, .own⟩ => (move is ls).map fun (ts, ls') => { c with threads := c.threads.set t ⟨.build l is k, ls', .building ts⟩ }
    | ⟨.clone i k, ls, .own⟩ => match ls[i]? with
      | some (some x) => some { c with threads := c.threads.set t ⟨k, ls ++ [some x], .own⟩ }
      | _ => none
    | ⟨.kid i n k, ls, .own⟩ => match ls[i]? with
      | some (some x) => (kids x)[n]?.map fun y => { c with threads := c.threads.set t ⟨k, ls ++ [some y], .own⟩ }
      | _ => none
    | ⟨.drop i k, ls, .own⟩ => match ls[i]? with
      | some (some _) => some { c with threads := c.threads.set t ⟨k, ls.set i none, .own⟩ }
      | _ => none
    | ⟨.eq i j k, ls, .own⟩ => match ls[i]?, ls[j]? with
      | some (some x), some (some y) => some { c with threads := c.threads.set t ⟨k (same x y), ls, .own⟩ }
      | _, _ => none
    | ⟨.node i k, ls, .own⟩ => match ls[i]? with
      | some (some x) => some { c with threads := c.threads.set t ⟨k (label x) (kids x).length, ls, .own⟩ }
      | _ => none
    | ⟨.give q i k, ls, .own⟩ => match ls[i]?, c.queues[q]? with
      | some (some x), some l => some { threads := c.threads.set t ⟨k, ls.set i none, .own⟩, queues := c.queues.set q (l ++ [x]) }
      | _, _ => none
    | ⟨.take q k, ls, .own⟩ => match c.queues[q]? with
      | some (x :: l) => some { threads := c.threads.set t ⟨k, ls ++ [some x], .own⟩, queues := c.queues.set q l }
      | _ => none
    | _ => none

theorem vnext_step {L R : Type} [BEq L] {c c' : Conf L R (Tree L)} {t : Nat} (h : vnext c t = some c') : VStep c c' := by
  simp only [vnext] at h
  split at h
  · cases h
  · rename_i th ht
    split at h
    · cases h; exact .built ht rfl rfl
    · obtain ⟨⟨ts, ls'⟩, h1, h2⟩ := Option.map_eq_some_iff.mp h
      cases h2; exact .build ht rfl rfl h1
    · split at h
      · rename_i hx; cases h; exact .clone ht rfl rfl hx
      · cases h
    · split at h
      · rename_i hx
        obtain ⟨y, h1, h2⟩ := Option.map_eq_some_iff.mp h
        cases h2; exact .kid ht rfl rfl hx h1
      · cases h
    · split at h
      · rename_i hx; cases h; exact .drop ht rfl rfl hx
      · cases h
    · split at h
      · rename_i hx hy; cases h; exact .look ht rfl (.eq rfl hx hy rfl)
      · cases h
    · split at h
      · rename_i hx; cases h; exact .look ht rfl (.node rfl hx ⟨rfl, rfl⟩)
      · cases h
    · split at h
      · rename_i hx hq; cases h; exact .look ht rfl (.give rfl hx hq)
      · cases h
    · split at h
      · rename_i hq; cases h; exact .look ht rfl (.take rfl hq)
      · cases h
    · cases h

/-- Threads make steps in this order. -/
def vgo {L R : Type} [BEq L] (c : Conf L R (Tree L)) : List Nat → Option (Conf L R (Tree L))
  | [] => some c
  | t :: ts => (vnext c t).bind fun c' => vgo c' ts

theorem vgo_steps {L R : Type} [BEq L] : ∀ {ts : List Nat} {c c' : Conf L R (Tree L)}, vgo c ts = some c' → VSteps c ts.length c'
  | [], _, _, h => by cases h; exact .refl
  | t :: ts, c, c', h => by
    obtain ⟨c1, h1, h2⟩ := Option.bind_eq_some_iff.mp h
    exact (vgo_steps h2).head (vnext_step h1)

/-- Three threads. -/
def threeNodes : Src.ArcHeld.State (Node Nat) := { base := { Src.ArcNest.init with threads := [[], [], []] }, held := [] }

theorem threeNodes_reach : Src.ArcHeld.ReachND nodeCfg threeNodes :=
  have f : ∀ n : Nat, Src.ArcNest.Few nodeCfg { (Src.ArcNest.init : Src.ArcNest.State (Node Nat)) with threads := List.replicate n [] } := by
    intro n p
    have : ∀ n : Nat, Src.ArcNest.mentions nodeCfg { (Src.ArcNest.init : Src.ArcNest.State (Node Nat)) with threads := List.replicate n [] } = [] := by
      intro n; simp [Src.ArcNest.mentions, Src.ArcNest.init, Arc.storedHandles]
    rw [this]
    exact Nat.lt_of_lt_of_le (by decide : 0 < 2) Arc.nodeCfg_valid.W_ge
  .step (act := .act .spawn) (.step (act := .act .spawn) (.step (act := .act .spawn) .init (by intro h; exact h) rfl (f 1)) (by intro h; exact h) rfl (f 2))
    (by intro h; exact h) rfl (f 3)

theorem threeNodes_quiet : Src.ArcNest.Quiet threeNodes.base := by
  intro cs h
  have : ∀ cs ∈ threeNodes.base.threads, cs.isEmpty = true := by decide
  exact List.isEmpty_iff.mp (this cs h)

def nodesStart : World nodeCfg (Bool × Bool × Nat × Nat) := ⟨threeNodes, start [sender, receiver, loner] 1⟩

theorem nodesStart_starts : Starts [sender, receiver, loner] 1 nodesStart where
  conf := rfl
  reach := threeNodes_reach.reach
  idle := by
    intro t ht
    have ht : t < 3 := ht
    match t, ht with
    | 0, _ => rfl
    | 1, _ => rfl
    | 2, _ => rfl

/-- An order in which the threads can work with trees: all three are in the middle of `build` at the same time, and thread 1 receives what thread 0
has sent. -/
def turns : List Nat := [0, 1, 2, 2, 0, 1, 0, 1, 0, 2, 1, 0, 2, 0, 1, 1, 1, 2, 2, 1, 1, 2, 1, 2, 2, 1, 2, 2]

def treesEnd : Conf Nat (Bool × Bool × Nat × Nat) (Tree Nat) := (vgo (start [sender, receiver, loner] 1) turns).getD (start [] 0)

theorem treesEnd_steps : VSteps (start [sender, receiver, loner] 1) turns.length treesEnd := by
  refine vgo_steps ?_
  have : (vgo (start [sender, receiver, loner] 1 : Conf Nat (Bool × Bool × Nat × Nat) (Tree Nat)) turns).isSome = true := by decide +kernel
  obtain ⟨c, hc⟩ := Option.isSome_iff_exists.mp this
  rw [treesEnd, hc]; rfl

/-- With handles the threads can get to the same results. -/
example : ∃ w', WRun nodesStart w' ∧ w'.conf.progs = treesEnd.progs ∧ Same w' treesEnd ∧
    treesEnd.results = [some (false, false, 0, 0), some (true, true, 2, 2), some (false, true, 1, 0)] := by
  obtain ⟨w', h1, h2, h3⟩ := C99_achieves Arc.nodeCfg_valid (fun _ => rfl) nodesStart_starts threeNodes_reach threeNodes_quiet treesEnd_steps (by decide)
  refine ⟨w', h1, h2, h3 ?_, by decide +kernel⟩
  have : ∀ th ∈ treesEnd.threads, (match th.phase with | .own => true | _ => false) = true := by decide +kernel
  intro th hth
  have := this th hth
  split at this
  · assumption
  · cases this

/-- A thread that works alone can end with one result, and with no other. -/
example (r : Bool × Bool × Nat × Nat) : (∃ w', WRun nodesStart w' ∧ w'.conf.progs[2]? = some (.done r)) ↔ some (false, true, 1, 0) = some r :=
  C99_exactly Arc.nodeCfg_valid (fun _ => rfl) nodesStart_starts threeNodes_reach threeNodes_quiet (t := 2) rfl loner_alone (by decide +kernel) r

end Client.Term
