import Verif.Client.CopySim
import Verif.Client.CopyDemo
import Verif.Client.PoolLaws
/-
C96: terms built from handles that are `Copy` can be used in place of trees.

A program builds nodes `struct Node { label: L, kids: Vec<Intern<Node>> }` with derived `PartialEq`, `Eq` and `Hash`, takes children out of nodes,
compares handles with `==`, looks at labels, and sends handles between threads. Everything else in the process goes on as it likes, and may intern
nodes of the same type.

For every execution there is one of the same program that works with trees and compares them from top to bottom.
-/
namespace Client.Copy
open Arc (Tree)
open Pool (Ptr)

variable {L R : Type} [BEq L] [LawfulBEq L] [Hashable (Node L Ptr)] {ps : List (Prog L R)} {n : Nat}

/-! ### `Intern`, `ArenaIntern` -/

section
variable {K : Type} [DecidableEq K] {cfg : Pool.Cfg K (Node L Ptr)} {k : K} {w w' : World (pool cfg k) R}

omit [LawfulBEq L] in
theorem pool_copies : Copies (pool cfg k) := fun h hm => ⟨h.1, fun p hp => h.2 p (hm p hp)⟩

/-- **C96, `Intern` and `ArenaIntern`**: for every execution there is one of the same program with trees, in which all threads have got to the
same place in their code, and all variables and all that was sent correspond. -/
theorem C96_pool_refines (lay : cfg.Layout) (h : Starts ps n w) (hr : WRun w w') :
    ∃ c, VRun (start ps n) c ∧ c.progs = w'.conf.progs ∧ Same w' c :=
  refines (pool_laws lay) pool_copies h hr

/-- **C96, `Intern` and `ArenaIntern`**: the result of a thread that neither sends nor receives is the result computed with trees, whatever the
rest of the process does. -/
theorem C96_pool_result (lay : cfg.Layout) (h : Starts ps n w) (hr : WRun w w') {t : Nat} {p : Prog L R} (hp : ps[t]? = some p) (ha : p.Alone)
    {r : R} (hd : w'.conf.progs[t]? = some (.done r)) : p.eval [] = some r :=
  evaluates (pool_laws lay) pool_copies h hr hp ha hd

/-- **C96, `Intern` and `ArenaIntern`**: every handle that threads have stands for a tree, and two handles are the same address just if their
trees are equal. -/
theorem C96_pool_equal (lay : cfg.Layout) (h : Starts ps n w) (hr : WRun w w') {t u : Nat} {th tu : Thread L R Ptr}
    (ht : w'.conf.threads[t]? = some th) (hu : w'.conf.threads[u]? = some tu) {i j : Nat} {p q : Ptr} (hi : th.locals[i]? = some p)
    (hj : tu.locals[j]? = some q) :
    ∃ x y, Stands (Src.PoolCode.deref w'.state k) p x ∧ Stands (Src.PoolCode.deref w'.state k) q y ∧ (Traits.eq p q = true ↔ x = y) :=
  equal (pool_laws lay) pool_copies h hr ht hu hi hj

end

/-! ### The `Intern` of typearena.rs -/

section
variable {K : Type} [DecidableEq K] {cfg : Src.NewCode.Cfg K (Node L Ptr)} {k : K} {w w' : World (newIntern cfg k) R}

omit [LawfulBEq L] in
theorem new_copies : Copies (newIntern cfg k) := fun h hm p hp => h p (hm p hp)

/-- **C96, typearena.rs**: for every execution there is one of the same program with trees. -/
theorem C96_new_refines (lay : cfg.Layout) (h : Starts ps n w) (hr : WRun w w') :
    ∃ c, VRun (start ps n) c ∧ c.progs = w'.conf.progs ∧ Same w' c :=
  refines (new_laws lay) new_copies h hr

/-- **C96, typearena.rs**: the result of a thread is the result computed with trees. -/
theorem C96_new_result (lay : cfg.Layout) (h : Starts ps n w) (hr : WRun w w') {t : Nat} {p : Prog L R} (hp : ps[t]? = some p) (ha : p.Alone)
    {r : R} (hd : w'.conf.progs[t]? = some (.done r)) : p.eval [] = some r :=
  evaluates (new_laws lay) new_copies h hr hp ha hd

/-- **C96, typearena.rs**: two handles are the same address just if their trees are equal. -/
theorem C96_new_equal (lay : cfg.Layout) (h : Starts ps n w) (hr : WRun w w') {t u : Nat} {th tu : Thread L R Ptr}
    (ht : w'.conf.threads[t]? = some th) (hu : w'.conf.threads[u]? = some tu) {i j : Nat} {p q : Ptr} (hi : th.locals[i]? = some p)
    (hj : tu.locals[j]? = some q) :
    ∃ x y, Stands (Src.NewCode.deref w'.state k) p x ∧ Stands (Src.NewCode.deref w'.state k) q y ∧ (Traits.eq p q = true ↔ x = y) :=
  equal (new_laws lay) new_copies h hr ht hu hi hj

end

/-! ### A program -/

section

/-- Builds `2(1, 1)` and sends it. -/
def sender : Prog Nat (Bool × Bool × Nat) := .build 1 [] (.build 2 [0, 0] (.give 0 1 (.eq 0 1 fun b => .done (b, b, 0))))

/-- Builds it again, receives it, compares, and takes a child. -/
def receiver : Prog Nat (Bool × Bool × Nat) :=
  .build 1 [] (.build 2 [0, 0] (.take 0 (.eq 1 2 fun b => .kid 2 1 (.eq 3 0 fun c => .node 2 fun l m => .done (b, c, 10 * l + m)))))

/-- Builds `2(1)` and `2(1, 1)`. -/
def loner : Prog Nat (Bool × Bool × Nat) :=
  .build 1 [] (.build 2 [0] (.build 2 [0, 0] (.eq 1 2 fun b => .kid 2 1 (.eq 0 3 fun c => .node 1 fun l m => .done (b, c, 10 * l + m)))))

theorem loner_alone : loner.Alone := .build (.build (.build (.eq fun _ => .kid (.eq fun _ => .node fun _ _ => .done _))))

/-- What the threads have returned. -/
def Conf.results (c : Conf Nat (Bool × Bool × Nat) Ptr) : List (Option (Bool × Bool × Nat)) := c.progs.map fun
  | .done r => some r
  | _ => none

theorem results_done {c : Conf Nat (Bool × Bool × Nat) Ptr} {t : Nat} {r : Bool × Bool × Nat} (h : c.results[t]? = some (some r)) :
    c.progs[t]? = some (.done r) := by
  simp only [Conf.results, List.getElem?_map] at h
  cases hp : c.progs[t]? with
  | none => rw [hp] at h; cases h
  | some p =>
    rw [hp, Option.map_some] at h
    have h := Option.some.inj h
    split at h
    · rw [Option.some.inj h]
    · cases h

def poolStart (k : Nat) : World (pool pcfg k) (Bool × Bool × Nat) := ⟨fourPool, start [sender, receiver, loner] 1⟩

theorem poolStart_starts {k : Nat} : Starts [sender, receiver, loner] 1 (poolStart k) where
  conf := rfl
  reach := fourPool_reach
  owns := ⟨by
    have : fourPool.gone = [] := by decide +kernel
    show k ∉ fourPool.gone
    rw [this]; exact List.not_mem_nil, fun _ h => (Nat.lt_irrefl _ h).elim⟩
  idle := by
    intro t ht
    have : ∀ t < 3, empty (fourPool.threads[t]?) = true := by decide +kernel
    exact empty_iff.mp (this t ht)

/-- The fourth thread interns `1()`, and a node with a child that is not one of the program's. -/
def poolEnd (k : Nat) : World (pool pcfg k) (Bool × Bool × Nat) := after (poolMachine k) (poolStart k)
  [([], .call 0), ([], .call 1), ([], .inside (.new 3 k ⟨2, [⟨77, 0⟩]⟩)), ([], .call 2), ([.run 3 5, .run 0 10], .ret 0 10), ([.run 3 5, .run 1 20], .ret 1 20),
    ([], .call 0), ([.run 0 40], .ret 0 40), ([], .look 0), ([], .look 0), ([.run 2 30], .ret 2 30),
    ([], .call 1), ([.run 1 50], .ret 1 50), ([], .look 1), ([], .look 1), ([], .look 1), ([], .look 1), ([], .look 1),
    ([], .call 2), ([.run 2 60], .ret 2 60), ([], .call 2), ([.run 2 70], .ret 2 70), ([], .look 2), ([], .look 2), ([], .look 2), ([], .look 2)]

/-- With an `Intern`, and with an arena. -/
example : ∀ k ∈ [0, 2], Starts [sender, receiver, loner] 1 (poolStart k) ∧ WRun (poolStart k) (poolEnd k) ∧ pcfg.Layout ∧
    (poolEnd k).conf.results = [some (false, false, 0), some (true, true, 22), some (false, true, 21)] ∧ loner.eval [] = some (false, true, 21) := by
  intro k hk
  have h : (poolEnd k).conf.results = [some (false, false, 0), some (true, true, 22), some (false, true, 21)] := by
    have : ∀ k ∈ [0, 2], (poolEnd k).conf.results = [some (false, false, 0), some (true, true, 22), some (false, true, 21)] := by decide +kernel
    exact this k hk
  exact ⟨poolStart_starts, after_run .., playout, h,
    C96_pool_result playout poolStart_starts (after_run ..) (t := 2) rfl loner_alone (results_done (c := (poolEnd k).conf) (by rw [h]; rfl))⟩

/-- The sender's `2(1, 1)` and the third thread's are the same address, and its `2(1)` is another. -/
example : (poolEnd 2).conf.threads.map (fun th => th.locals.map (·.addr)) = [[10, 40], [10, 40, 40, 10], [10, 60, 40, 10]] := by decide +kernel

def newStart : World (newIntern ncfg 0) (Bool × Bool × Nat) := ⟨fourNew, start [sender, receiver, loner] 1⟩

theorem newStart_starts : Starts [sender, receiver, loner] 1 newStart where
  conf := rfl
  reach := fourNew_reach
  owns := fun _ h => (Nat.lt_irrefl _ h).elim
  idle := by
    intro t ht
    have : ∀ t < 3, empty (fourNew.threads[t]?) = true := by decide +kernel
    exact empty_iff.mp (this t ht)

def steps (t a : Nat) : List Cmd := [.run t a, .run t 4, .run t 3, .run t 2, .run t 1, .run t 0]

def newEnd : World (newIntern ncfg 0) (Bool × Bool × Nat) := after (newMachine 0) newStart
  [([], .call 0), ([], .call 1), ([], .inside (.new 3 0 ⟨2, [⟨77, 0⟩]⟩)), ([], .call 2), (steps 3 5 ++ steps 0 10, .ret 0 10),
    (steps 3 5 ++ steps 1 20, .ret 1 20), ([], .call 0), (steps 0 40, .ret 0 40), ([], .look 0), ([], .look 0), (steps 2 30, .ret 2 30),
    ([], .call 1), (steps 1 50, .ret 1 50), ([], .look 1), ([], .look 1), ([], .look 1), ([], .look 1), ([], .look 1),
    ([], .call 2), (steps 2 60, .ret 2 60), ([], .call 2), (steps 2 70, .ret 2 70), ([], .look 2), ([], .look 2), ([], .look 2), ([], .look 2)]

/-- With the `Intern` of typearena.rs. -/
example : Starts [sender, receiver, loner] 1 newStart ∧ WRun newStart newEnd ∧ ncfg.Layout ∧
    newEnd.conf.results = [some (false, false, 0), some (true, true, 22), some (false, true, 21)] ∧ loner.eval [] = some (false, true, 21) :=
  ⟨newStart_starts, after_run .., nlayout, by decide +kernel,
    C96_new_result nlayout newStart_starts (after_run ..) (t := 2) rfl loner_alone (results_done (c := newEnd.conf) (by decide +kernel))⟩

end
end Client.Copy
