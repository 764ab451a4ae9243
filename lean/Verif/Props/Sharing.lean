import Verif.Src.ArcShare
import Verif.Client.TermDemo
/-
C94: hash-consed terms share all that they can, and nothing else is kept. `Verif/Src/ArcShare.lean` has the words: `Sub t u` ("`t` is part of
`u`") and `Has N t` ("`t` is part of a term to which clients have a handle").

`ArcIntern` is the functions as they are written, with user code that calls them too, and panics. Nodes are those of C15 and C93; `hk`: the handles
inside a node are its children, and nothing else. The `==` of labels is identity.
-/
namespace Src.ArcHeld
open Arc (Addr Cfg Node Tree Unfolds nodeCfg)
open Src.ArcNest (Has Sub occurs Quiet refcount)

section
variable {L : Type} [BEq L] [LawfulBEq L] [Hashable (Node L)] [LawfulHashable (Node L)] {cfg : Cfg (Node L)} {X : State (Node L)}

/-- **C94**: at any time, also while calls are running, there is exactly one entry in the table for each part of the terms of clients. -/
theorem C94_shared (hv : cfg.Valid) (hk : ∀ n, cfg.kids n = n.kids) (h : Reach cfg X) {t : Tree L} (ht : Has X.base t) :
    ∃ b ∈ X.base.mem.table, Unfolds X.base.view b t ∧ ∀ b' ∈ X.base.mem.table, Unfolds X.base.view b' t → b' = b := by
  obtain ⟨⟨l, S, s, h⟩, _⟩ := good_reach hv h
  exact h.shared hk ht

/-- **C94**: when no call is running, there are as many entries in the table, and boxes in memory, as there are different parts of the terms of
clients; and the counter of a node is the number of handles of clients to it, and of its occurrences as a child in those parts. Unless user code
panicked in the removal of a `drop` (C20). -/
theorem C94_exact (hv : cfg.Valid) (hk : ∀ n, cfg.kids n = n.kids) (h : ReachND cfg X) (hq : Quiet X.base) :
    ∃ ts : List (Tree L), ts.Nodup ∧ (∀ t, t ∈ ts ↔ Has X.base t) ∧ X.base.mem.table.length = ts.length ∧ X.base.mem.heap.length = ts.length ∧
      ∀ b ∈ X.base.mem.table, ∀ t, Unfolds X.base.view b t → refcount X.base b = some (X.base.handles.count b + (ts.map (occurs t)).sum) := by
  obtain ⟨l, S, s, h, hz⟩ := good_reachND hv h
  exact (h.calm hk hz hq).exact hk

/-- **C94**: nothing else is kept: then every entry of the table is a part of a term of a client. -/
theorem C94_no_garbage (hv : cfg.Valid) (hk : ∀ n, cfg.kids n = n.kids) (h : ReachND cfg X) (hq : Quiet X.base) {b : Addr}
    (hb : b ∈ X.base.mem.table) : ∃ t, Unfolds X.base.view b t ∧ Has X.base t := by
  obtain ⟨l, S, s, h, hz⟩ := good_reachND hv h
  have hc := h.calm hk hz hq
  obtain ⟨t, ht⟩ := hc.tree b hb
  obtain ⟨e, he, rfl⟩ := List.mem_map.mp (hc.perm.mem_iff.mpr hb)
  obtain ⟨l1, l2, hh⟩ := List.append_of_mem he
  exact ⟨t, ht, hc.rooted hk _ (Nat.le_refl _) hh t ht⟩

end

/-! ### The hypotheses are met -/

/-- Steps from a state, except panics. Those that are not possible are left out. -/
def walkND : State (Node Nat) → List (Act (Node Nat)) → State (Node Nat)
  | X, [] => X
  | X, .act (.panic _) :: r => walkND X r
  | X, a :: r => match Client.Term.stepN X a with
    | some X' => walkND X' r
    | none => walkND X r

theorem walkND_reach {l : List (Act (Node Nat))} : ∀ {X : State (Node Nat)}, ReachND nodeCfg X → ReachND nodeCfg (walkND X l) := by
  induction l with
  | nil => exact fun h => h
  | cons a r ih =>
    intro X h
    have one : (¬ dropPanic X a) → ReachND nodeCfg (match Client.Term.stepN X a with
        | some X' => walkND X' r
        | none => walkND X r) := by
      intro hd
      split
      · rename_i X' hs
        obtain ⟨e, hf⟩ := Client.Term.stepN_ok hs
        exact ih (.step h hd e hf)
      · exact ih h
    cases a with
    | lock t => exact one fun h => h
    | act a => cases a with
      | panic t => exact ih h
      | _ => exact one fun h => h

/-- Everything that thread `t` does until its call ends. -/
def goes (t a : Nat) : List (Act (Node Nat)) := (List.replicate 60 [.lock t, .act (.run t a)]).flatten

/-- Two threads build 2(1(), 1()); one of them builds 3(2(1(), 1()), 1()) from it and drops another term, 4(1()). -/
def shareTrace : List (Act (Node Nat)) :=
  [.act .spawn, .act .spawn, .act (.new 0 ⟨1, []⟩ false)] ++ goes 0 10 ++ (List.replicate 5 (.act (.clone 0 [10]))) ++
    [.act (.new 0 ⟨2, [10, 10]⟩ false), .act (.new 1 ⟨2, [10, 10]⟩ false)] ++ goes 1 20 ++ goes 0 30 ++
    [.act (.new 0 ⟨3, [20, 10]⟩ false), .act (.new 1 ⟨4, [10]⟩ false)] ++ goes 0 40 ++ goes 1 50 ++ [.act (.drop 1 50)]

def shared : State (Node Nat) := walkND init (shareTrace ++ goes 1 0)

/-- At the end clients have one handle to 2(1(), 1()) and one to 3(2(1(), 1()), 1()), and there are three nodes. -/
example : ReachND nodeCfg shared ∧ Quiet shared.base ∧ shared.base.handles = [40, 20] ∧ shared.base.mem.table.length = 3 ∧
    refcount shared.base 10 = some 3 ∧ refcount shared.base 20 = some 2 := by
  refine ⟨walkND_reach .init, fun cs hcs => ?_, by decide +kernel, by decide +kernel, by decide +kernel, by decide +kernel⟩
  have h1 : shared.base.threads.all (·.isEmpty) = true := by decide +kernel
  exact List.isEmpty_iff.mp (List.all_eq_true.mp h1 cs hcs)

/-- While the drop of 4(1()) is going on, there are still four entries. -/
example : let X := walkND init shareTrace
    Reach nodeCfg X ∧ X.base.threads.map List.length = [0, 1] ∧ X.base.handles = [40, 20] ∧ X.base.mem.table.length = 4 :=
  ⟨(walkND_reach .init).reach, by decide +kernel, by decide +kernel, by decide +kernel⟩

end Src.ArcHeld
