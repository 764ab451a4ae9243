import Verif.Client.TermTraits
import Verif.Props.HashCons
import Verif.Props.Sharing
/-
C95: hash-consed terms are ordered, printed, written and read as trees. `Verif/Client/TermTraits.lean` has `cmp` (`cmpAt`) and `fmt`/`serialize`
(`writeAt`) of handles whose nodes contain handles, as they go through memory while other threads change it; the order of trees (`order`) and
their text (`text`); and the program that reads a term in (`load`).

`ArcIntern` is the functions as they are written, with user code that calls them too, and panics. `hk`: the handles inside a node are its children,
and nothing else. The `==` of labels is identity.
-/
namespace Client.Term
open Arc (Addr Cfg Node Tree Unfolds UnfoldsAll nodeCfg)

section
variable {L : Type} [BEq L] [LawfulBEq L] [Hashable (Node L)] [LawfulHashable (Node L)] {cfg : Cfg (Node L)}

/-- An execution: the states at times 0, 1, …, from one of which to the next there is a step, or nothing happens. -/
structure Passes (cfg : Cfg (Node L)) (σ : Nat → Src.ArcHeld.State (Node L)) : Prop where
  reach : Src.ArcHeld.Reach cfg (σ 0)
  step : ∀ n, σ (n + 1) = σ n ∨ ∃ act, Src.ArcHeld.step cfg (σ n) act = .ok (σ (n + 1)) ∧ Src.ArcNest.Few cfg (σ (n + 1)).base

/-- What is read at the times `τ 0`, `τ 1`, …. -/
def readsAt (σ : Nat → Src.ArcHeld.State (Node L)) (τ : Nat → Nat) : Reads L := fun n p => Arc.deref (σ (τ n)).base.view p

omit [LawfulBEq L] [LawfulHashable (Node L)] in
theorem Passes.all {σ : Nat → Src.ArcHeld.State (Node L)} (h : Passes cfg σ) : ∀ n, Src.ArcHeld.Reach cfg (σ n)
  | 0 => h.reach
  | n + 1 => by
    rcases h.step n with e | ⟨act, e, hf⟩
    · rw [e]; exact h.all n
    · exact .step (h.all n) e hf

theorem Passes.keep (hv : cfg.Valid) (hk : ∀ n, cfg.kids n = n.kids) {σ : Nat → Src.ArcHeld.State (Node L)} (h : Passes cfg σ) {p : Addr}
    (hp : ∀ n, p ∈ (σ n).base.handles) {t : Tree L} (ht : Unfolds (σ 0).base.view p t) : ∀ n, Unfolds (σ n).base.view p t
  | 0 => ht
  | n + 1 => by
    have h1 := h.keep hv hk hp ht n
    rcases h.step n with e | ⟨act, e, _⟩
    · rw [e]; exact h1
    · exact Src.ArcHeld.own_keep hv hk (h.all (n + 1)) e (hp (n + 1)) h1

omit [LawfulBEq L] [LawfulHashable (Node L)] in
theorem Passes.agree {σ : Nat → Src.ArcHeld.State (Node L)} (h : Passes cfg σ) {p : Addr} {x : Nat → Node L}
    (hx : ∀ n, Arc.deref (σ n).base.view p = some (x n)) : ∀ n, x n = x 0
  | 0 => rfl
  | n + 1 => by
    rw [← h.agree hx n]
    rcases h.step n with e | ⟨act, e, _⟩
    · have := hx (n + 1)
      rw [e, hx n] at this; exact (Option.some.inj this).symm
    · exact Src.ArcHeld.step_agree e p _ _ (hx n) (hx (n + 1))

omit [LawfulBEq L] [LawfulHashable (Node L)] in
theorem Passes.fixed {σ : Nat → Src.ArcHeld.State (Node L)} (h : Passes cfg σ) (τ : Nat → Nat) : ∀ (d : Nat) {p : Addr} {t : Tree L}, depth t ≤ d →
    (∀ n, Unfolds (σ n).base.view p t) → Fixed (readsAt σ τ) p t := by
  intro d
  induction d with
  | zero =>
    intro p t hd
    cases t
    simp [depth] at hd
  | succ d ih =>
    intro p t hd ht
    cases t with
    | node l ts =>
      have h1 : ∀ n, ∃ ks, Arc.deref (σ n).base.view p = some ⟨l, ks⟩ ∧ UnfoldsAll (σ n).base.view ks ts := by
        intro n
        cases ht n with
        | node e a => exact ⟨_, e, a⟩
      have h2 := fun n => (h1 n).choose_spec
      have h3 := h.agree (x := fun n => ⟨l, (h1 n).choose⟩) fun n => (h2 n).1
      have h4 : ∀ n, (h1 n).choose = (h1 0).choose := fun n => congrArg Node.kids (h3 n)
      refine .node (ks := (h1 0).choose) (fun n => ?_) (unfoldsAll_length (h2 0).2) fun i k t hi ht => ?_
      · have := (h2 (τ n)).1
        rw [h4] at this
        exact this
      · refine ih ?_ fun n => ?_
        · have := depth_mem (List.mem_of_getElem? ht)
          simp only [depth] at hd
          omega
        · have a := (h2 n).2
          rw [h4] at a
          obtain ⟨t', h5, h6⟩ := unfoldsAll_get a hi
          rw [ht] at h5; cases h5; exact h6

/-- **C95**: `cmp` of two handles that the caller has is the order of their trees, whatever other threads do meanwhile, and whenever the reads
take place. It needs no more calls on the stack than the smaller depth of the two. -/
theorem C95_cmp (hv : cfg.Valid) (hk : ∀ n, cfg.kids n = n.kids) {σ : Nat → Src.ArcHeld.State (Node L)} (h : Passes cfg σ) {p q : Addr}
    (hp : ∀ n, p ∈ (σ n).base.handles) (hq : ∀ n, q ∈ (σ n).base.handles) {t u : Tree L} (ht : Unfolds (σ 0).base.view p t)
    (hu : Unfolds (σ 0).base.view q u) (c : L → L → Ordering) (τ : Nat → Nat) {d : Nat} (hd : depth t ≤ d ∨ depth u ≤ d) :
    ∃ n, cmpAt c (readsAt σ τ) d 0 p q = some (order c t u, n) :=
  cmpAt_ok (h.fixed τ _ (Nat.le_refl _) (h.keep hv hk hp ht)) (h.fixed τ _ (Nat.le_refl _) (h.keep hv hk hq hu)) hd 0

/-- **C95**: the same for printing and writing. -/
theorem C95_write (hv : cfg.Valid) (hk : ∀ n, cfg.kids n = n.kids) {σ : Nat → Src.ArcHeld.State (Node L)} (h : Passes cfg σ) {p : Addr}
    (hp : ∀ n, p ∈ (σ n).base.handles) {t : Tree L} (ht : Unfolds (σ 0).base.view p t) (τ : Nat → Nat) {d : Nat} (hd : depth t ≤ d) :
    ∃ n, writeAt (readsAt σ τ) d 0 p = some (text t, n) :=
  writeAt_ok (h.fixed τ _ (Nat.le_refl _) (h.keep hv hk hp ht)) hd 0

/-- **C95**: `cmp` and `==` of handles are consistent, and so are the texts: if labels are ordered by `c`, two handles compare as equal, and have
the same text, just if they are `==`. -/
theorem C95_consistent (hv : cfg.Valid) (hk : ∀ n, cfg.kids n = n.kids) {X : Src.ArcHeld.State (Node L)} (h : Src.ArcHeld.Reach cfg X) {p q : Addr}
    (hp : p ∈ X.base.handles) (hq : q ∈ X.base.handles) {t u : Tree L} (ht : Unfolds X.base.view p t) (hu : Unfolds X.base.view q u)
    {c : L → L → Ordering} (hc : ∀ l m, c l m = .eq ↔ l = m) :
    (Traits.eq p q = true ↔ order c t u = .eq) ∧ (Traits.eq p q = true ↔ text t = text u) := by
  have h1 : Traits.eq p q = true ↔ t = u := by
    rw [← Src.ArcHeld.own_canonical hv hk h hp hq ht hu]
    simp [Traits.eq]
  refine ⟨by rw [h1, order_eq hc], h1.trans ⟨fun e => e ▸ rfl, fun e => ?_⟩⟩
  exact (text_inj (r := []) (r' := []) (by rw [e])).1

end

section
variable {L R : Type}

/-- **C95**: it is a linear order if that of labels is. -/
theorem C95_order {c : L → L → Ordering} (he : ∀ l m, c l m = .eq ↔ l = m) (hs : ∀ l m, c m l = (c l m).swap)
    (ht : ∀ l m n, c l m = .lt → c m n = .lt → c l n = .lt) :
    (∀ t u, order c t u = .eq ↔ t = u) ∧ (∀ t u, order c u t = (order c t u).swap) ∧
      ∀ t u v, order c t u = .lt → order c u v = .lt → order c t v = .lt :=
  ⟨fun _ _ => order_eq he, fun _ _ => order_swap hs, fun _ _ _ => order_trans he ht⟩

variable [BEq L] [LawfulBEq L]

/-- Read two terms in, and compare the handles. -/
def readTwo (t u : Tree L) : Prog L Bool := load t 0 fun m i => load u m fun _ j => .eq i j .done

omit [BEq L] [LawfulBEq L] in
theorem readTwo_alone {t u : Tree L} : (readTwo t u).Alone := load_alone fun _ _ => load_alone fun _ _ => .eq fun b => .done b

omit [LawfulBEq L] in
theorem readTwo_eval {t u : Tree L} : (readTwo t u).eval [] = some (same t u) := by
  obtain ⟨n, h1⟩ := load_eval t [] fun m i => load u m fun _ j => Prog.eq i j Prog.done
  obtain ⟨n', h2⟩ := load_eval u ([] ++ List.replicate n none ++ [some t]) fun _ j => Prog.eq n j Prog.done
  have e : ([] ++ List.replicate n (none : Option (Tree L)) ++ [some t]).length = n + 1 := by simp
  rw [e] at h2
  simp only [List.length_nil, Nat.zero_add] at h1
  rw [readTwo]
  have h3 := h1.trans h2
  refine h3.trans ?_
  have a : ([] ++ List.replicate n (none : Option (Tree L)) ++ [some t] ++ List.replicate n' none ++ [some u])[n]? = some (some t) := by
    simp
  have b : ([] ++ List.replicate n (none : Option (Tree L)) ++ [some t] ++ List.replicate n' none ++ [some u])[n + 1 + n']? = some (some u) := by
    have e : ([] ++ List.replicate n (none : Option (Tree L)) ++ [some t] ++ List.replicate n' none).length = n + 1 + n' := by simp; omega
    rw [List.getElem?_append_right (Nat.le_of_eq e), e, Nat.sub_self]; rfl
  simp only [Prog.eval, a, b]

variable [Hashable (Node L)] [LawfulHashable (Node L)] {cfg : Cfg (Node L)} {ps : List (Prog L Bool)} {n : Nat} {w w' : World cfg Bool}

/-- **C95**: reading terms in gives the same handle just if they were written the same. Other threads of the program may do anything. -/
theorem C95_read (hv : cfg.Valid) (hk : ∀ n, cfg.kids n = n.kids) (h : Starts ps n w) (hr : WRun w w') {j : Nat} {t u : Tree L}
    (hp : ps[j]? = some (readTwo t u)) {r : Bool} (hd : w'.conf.progs[j]? = some (.done r)) : r = true ↔ text t = text u := by
  have h1 := C93_result hv hk h hr hp readTwo_alone hd
  rw [readTwo_eval] at h1
  cases h1
  rw [same_iff]
  exact ⟨fun e => e ▸ rfl, fun e => (text_inj (r := []) (r' := []) (by rw [e])).1⟩

end

/-! ### The hypotheses are met -/

open Src.ArcHeld (walkND walkND_reach init shareTrace goes)

theorem walkND_snoc (a : Src.ArcHeld.Act (Node Nat)) : ∀ (l : List (Src.ArcHeld.Act (Node Nat))) (X : Src.ArcHeld.State (Node Nat)),
    walkND X (l ++ [a]) = walkND X l ∨ stepN (walkND X l) a = some (walkND X (l ++ [a]))
  | [], X => by
    have one : (match stepN X a with
        | some X' => walkND X' []
        | none => walkND X []) = X ∨ stepN X a = some (match stepN X a with
        | some X' => walkND X' []
        | none => walkND X []) := by
      cases h : stepN X a with
      | none => exact .inl rfl
      | some X' => exact .inr rfl
    cases a with
    | lock t => exact one
    | act a => cases a with
      | panic t => exact .inl rfl
      | _ => exact one
  | b :: l, X => by
    have one : (match stepN X b with
          | some X' => walkND X' (l ++ [a])
          | none => walkND X (l ++ [a])) = (match stepN X b with
          | some X' => walkND X' l
          | none => walkND X l) ∨ stepN (match stepN X b with
          | some X' => walkND X' l
          | none => walkND X l) a = some (match stepN X b with
          | some X' => walkND X' (l ++ [a])
          | none => walkND X (l ++ [a])) := by
      cases h : stepN X b with
      | none => exact walkND_snoc a l X
      | some X' => exact walkND_snoc a l X'
    cases b with
    | lock t => exact one
    | act b => cases b with
      | panic t => exact walkND_snoc a l X
      | _ => exact one

/-- What thread 1 does to drop 4(1()), while thread 0 has 2(1(), 1()) and 3(2(1(), 1()), 1()). -/
def dropping : List (Src.ArcHeld.Act (Node Nat)) := (goes 1 0).take 60

def meanwhile (n : Nat) : Src.ArcHeld.State (Node Nat) := walkND (walkND init shareTrace) (dropping.take n)

theorem walkND_passes {X : Src.ArcHeld.State (Node Nat)} (h : Src.ArcHeld.Reach nodeCfg X) (l : List (Src.ArcHeld.Act (Node Nat))) :
    Passes nodeCfg fun n => walkND X (l.take n) where
  reach := h
  step n := by
    by_cases hn : n < l.length
    · rw [List.take_succ_eq_append_getElem hn]
      exact (walkND_snoc (l[n]) (l.take n) X).imp (fun h => h) fun h => ⟨_, stepN_ok h⟩
    · rw [List.take_of_length_le (by omega), List.take_of_length_le (by omega)]
      exact .inl rfl

theorem meanwhile_passes : Passes nodeCfg meanwhile := walkND_passes (walkND_reach .init).reach dropping

theorem meanwhile_handles : ∀ n, (meanwhile n).base.handles = [40, 20] := by
  intro n
  have h : ∀ n ≤ dropping.length, (meanwhile n).base.handles = [40, 20] := by decide +kernel
  by_cases hn : n ≤ dropping.length
  · exact h n hn
  · have := h _ (Nat.le_refl _)
    unfold meanwhile at this ⊢
    rw [List.take_of_length_le (Nat.le_refl _)] at this
    rw [List.take_of_length_le (by omega)]
    exact this

theorem meanwhile_20 : Unfolds (meanwhile 0).base.view 20 (.node 2 [.node 1 [], .node 1 []]) := by
  have leaf : Unfolds (meanwhile 0).base.view 10 (.node 1 []) := .node (ks := []) (by decide +kernel) .nil
  exact .node (ks := [10, 10]) (by decide +kernel) (.cons leaf (.cons leaf .nil))

theorem meanwhile_40 : Unfolds (meanwhile 0).base.view 40 (.node 3 [.node 2 [.node 1 [], .node 1 []], .node 1 []]) := by
  have leaf : Unfolds (meanwhile 0).base.view 10 (.node 1 []) := .node (ks := []) (by decide +kernel) .nil
  exact .node (ks := [20, 10]) (by decide +kernel) (.cons meanwhile_20 (.cons leaf .nil))

/-- The entry of 4(1()) goes away while the terms of thread 0 are compared and written, ten steps after each read. -/
example : Passes nodeCfg meanwhile ∧ (meanwhile 0).base.mem.table.length = 4 ∧ (meanwhile 60).base.mem.table.length = 3 ∧
    (∃ n, cmpAt compare (readsAt meanwhile (10 * ·)) 2 0 40 20 = some (.gt, n)) ∧
    ∃ n, writeAt (readsAt meanwhile (10 * ·)) 3 0 40 = some ([(3, 2), (2, 2), (1, 0), (1, 0), (1, 0)], n) := by
  have h40 : ∀ n, 40 ∈ (meanwhile n).base.handles := fun n => by rw [meanwhile_handles]; decide
  have h20 : ∀ n, 20 ∈ (meanwhile n).base.handles := fun n => by rw [meanwhile_handles]; decide
  exact ⟨meanwhile_passes, by decide +kernel, by decide +kernel,
    C95_cmp Arc.nodeCfg_valid (fun _ => rfl) meanwhile_passes h40 h20 meanwhile_40 meanwhile_20 compare _ (.inr (by decide)),
    C95_write Arc.nodeCfg_valid (fun _ => rfl) meanwhile_passes h40 meanwhile_40 _ (by decide)⟩

/-- They are different, and so are their texts. -/
example : Traits.eq (40 : Addr) 20 = false ∧ text (.node 3 [.node 2 [.node 1 [], .node 1 []], .node 1 []]) ≠ text (.node 2 [.node 1 [], .node 1 []]) :=
  ⟨rfl, fun e => absurd ((C95_consistent Arc.nodeCfg_valid (fun _ => rfl) meanwhile_passes.reach (by rw [meanwhile_handles]; decide)
    (by rw [meanwhile_handles]; decide) meanwhile_40 meanwhile_20 (c := compare) fun _ _ => Nat.compare_eq_eq).2.mpr e) (by decide)⟩

/-- With less room the text cannot be written. -/
example : writeAt (readsAt meanwhile (10 * ·)) 2 0 40 = none := by decide +kernel

/-- `compare` on numbers is an order of labels. -/
example : order compare (.node 2 [.node 1 [], .node 1 []] : Tree Nat) (.node 2 [.node 1 [], .node 3 []]) = .lt ∧
    ∀ t u : Tree Nat, order compare t u = .eq ↔ t = u :=
  ⟨by decide, (C95_order (c := compare) (fun _ _ => Nat.compare_eq_eq) (fun l m => (Nat.compare_swap l m).symm)
    fun l m n h1 h2 => by rw [Nat.compare_eq_lt] at *; omega).1⟩

def readStart : World nodeCfg Bool :=
  ⟨walk Src.ArcHeld.init [.act .spawn], start [readTwo (.node 2 [.node 1 []]) (.node 2 [.node 1 []])] 0⟩

def readEnd : World nodeCfg Bool := after readStart
  [([], .call 0), (by_ 0 10, .ret 0 10), ([], .call 0), (by_ 0 20, .ret 0 20), ([], .call 0), (by_ 0 30, .ret 0 30), ([], .call 0),
    (by_ 0 40, .ret 0 40), ([], .look 0)]

/-- 2(1()) is read twice. -/
example : Starts [readTwo (.node 2 [.node 1 []]) (.node 2 [.node 1 []])] 0 readStart ∧ WRun readStart readEnd ∧
    readEnd.conf.results = [some true] :=
  ⟨⟨rfl, walk_reach .init, fun t ht => by
      have : ∀ t < 1, empty (readStart.state.base.threads[t]?) = true := by decide +kernel
      exact empty_iff.mp (this t ht)⟩, after_run .., by decide +kernel⟩

end Client.Term
