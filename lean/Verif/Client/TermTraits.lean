import Verif.Client.Term
import Verif.Src.ArcTerm
/-
`Ord`, `Display` and serde of terms (C95). The traits of a node are derived: they do something with the label and then the same for the children,
in order. The children are handles, and the traits of a handle are those of the node that it leads to (arc.rs:364-369, 398-425, 427-434): they read
through the handle and call the traits of the node, which call those of its children, and so on.

While they run, other threads run too. `D n` is the memory at the time of the `n`-th read. The first argument is the room on the stack, in calls:
without room, and when a handle leads nowhere, there is no result (`none`).

Simplified: a node is read at once, and not its label first and its children later; nodes do not change while there are handles to them (C07).
-/
namespace Client.Term
open Arc (Addr Node Tree Unfolds UnfoldsAll)

section
variable {L : Type}

/-- Memory as seen by a sequence of reads. -/
abbrev Reads (L : Type) : Type := Nat → Addr → Option (Node L)

/-- The derived `cmp` of `Vec<ArcIntern<Node>>`: lexicographic. `f` compares two handles, beginning with the `n`-th read, and says which read is next. -/
def cmpAll (f : Nat → Addr → Addr → Option (Ordering × Nat)) : Nat → List Addr → List Addr → Option (Ordering × Nat)
  | n, [], [] => some (.eq, n)
  | n, [], _ :: _ => some (.lt, n)
  | n, _ :: _, [] => some (.gt, n)
  | n, p :: ps, q :: qs => match f n p q with
    | some (.eq, n') => cmpAll f n' ps qs
    | r => r

/-- `cmp` of two handles (arc.rs:420-425): both are read, and the derived `cmp` of nodes compares the labels, with `c`, and then the children. -/
def cmpAt (c : L → L → Ordering) (D : Reads L) : Nat → Nat → Addr → Addr → Option (Ordering × Nat)
  | 0, _, _, _ => none
  | d + 1, n, p, q => match D n p, D (n + 1) q with
    | some x, some y => match c x.label y.label with
      | .eq => cmpAll (cmpAt c D d) (n + 2) x.kids y.kids
      | o => some (o, n + 2)
    | _, _ => none

/-- `f` writes a handle. -/
def writeAll (f : Nat → Addr → Option (List (L × Nat) × Nat)) : Nat → List Addr → Option (List (L × Nat) × Nat)
  | n, [] => some ([], n)
  | n, p :: ps => match f n p with
    | some (l, n') => match writeAll f n' ps with
      | some (l', n'') => some (l ++ l', n'')
      | none => none
    | none => none

/-- `fmt` and `serialize` of a handle (arc.rs:364-369, 427-434): the node is written, that is its label and the number of its children, and then
the children. -/
def writeAt (D : Reads L) : Nat → Nat → Addr → Option (List (L × Nat) × Nat)
  | 0, _, _ => none
  | d + 1, n, p => match D n p with
    | some x => match writeAll (writeAt D d) (n + 1) x.kids with
      | some (l, n') => some ((x.label, x.kids.length) :: l, n')
      | none => none
    | none => none

/-! ### The same for trees -/

mutual
/-- Trees in lexicographic order. -/
def order (c : L → L → Ordering) : Tree L → Tree L → Ordering
  | .node l ts, .node m us => (c l m).then (orderAll c ts us)
/-- The same for lists of trees. -/
def orderAll (c : L → L → Ordering) : List (Tree L) → List (Tree L) → Ordering
  | [], [] => .eq
  | [], _ :: _ => .lt
  | _ :: _, [] => .gt
  | t :: ts, u :: us => (order c t u).then (orderAll c ts us)
end

mutual
/-- A tree as a sequence. -/
def text : Tree L → List (L × Nat)
  | .node l ts => (l, ts.length) :: textAll ts
/-- The same for lists of trees. -/
def textAll : List (Tree L) → List (L × Nat)
  | [] => []
  | t :: ts => text t ++ textAll ts
end

mutual
/-- The number of levels. -/
def depth : Tree L → Nat
  | .node _ ts => depthAll ts + 1
/-- The largest number of levels. -/
def depthAll : List (Tree L) → Nat
  | [] => 0
  | t :: ts => max (depth t) (depthAll ts)
end

/-! ### Reading a term in: `deserialize` (arc.rs:450-460) of a handle deserializes a node, and so its children first, and interns it -/

mutual
/-- A program that interns a term and goes on with `k`. `m` is the number of variables so far; `k` gets their number after it, and the variable that
has the term. -/
def load {R : Type} : Tree L → Nat → (Nat → Nat → Prog L R) → Prog L R
  | .node l ts, m, k => loadAll ts m fun m' is => .build l is (k (m' + 1) m')
/-- The same for lists of terms. -/
def loadAll {R : Type} : List (Tree L) → Nat → (Nat → List Nat → Prog L R) → Prog L R
  | [], m, k => k m []
  | t :: ts, m, k => load t m fun m' i => loadAll ts m' fun m'' is => k m'' (i :: is)
end

/-! ### Proofs -/

/-- A handle leads to the same nodes at all times. -/
inductive Fixed (D : Reads L) : Addr → Tree L → Prop
  | node {p : Addr} {l : L} {ks : List Addr} {ts : List (Tree L)} (h : ∀ n, D n p = some ⟨l, ks⟩) (hl : ks.length = ts.length)
      (hk : ∀ (i : Nat) k t, ks[i]? = some k → ts[i]? = some t → Fixed D k t) : Fixed D p (.node l ts)

theorem depth_mem {ts : List (Tree L)} {t : Tree L} (h : t ∈ ts) : depth t ≤ depthAll ts := by
  induction ts with
  | nil => cases h
  | cons u ts ih =>
    rw [depthAll]
    rcases List.mem_cons.mp h with rfl | h
    · exact Nat.le_max_left _ _
    · exact Nat.le_trans (ih h) (Nat.le_max_right _ _)

theorem cmpAll_ok {c : L → L → Ordering} {f : Nat → Addr → Addr → Option (Ordering × Nat)} : ∀ {ps qs : List Addr} {ts us : List (Tree L)},
    ps.length = ts.length → qs.length = us.length →
    (∀ (i : Nat) p q t u, ps[i]? = some p → qs[i]? = some q → ts[i]? = some t → us[i]? = some u → ∀ n, ∃ n', f n p q = some (order c t u, n')) →
    ∀ n, ∃ n', cmpAll f n ps qs = some (orderAll c ts us, n')
  | [], [], [], [], _, _, _, n => ⟨n, by simp [cmpAll, orderAll]⟩
  | [], _ :: _, [], _ :: _, _, _, _, n => ⟨n, by simp [cmpAll, orderAll]⟩
  | _ :: _, [], _ :: _, [], _, _, _, n => ⟨n, by simp [cmpAll, orderAll]⟩
  | p :: ps, q :: qs, t :: ts, u :: us, h1, h2, h, n => by
    obtain ⟨n1, e1⟩ := h 0 p q t u rfl rfl rfl rfl n
    simp only [cmpAll, orderAll, e1]
    cases ho : order c t u with
    | lt => exact ⟨n1, rfl⟩
    | gt => exact ⟨n1, rfl⟩
    | eq =>
      obtain ⟨n2, e2⟩ := cmpAll_ok (by simpa using h1) (by simpa using h2) (fun i p q t u g1 g2 g3 g4 => h (i + 1) p q t u g1 g2 g3 g4) n1
      exact ⟨n2, by simpa using e2⟩

theorem cmpAt_ok {c : L → L → Ordering} {D : Reads L} : ∀ {d : Nat} {p q : Addr} {t u : Tree L}, Fixed D p t → Fixed D q u → depth t ≤ d ∨ depth u ≤ d →
    ∀ n, ∃ n', cmpAt c D d n p q = some (order c t u, n') := by
  intro d
  induction d with
  | zero =>
    intro p q t u _ _ h
    cases t; cases u
    simp [depth] at h
  | succ d ih =>
    intro p q t u ht hu h n
    cases ht with
    | @node _ l ks ts h1 hl1 hk1 =>
      cases hu with
      | @node _ m ks' us h2 hl2 hk2 =>
        simp only [cmpAt, h1, h2, order]
        cases hc : c l m with
        | lt => exact ⟨n + 2, rfl⟩
        | gt => exact ⟨n + 2, rfl⟩
        | eq =>
          have := cmpAll_ok (c := c) (f := cmpAt c D d) hl1 hl2 (fun i p q t u g1 g2 g3 g4 n => by
            refine ih (hk1 i p t g1 g3) (hk2 i q u g2 g4) ?_ n
            have d1 := depth_mem (List.mem_of_getElem? g3)
            have d2 := depth_mem (List.mem_of_getElem? g4)
            simp only [depth] at h
            omega) (n + 2)
          exact this

theorem writeAll_ok {f : Nat → Addr → Option (List (L × Nat) × Nat)} : ∀ {ps : List Addr} {ts : List (Tree L)}, ps.length = ts.length →
    (∀ (i : Nat) p t, ps[i]? = some p → ts[i]? = some t → ∀ n, ∃ n', f n p = some (text t, n')) → ∀ n, ∃ n', writeAll f n ps = some (textAll ts, n')
  | [], [], _, _, n => ⟨n, by simp [writeAll, textAll]⟩
  | p :: ps, t :: ts, hl, h, n => by
    obtain ⟨n1, e1⟩ := h 0 p t rfl rfl n
    obtain ⟨n2, e2⟩ := writeAll_ok (by simpa using hl) (fun i p t g1 g2 => h (i + 1) p t g1 g2) n1
    exact ⟨n2, by simp only [writeAll, textAll, e1, e2]⟩

theorem writeAt_ok {D : Reads L} : ∀ {d : Nat} {p : Addr} {t : Tree L}, Fixed D p t → depth t ≤ d → ∀ n, ∃ n', writeAt D d n p = some (text t, n') := by
  intro d
  induction d with
  | zero =>
    intro p t _ h
    cases t
    simp [depth] at h
  | succ d ih =>
    intro p t ht h n
    cases ht with
    | @node _ l ks ts h1 hl hk =>
      obtain ⟨n', e⟩ := writeAll_ok (f := writeAt D d) hl (fun i p t g1 g2 n => by
        refine ih (hk i p t g1 g2) ?_ n
        have d1 := depth_mem (List.mem_of_getElem? g2)
        simp only [depth] at h
        omega) (n + 1)
      exact ⟨n', by simp only [writeAt, h1, e, text, hl]⟩

/-! ### Trees -/

mutual
theorem order_eq {c : L → L → Ordering} (hc : ∀ l m, c l m = .eq ↔ l = m) : ∀ {t u : Tree L}, order c t u = .eq ↔ t = u
  | .node l ts, .node m us => by
    simp only [order, Ordering.then_eq_eq, hc, Tree.node.injEq, orderAll_eq hc]
theorem orderAll_eq {c : L → L → Ordering} (hc : ∀ l m, c l m = .eq ↔ l = m) : ∀ {ts us : List (Tree L)}, orderAll c ts us = .eq ↔ ts = us
  | [], [] => by simp [orderAll]
  | [], _ :: _ => by simp [orderAll]
  | _ :: _, [] => by simp [orderAll]
  | t :: ts, u :: us => by simp only [orderAll, Ordering.then_eq_eq, List.cons.injEq, order_eq hc, orderAll_eq hc]
end

mutual
theorem order_swap {c : L → L → Ordering} (hc : ∀ l m, c m l = (c l m).swap) : ∀ {t u : Tree L}, order c u t = (order c t u).swap
  | .node l ts, .node m us => by simp only [order, Ordering.swap_then, hc l m, orderAll_swap hc (ts := ts)]
theorem orderAll_swap {c : L → L → Ordering} (hc : ∀ l m, c m l = (c l m).swap) : ∀ {ts us : List (Tree L)}, orderAll c us ts = (orderAll c ts us).swap
  | [], [] => rfl
  | [], _ :: _ => rfl
  | _ :: _, [] => rfl
  | t :: ts, u :: us => by simp only [orderAll, Ordering.swap_then, order_swap hc (t := t), orderAll_swap hc (ts := ts)]
end

mutual
theorem order_trans {c : L → L → Ordering} (he : ∀ l m, c l m = .eq ↔ l = m) (hc : ∀ l m n, c l m = .lt → c m n = .lt → c l n = .lt) :
    ∀ {t u v : Tree L}, order c t u = .lt → order c u v = .lt → order c t v = .lt
  | .node l ts, .node m us, .node n vs => by
    simp only [order, Ordering.then_eq_lt]
    rintro (h1 | ⟨h1, h1'⟩) (h2 | ⟨h2, h2'⟩)
    · exact .inl (hc _ _ _ h1 h2)
    · rw [he] at h2; subst h2; exact .inl h1
    · rw [he] at h1; subst h1; exact .inl h2
    · rw [he] at h1 h2; subst h1 h2; exact .inr ⟨(he _ _).mpr rfl, orderAll_trans he hc h1' h2'⟩
theorem orderAll_trans {c : L → L → Ordering} (he : ∀ l m, c l m = .eq ↔ l = m) (hc : ∀ l m n, c l m = .lt → c m n = .lt → c l n = .lt) :
    ∀ {ts us vs : List (Tree L)}, orderAll c ts us = .lt → orderAll c us vs = .lt → orderAll c ts vs = .lt
  | [], [], _ => by simp [orderAll]
  | [], _ :: _, [] => by simp [orderAll]
  | [], _ :: _, _ :: _ => by simp [orderAll]
  | _ :: _, [], _ => by simp [orderAll]
  | _ :: _, _ :: _, [] => by simp [orderAll]
  | t :: ts, u :: us, v :: vs => by
    simp only [orderAll, Ordering.then_eq_lt]
    rintro (h1 | ⟨h1, h1'⟩) (h2 | ⟨h2, h2'⟩)
    · exact .inl (order_trans he hc h1 h2)
    · rw [order_eq he] at h2; subst h2; exact .inl h1
    · rw [order_eq he] at h1; subst h1; exact .inl h2
    · rw [order_eq he] at h1 h2; subst h1 h2; exact .inr ⟨(order_eq he).mpr rfl, orderAll_trans he hc h1' h2'⟩
end

/-! ### Reading in -/

theorem move_cons {H : Type} {i : Nat} {is : List Nat} {l l' : List (Option H)} {p : H} {ps : List H} (hi : l[i]? = some (some p))
    (h : move is (l.set i none) = some (ps, l')) : move (i :: is) l = some (p :: ps, l') := by
  simp only [move, hi, h, Option.map_some]

mutual
theorem load_eval {R : Type} [BEq L] : ∀ (t : Tree L) (ls : List (Option (Tree L))) (k : Nat → Nat → Prog L R),
    ∃ n, (load t ls.length k).eval ls = (k (ls.length + n + 1) (ls.length + n)).eval (ls ++ List.replicate n none ++ [some t])
  | .node l ts, ls, k => by
    obtain ⟨js, is, h1, h2⟩ := loadAll_eval ts ls fun m' is => Prog.build l is (k (m' + 1) m')
    refine ⟨js.length, ?_⟩
    rw [load, h1]
    simp only [Prog.eval, h2 ls rfl, List.length_append]
theorem loadAll_eval {R : Type} [BEq L] : ∀ (ts : List (Tree L)) (ls : List (Option (Tree L))) (k : Nat → List Nat → Prog L R),
    ∃ js is, (loadAll ts ls.length k).eval ls = (k (ls ++ js).length is).eval (ls ++ js) ∧
      ∀ pre : List (Option (Tree L)), pre.length = ls.length → move is (pre ++ js) = some (ts, pre ++ List.replicate js.length none)
  | [], ls, k => ⟨[], [], by simp [loadAll], fun pre _ => by simp [move]⟩
  | t :: ts, ls, k => by
    obtain ⟨n, h1⟩ := load_eval t ls fun m' i => loadAll ts m' fun m'' is => k m'' (i :: is)
    obtain ⟨js, is, h2, h3⟩ := loadAll_eval ts (ls ++ List.replicate n none ++ [some t]) fun m'' is => k m'' ((ls.length + n) :: is)
    refine ⟨List.replicate n none ++ [some t] ++ js, (ls.length + n) :: is, ?_, ?_⟩
    · rw [loadAll, h1]
      have e : (ls ++ List.replicate n (none : Option (Tree L)) ++ [some t]).length = ls.length + n + 1 := by
        simp only [List.length_append, List.length_replicate, List.length_singleton]
      rw [e] at h2
      rw [h2]
      simp only [List.append_assoc]
    · intro pre hpre
      have e : pre ++ (List.replicate n none ++ [some t] ++ js) = (pre ++ List.replicate n none) ++ some t :: js := by simp
      have hl : (pre ++ List.replicate n (none : Option (Tree L))).length = ls.length + n := by simp [hpre]
      rw [e]
      refine move_cons (by rw [← hl, List.getElem?_append_right (Nat.le_refl _)]; simp) ?_
      rw [← hl, List.set_append_right _ _ (Nat.le_refl _)]
      have h4 := h3 (pre ++ List.replicate n none ++ [none]) (by simp [hpre])
      simp only [Nat.sub_self, List.set_cons_zero]
      rw [show pre ++ List.replicate n none ++ none :: js = pre ++ List.replicate n none ++ [none] ++ js by simp, h4]
      congr 2
      have e : (List.replicate n (none : Option (Tree L)) ++ [some t] ++ js).length = n + (1 + js.length) := by
        simp only [List.length_append, List.length_replicate, List.length_singleton]; omega
      rw [e, ← List.replicate_append_replicate, ← List.replicate_append_replicate]
      simp
end

mutual
theorem load_alone {R : Type} : ∀ {t : Tree L} {m : Nat} {k : Nat → Nat → Prog L R}, (∀ m i, (k m i).Alone) → (load t m k).Alone
  | .node _ ts, m, k, h => by
    rw [load]
    exact loadAll_alone fun m' is => .build (h _ _)
theorem loadAll_alone {R : Type} : ∀ {ts : List (Tree L)} {m : Nat} {k : Nat → List Nat → Prog L R}, (∀ m is, (k m is).Alone) → (loadAll ts m k).Alone
  | [], m, k, h => by rw [loadAll]; exact h _ _
  | t :: ts, m, k, h => by
    rw [loadAll]
    exact load_alone fun m' i => loadAll_alone fun m'' is => h _ _
end

mutual
/-- The text of a tree is not the beginning of another. -/
theorem text_inj : ∀ {t u : Tree L} {r r' : List (L × Nat)}, text t ++ r = text u ++ r' → t = u ∧ r = r'
  | .node l ts, .node m us, r, r', h => by
    simp only [text, List.cons_append, List.cons.injEq, Prod.mk.injEq] at h
    obtain ⟨⟨rfl, hl⟩, h⟩ := h
    obtain ⟨rfl, h'⟩ := textAll_inj hl h
    exact ⟨rfl, h'⟩
theorem textAll_inj : ∀ {ts us : List (Tree L)} {r r' : List (L × Nat)}, ts.length = us.length → textAll ts ++ r = textAll us ++ r' → ts = us ∧ r = r'
  | [], [], _, _, _, h => ⟨rfl, by simpa [textAll] using h⟩
  | t :: ts, u :: us, r, r', hl, h => by
    simp only [textAll, List.append_assoc] at h
    obtain ⟨rfl, h'⟩ := text_inj h
    obtain ⟨rfl, h''⟩ := textAll_inj (by simpa using hl) h'
    exact ⟨rfl, h''⟩
end

end
end Client.Term
