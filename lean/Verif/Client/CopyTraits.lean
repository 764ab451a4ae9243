import Verif.Client.CopySim
import Verif.Client.TermTraits
/-
`Ord`, `Display` and serde of terms made of handles that are `Copy` (C98). As in `Verif/Client/TermTraits.lean`: the traits of a node are derived, and
the traits of a handle read through it and call those of the node (intern.rs:395-412, 429-465, 482-486; typearena.rs:410-427, 444-482, 497-502;
arena.rs:536-560, where there is no `Ord` and no serde). `D n` is the memory at the time of the `n`-th read; the first number is the room on the
stack, in calls.

Simplified: a node is read at once.
-/
namespace Client.Copy
open Arc (Tree)
open Client.Term (label kids same same_iff order orderAll text textAll depth depthAll depth_mem order_eq text_inj)

section
variable {L P : Type}

/-- Memory as seen by a sequence of reads. -/
abbrev Reads (L P : Type) : Type := Nat → P → Option (Node L P)

/-- The derived `cmp` of `Vec<Intern<Node>>`: lexicographic. `f` compares two handles, beginning with the `n`-th read, and says which read is next. -/
def cmpAll (f : Nat → P → P → Option (Ordering × Nat)) : Nat → List P → List P → Option (Ordering × Nat)
  | n, [], [] => some (.eq, n)
  | n, [], _ :: _ => some (.lt, n)
  | n, _ :: _, [] => some (.gt, n)
  | n, p :: ps, q :: qs => match f n p q with
    | some (.eq, n') => cmpAll f n' ps qs
    | r => r

/-- `cmp` of two handles (intern.rs:451-456, typearena.rs:466-471): both are read, and the derived `cmp` of nodes compares the labels, with `c`, and
then the children. -/
def cmpAt (c : L → L → Ordering) (D : Reads L P) : Nat → Nat → P → P → Option (Ordering × Nat)
  | 0, _, _, _ => none
  | d + 1, n, p, q => match D n p, D (n + 1) q with
    | some x, some y => match c x.label y.label with
      | .eq => cmpAll (cmpAt c D d) (n + 2) x.kids y.kids
      | o => some (o, n + 2)
    | _, _ => none

/-- `f` writes a handle. -/
def writeAll (f : Nat → P → Option (List (L × Nat) × Nat)) : Nat → List P → Option (List (L × Nat) × Nat)
  | n, [] => some ([], n)
  | n, p :: ps => match f n p with
    | some (l, n') => match writeAll f n' ps with
      | some (l', n'') => some (l ++ l', n'')
      | none => none
    | none => none

/-- `fmt` and `serialize` of a handle (intern.rs:395-400, 460-465; typearena.rs:410-415, 475-480; arena.rs:545-550): the node is written, that is its
label and the number of its children, and then the children. -/
def writeAt (D : Reads L P) : Nat → Nat → P → Option (List (L × Nat) × Nat)
  | 0, _, _ => none
  | d + 1, n, p => match D n p with
    | some x => match writeAll (writeAt D d) (n + 1) x.kids with
      | some (l, n') => some ((x.label, x.kids.length) :: l, n')
      | none => none
    | none => none

/-! ### Reading a term in: `deserialize` (intern.rs:482-486, typearena.rs:497-502) of a handle deserializes a node, and so its children first, and
interns it -/

mutual
/-- A program that interns a term and goes on with `k`. `m` is the number of variables so far; `k` gets their number after it, and the variable that
has the term. -/
def load {R : Type} : Tree L → Nat → (Nat → Nat → Prog L R) → Prog L R
  | .node l ts, m, k => loadAll ts m fun m' is => .build l is (k (m' + 1) m')
/-- The same for lists of terms. -/
def loadAll {R : Type} : List (Tree L) → Nat → (Nat → List Nat → Prog L R) → Prog L R
  | [], m, k => k m []
  | t :: ts, m, k => load t m fun m' i => loadAll ts m' fun m'' is => k m'' (i :: is)
end

/-- Read two terms in, and compare the handles. -/
def readTwo (t u : Tree L) : Prog L Bool := load t 0 fun m i => load u m fun _ j => .eq i j .done

/-! ### Proofs -/

variable {d : P → Option (Node L P)} {D : Reads L P} {A : List P}

theorem cmpAll_ok {c : L → L → Ordering} {f : Nat → P → P → Option (Ordering × Nat)} : ∀ {ps qs : List P} {ts us : List (Tree L)},
    StandsAll d ps ts → StandsAll d qs us →
    (∀ p ∈ ps, ∀ q ∈ qs, ∀ t ∈ ts, ∀ u ∈ us, Stands d p t → Stands d q u → ∀ n, ∃ n', f n p q = some (order c t u, n')) →
    ∀ n, ∃ n', cmpAll f n ps qs = some (orderAll c ts us, n')
  | _, _, _, _, .nil, .nil, _, n => ⟨n, by simp [cmpAll, orderAll]⟩
  | _, _, _, _, .nil, .cons _ _, _, n => ⟨n, by simp [cmpAll, orderAll]⟩
  | _, _, _, _, .cons _ _, .nil, _, n => ⟨n, by simp [cmpAll, orderAll]⟩
  | p :: ps, q :: qs, t :: ts, u :: us, .cons h1 a1, .cons h2 a2, h, n => by
    obtain ⟨n1, e1⟩ := h p List.mem_cons_self q List.mem_cons_self t List.mem_cons_self u List.mem_cons_self h1 h2 n
    simp only [cmpAll, orderAll, e1]
    cases ho : order c t u with
    | lt => exact ⟨n1, rfl⟩
    | gt => exact ⟨n1, rfl⟩
    | eq =>
      obtain ⟨n2, e2⟩ := cmpAll_ok a1 a2 (fun p hp q hq t ht u hu => h p (List.mem_cons_of_mem _ hp) q (List.mem_cons_of_mem _ hq) t
        (List.mem_cons_of_mem _ ht) u (List.mem_cons_of_mem _ hu)) n1
      exact ⟨n2, by simpa using e2⟩

theorem cmpAt_ok (hc : ∀ p ∈ A, ∀ x, d p = some x → ∀ k ∈ x.kids, k ∈ A) (hD : ∀ n, ∀ p ∈ A, D n p = d p) {c : L → L → Ordering} :
    ∀ {m : Nat} {p q : P} {t u : Tree L}, p ∈ A → q ∈ A → Stands d p t → Stands d q u → depth t ≤ m ∨ depth u ≤ m →
      ∀ n, ∃ n', cmpAt c D m n p q = some (order c t u, n') := by
  intro m
  induction m with
  | zero =>
    intro p q t u _ _ _ _ h
    cases t; cases u
    simp [depth] at h
  | succ m ih =>
    intro p q t u hp hq ht hu h n
    cases ht with
    | @node _ l ks ts h1 a1 =>
      cases hu with
      | @node _ l' ks' us h2 a2 =>
        simp only [cmpAt, hD _ p hp, hD _ q hq, h1, h2, order]
        cases ho : c l l' with
        | lt => exact ⟨n + 2, rfl⟩
        | gt => exact ⟨n + 2, rfl⟩
        | eq =>
          have := cmpAll_ok (c := c) (f := cmpAt c D m) a1 a2 (fun p' hp' q' hq' t' ht' u' hu' s1 s2 n => by
            refine ih (hc p hp _ h1 p' hp') (hc q hq _ h2 q' hq') s1 s2 ?_ n
            have d1 := depth_mem ht'
            have d2 := depth_mem hu'
            simp only [depth] at h
            omega) (n + 2)
          exact this

theorem writeAll_ok {f : Nat → P → Option (List (L × Nat) × Nat)} : ∀ {ps : List P} {ts : List (Tree L)}, StandsAll d ps ts →
    (∀ p ∈ ps, ∀ t ∈ ts, Stands d p t → ∀ n, ∃ n', f n p = some (text t, n')) → ∀ n, ∃ n', writeAll f n ps = some (textAll ts, n')
  | _, _, .nil, _, n => ⟨n, by simp [writeAll, textAll]⟩
  | p :: ps, t :: ts, .cons h1 a, h, n => by
    obtain ⟨n1, e1⟩ := h p List.mem_cons_self t List.mem_cons_self h1 n
    obtain ⟨n2, e2⟩ := writeAll_ok a (fun p hp t ht => h p (List.mem_cons_of_mem _ hp) t (List.mem_cons_of_mem _ ht)) n1
    exact ⟨n2, by simp only [writeAll, textAll, e1, e2]⟩

theorem writeAt_ok (hc : ∀ p ∈ A, ∀ x, d p = some x → ∀ k ∈ x.kids, k ∈ A) (hD : ∀ n, ∀ p ∈ A, D n p = d p) : ∀ {m : Nat} {p : P} {t : Tree L},
    p ∈ A → Stands d p t → depth t ≤ m → ∀ n, ∃ n', writeAt D m n p = some (text t, n') := by
  intro m
  induction m with
  | zero =>
    intro p t _ _ h
    cases t
    simp [depth] at h
  | succ m ih =>
    intro p t hp ht h n
    cases ht with
    | @node _ l ks ts h1 a =>
      obtain ⟨n', e⟩ := writeAll_ok (f := writeAt D m) a (fun p' hp' t' ht' s n => by
        refine ih (hc p hp _ h1 p' hp') s ?_ n
        have d1 := depth_mem ht'
        simp only [depth] at h
        omega) (n + 1)
      exact ⟨n', by simp only [writeAt, hD _ p hp, h1, e, text, standsAll_length a]⟩

/-! ### Reading in -/

theorem pick_append {H : Type} : ∀ {is : List Nat} {l ps : List H} (post : List H), pick is l = some ps → pick is (l ++ post) = some ps
  | [], _, _, _, h => h
  | i :: is, l, ps, post, h => by
    simp only [pick] at h
    split at h
    · rename_i p ps' h1 h2
      cases h
      have h3 : (l ++ post)[i]? = some p := by
        rw [List.getElem?_append_left (List.getElem?_eq_some_iff.mp h1).1]; exact h1
      simp only [pick, h3, pick_append post h2]
    · cases h

mutual
theorem load_eval {R : Type} [BEq L] : ∀ (t : Tree L) (ls : List (Tree L)) (k : Nat → Nat → Prog L R),
    ∃ js, (load t ls.length k).eval ls = (k (ls ++ js ++ [t]).length (ls ++ js).length).eval (ls ++ js ++ [t])
  | .node l ts, ls, k => by
    obtain ⟨js, is, h1, h2⟩ := loadAll_eval ts ls fun m' is => Prog.build l is (k (m' + 1) m')
    refine ⟨js, ?_⟩
    rw [load, h1]
    simp only [Prog.eval, h2]
    rw [List.length_append (as := ls ++ js), List.length_singleton]
theorem loadAll_eval {R : Type} [BEq L] : ∀ (ts : List (Tree L)) (ls : List (Tree L)) (k : Nat → List Nat → Prog L R),
    ∃ js is, (loadAll ts ls.length k).eval ls = (k (ls ++ js).length is).eval (ls ++ js) ∧ pick is (ls ++ js) = some ts
  | [], ls, k => ⟨[], [], by simp [loadAll], rfl⟩
  | t :: ts, ls, k => by
    obtain ⟨js, h1⟩ := load_eval t ls fun m' i => loadAll ts m' fun m'' is => k m'' (i :: is)
    obtain ⟨js', is, h2, h3⟩ := loadAll_eval ts (ls ++ js ++ [t]) fun m'' is => k m'' ((ls ++ js).length :: is)
    have e : ls ++ (js ++ [t] ++ js') = ls ++ js ++ [t] ++ js' := by simp
    refine ⟨js ++ [t] ++ js', (ls ++ js).length :: is, ?_, ?_⟩
    · rw [loadAll, h1, h2, e]
    · rw [e]
      have h4 : (ls ++ js ++ [t] ++ js')[(ls ++ js).length]? = some t := by
        rw [List.append_assoc (ls ++ js), List.getElem?_append_right (Nat.le_refl _), Nat.sub_self]; rfl
      simp only [pick, h4, h3]
end

mutual
theorem load_alone {R : Type} : ∀ {t : Tree L} {m : Nat} {k : Nat → Nat → Prog L R}, (∀ m i, (k m i).Alone) → (load t m k).Alone
  | .node _ ts, m, k, h => by
    rw [load]
    exact loadAll_alone fun m' is => .build (h _ _)
theorem loadAll_alone {R : Type} : ∀ {ts : List (Tree L)} {m : Nat} {k : Nat → List Nat → Prog L R}, (∀ m is, (k m is).Alone) → (loadAll ts m k).Alone
  | [], m, k, h => by rw [loadAll]; exact h _ _
  | t :: ts, m, k, h => by
    rw [loadAll]
    exact load_alone fun m' i => loadAll_alone fun m'' is => h _ _
end

theorem readTwo_alone {t u : Tree L} : (readTwo t u).Alone := load_alone fun _ _ => load_alone fun _ _ => .eq fun b => .done b

theorem readTwo_eval [BEq L] {t u : Tree L} : (readTwo t u).eval [] = some (same t u) := by
  obtain ⟨js, h1⟩ := load_eval t [] fun m i => load u m fun _ j => Prog.eq i j Prog.done
  obtain ⟨js', h2⟩ := load_eval u ([] ++ js ++ [t]) fun _ j => Prog.eq ([] ++ js).length j Prog.done
  have h3 := h1.trans h2
  refine h3.trans ?_
  have a : ([] ++ js ++ [t] ++ js' ++ [u])[([] ++ js).length]? = some t := by simp
  have b : ([] ++ js ++ [t] ++ js' ++ [u])[([] ++ js ++ [t] ++ js').length]? = some u := by
    rw [List.getElem?_append_right (Nat.le_refl _), Nat.sub_self]; rfl
  simp only [Prog.eval, a, b]

end

/-! ### While a program runs -/

section
variable {L R P : Type} [DecidableEq P] {I : Interner (Node L P) P}

/-- The states at times 0, 1, …, from one of which to the next there is a step, or nothing happens. -/
def Passes (σ : Nat → World I R) : Prop := ∀ n, σ (n + 1) = σ n ∨ WStep (σ n) (σ (n + 1))

/-- What is read at the times `τ 0`, `τ 1`, …. -/
def readsAt (σ : Nat → World I R) (τ : Nat → Nat) : Reads L P := fun n p => I.deref (σ (τ n)).state p

variable [BEq L] [LawfulBEq L] {running : I.State → Tid → Node L P → Prop}

omit [LawfulBEq L] in
theorem step_keep (W : Laws I running) {w w' : World I R} {c : Conf L R (Tree L)} (h : Inv running w c) (e : WStep w w') {p : P} (hp : p ∈ w.conf.all) :
    p ∈ w'.conf.all ∧ I.deref w'.state p = I.deref w.state p := by
  cases e with
  | @inside s hs hi ho => exact ⟨hp, W.stable h.reach hs h.owns ho (owned_pos hp)⟩
  | @look t th th' qs ht hb hl => exact ⟨(look_all ht h.closed hl p).mpr hp, rfl⟩
  | @call s t th l is k ps ht hb hg hpk hc ho =>
    obtain ⟨hs, _⟩ := W.calls h.reach hc
    exact ⟨all_set' (th' := { th with busy := true }) ht (fun _ h => h) (fun l hl p hp => .inr ⟨l, hl, hp⟩) hp,
      W.stable h.reach hs h.owns ho (owned_pos hp)⟩
  | @ret s t th l is k b ht hb hg hc =>
    obtain ⟨hs, _⟩ := W.returns h.reach hc
    have ho : Owned I s w.conf := W.less (W.owns_returns h.reach hc h.owns) fun p => Nat.le_add_right _ _
    exact ⟨all_set' ht (fun _ h => List.mem_append.mpr (.inl h)) (fun l hl p hp => .inr ⟨l, hl, hp⟩) hp, W.stable h.reach hs h.owns ho (owned_pos hp)⟩

theorem passes_keep (W : Laws I running) (hC : Copies I) {σ : Nat → World I R} {c : Conf L R (Tree L)} (h : Inv running (σ 0) c) (hs : Passes σ) :
    ∀ n, (∃ c', Inv running (σ n) c') ∧ ∀ p ∈ (σ 0).conf.all, p ∈ (σ n).conf.all ∧ I.deref (σ n).state p = I.deref (σ 0).state p
  | 0 => ⟨⟨c, h⟩, fun _ hp => ⟨hp, rfl⟩⟩
  | n + 1 => by
    obtain ⟨⟨c', h'⟩, hk⟩ := passes_keep W hC h hs n
    rcases hs n with e | e
    · rw [e]; exact ⟨⟨c', h'⟩, hk⟩
    · obtain ⟨c'', _, h''⟩ := inv_step W hC h' e
      refine ⟨⟨c'', h''⟩, fun p hp => ?_⟩
      obtain ⟨h1, h2⟩ := hk p hp
      obtain ⟨h3, h4⟩ := step_keep W h' e h1
      exact ⟨h3, h4.trans h2⟩

variable {ps : List (Prog L R)} {n : Nat} {w : World I R} {σ : Nat → World I R}

theorem cmp_run (W : Laws I running) (hC : Copies I) (h : Starts ps n w) (hr : WRun w (σ 0)) (hs : Passes σ) {i j a b : Nat} {th tu : Thread L R P}
    (ht : (σ 0).conf.threads[i]? = some th) (hu : (σ 0).conf.threads[j]? = some tu) {p q : P} (hp : th.locals[a]? = some p)
    (hq : tu.locals[b]? = some q) {t u : Tree L} (h1 : Stands (I.deref (σ 0).state) p t) (h2 : Stands (I.deref (σ 0).state) q u)
    (c : L → L → Ordering) (τ : Nat → Nat) {m : Nat} (hm : depth t ≤ m ∨ depth u ≤ m) : ∃ n, cmpAt c (readsAt σ τ) m 0 p q = some (order c t u, n) := by
  obtain ⟨_, _, hi⟩ := inv_run W hC h hr
  exact cmpAt_ok hi.closed (fun n p hp => ((passes_keep W hC hi hs (τ n)).2 p hp).2) (all_local ht (List.mem_of_getElem? hp))
    (all_local hu (List.mem_of_getElem? hq)) h1 h2 hm 0

theorem write_run (W : Laws I running) (hC : Copies I) (h : Starts ps n w) (hr : WRun w (σ 0)) (hs : Passes σ) {i a : Nat} {th : Thread L R P}
    (ht : (σ 0).conf.threads[i]? = some th) {p : P} (hp : th.locals[a]? = some p) {t : Tree L} (h1 : Stands (I.deref (σ 0).state) p t)
    (τ : Nat → Nat) {m : Nat} (hm : depth t ≤ m) : ∃ n, writeAt (readsAt σ τ) m 0 p = some (text t, n) := by
  obtain ⟨_, _, hi⟩ := inv_run W hC h hr
  exact writeAt_ok hi.closed (fun n p hp => ((passes_keep W hC hi hs (τ n)).2 p hp).2) (all_local ht (List.mem_of_getElem? hp)) h1 hm 0

theorem consistent_run (W : Laws I running) (hC : Copies I) (h : Starts ps n w) {w' : World I R} (hr : WRun w w') {i j a b : Nat}
    {th tu : Thread L R P} (ht : w'.conf.threads[i]? = some th) (hu : w'.conf.threads[j]? = some tu) {p q : P} (hp : th.locals[a]? = some p)
    (hq : tu.locals[b]? = some q) {t u : Tree L} (h1 : Stands (I.deref w'.state) p t) (h2 : Stands (I.deref w'.state) q u)
    {c : L → L → Ordering} (hc : ∀ l m, c l m = .eq ↔ l = m) : (Traits.eq p q = true ↔ order c t u = .eq) ∧ (Traits.eq p q = true ↔ text t = text u) := by
  obtain ⟨x, y, hx, hy, he⟩ := equal W hC h hr ht hu hp hq
  cases stands_fun hx h1
  cases stands_fun hy h2
  exact ⟨by rw [he, order_eq hc], he.trans ⟨fun e => e ▸ rfl, fun e => (text_inj (r := []) (r' := []) (by rw [e])).1⟩⟩

theorem read_run (W : Laws I running) (hC : Copies I) {ps : List (Prog L Bool)} {w w' : World I Bool} (h : Starts ps n w)
    (hr : WRun w w') {j : Nat} {t u : Tree L} (hp : ps[j]? = some (readTwo t u)) {r : Bool} (hd : w'.conf.progs[j]? = some (.done r)) :
    r = true ↔ text t = text u := by
  have h1 := evaluates W hC h hr hp readTwo_alone hd
  rw [readTwo_eval] at h1
  cases h1
  rw [same_iff]
  exact ⟨fun e => e ▸ rfl, fun e => (text_inj (r := []) (r' := []) (by rw [e])).1⟩

end
end Client.Copy
