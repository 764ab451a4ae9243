import Verif.Client.CopyAble
import Verif.Client.CopyTraits
import Verif.Props.PoolSourceFair
import Verif.Props.NewSourceFair
/-
Programs with handles that are `Copy` come to their ends (C100). That calls of the library end is C85 and C87; here is the rest of a program.
-/
namespace Client.Copy
open Arc (Tree)
open Client.Term (label kids same same_iff)

/-! ### What the theorems say -/

section
variable {L R P : Type} [DecidableEq P] {I : Interner (Node L P) P}

/-- Thread `t` of the program takes a step in its own code: it looks at a node, compares, sends or receives, or it starts a call. -/
inductive Moves (w : World I R) (t : Nat) : World I R → Prop
  | look {th th' : Thread L R P} {qs : List (List P)} : w.conf.threads[t]? = some th → th.busy = false →
      Look (handles I w.state) th w.conf.queues th' qs → Moves w t ⟨w.state, { threads := w.conf.threads.set t th', queues := qs }⟩
  | call {s : I.State} {th : Thread L R P} {l : L} {is : List Nat} {k : Prog L R} {ps : List P} : w.conf.threads[t]? = some th →
      th.busy = false → th.prog = .build l is k → pick is th.locals = some ps → I.Calls w.state t ⟨l, ps⟩ s → Owned I s w.conf →
      Moves w t ⟨s, { w.conf with threads := w.conf.threads.set t { th with busy := true } }⟩

/-- A thread of the program that can go on in its own code, and stays able to, goes on: the operating system runs every thread. -/
def Attentive (ω : Nat → World I R) : Prop :=
  ∀ t i, (∀ j, i ≤ j → ∃ w', Moves (ω j) t w') → ∃ j, i ≤ j ∧ Moves (ω j) t (ω (j + 1))

omit [DecidableEq P] in
/-- Clients can always call the interner. -/
def CanCall (I : Interner (Node L P) P) : Prop := ∀ {n : P → Nat} {s : I.State} {t : Tid} {v : Node L P}, I.idle s t → I.Owns s n →
  ∃ s', I.Calls s t v s' ∧ I.Owns s' n

end

/-! ### One thread -/

section
variable {L R P : Type}

/-- One operation after the other. -/
inductive Next : Prog L R → Prog L R → Prop
  | build {l : L} {is : List Nat} {k : Prog L R} : Next (.build l is k) k
  | kid {i n : Nat} {k : Prog L R} : Next (.kid i n k) k
  | eq {i j : Nat} {k : Bool → Prog L R} (b : Bool) : Next (.eq i j k) (k b)
  | node {i : Nat} {k : L → Nat → Prog L R} (l : L) (n : Nat) : Next (.node i k) (k l n)
  | give {q i : Nat} {k : Prog L R} : Next (.give q i k) k
  | take {q : Nat} {k : Prog L R} : Next (.take q k) k

theorem look_next {S : View L P} {th th' : Thread L R P} {qs qs' : List (List P)} (h : Look S th qs th' qs') :
    Next th.prog th'.prog ∧ th'.busy = th.busy := by
  cases h with
  | eq e _ _ _ => exact ⟨by rw [e]; exact .eq _, rfl⟩
  | node e _ _ => exact ⟨by rw [e]; exact .node _ _, rfl⟩
  | kid e _ _ => exact ⟨by rw [e]; exact .kid, rfl⟩
  | give e _ _ => exact ⟨by rw [e]; exact .give, rfl⟩
  | take e _ => exact ⟨by rw [e]; exact .take, rfl⟩

variable [DecidableEq P] {I : Interner (Node L P) P}

theorem step_thread {w w' : World I R} (e : WStep w w') {t : Nat} {th : Thread L R P} (ht : w.conf.threads[t]? = some th) :
    ∃ th', w'.conf.threads[t]? = some th' ∧ ((th'.prog = th.prog ∧ (th.busy = true → th'.busy = true)) ∨ Next th.prog th'.prog) := by
  have keep : ∀ {u : Nat} {tu tu' : Thread L R P}, w.conf.threads[u]? = some tu →
      ((tu'.prog = tu.prog ∧ (tu.busy = true → tu'.busy = true)) ∨ Next tu.prog tu'.prog) →
      ∃ th', (w.conf.threads.set u tu')[t]? = some th' ∧ ((th'.prog = th.prog ∧ (th.busy = true → th'.busy = true)) ∨ Next th.prog th'.prog) := by
    intro u tu tu' hu hh
    by_cases hut : t = u
    · subst hut
      rw [ht] at hu; cases hu
      exact ⟨tu', by simp [(List.getElem?_eq_some_iff.mp ht).1], hh⟩
    · exact ⟨th, by rw [List.getElem?_set_ne (Ne.symm hut)]; exact ht, .inl ⟨rfl, id⟩⟩
  cases e with
  | inside _ _ _ => exact ⟨th, ht, .inl ⟨rfl, id⟩⟩
  | look hu hb hl => exact keep hu (.inr (look_next hl).1)
  | call hu hb _ _ _ _ => exact keep hu (.inl ⟨rfl, fun _ => rfl⟩)
  | ret hu hb e _ => exact keep hu (.inr (by rw [e]; exact .build))

theorem moves_thread {w w' : World I R} {t : Nat} (e : Moves w t w') {th : Thread L R P} (ht : w.conf.threads[t]? = some th) :
    ∃ th', w'.conf.threads[t]? = some th' ∧ (Next th.prog th'.prog ∨ th'.busy = true) := by
  cases e with
  | @look _ th' qs hu _ hl =>
    rw [ht] at hu; cases hu
    exact ⟨th', by simp [(List.getElem?_eq_some_iff.mp ht).1], .inl (look_next hl).1⟩
  | @call s _ l is k ps hu _ _ _ _ _ =>
    rw [ht] at hu; cases hu
    exact ⟨{ th with busy := true }, by simp [(List.getElem?_eq_some_iff.mp ht).1], .inr rfl⟩

/-- What a thread does in its own code is a step of the program. -/
theorem Moves.step {w w' : World I R} {t : Nat} (e : Moves w t w') : WStep w w' := by
  cases e with
  | look h1 h2 h3 => exact .look h1 h2 h3
  | call h1 h2 h3 h4 h5 h6 => exact .call h1 h2 h3 h4 h5 h6

variable [BEq L] [LawfulBEq L] {running : I.State → Tid → Node L P → Prop}

omit [LawfulBEq L] in
/-- A thread between calls that has not ended can go on. -/
theorem able_moves (A : CanCall I) {w : World I R} {c : Conf L R (Tree L)} (h : Inv running w c) {t : Nat} {th : Thread L R P}
    {vt : Thread L R (Tree L)} (ht : w.conf.threads[t]? = some th) (hs : SameThread (I.deref w.state) th vt)
    (ha : vt.prog.Alone) {r : R} (he : vt.prog.eval vt.locals = some r) (hd : ∀ r, th.prog ≠ .done r) (hb : th.busy = false) :
    ∃ w', Moves w t w' := by
  generalize hg : vt.prog = g at ha he
  have hp := hs.prog.trans hg
  cases ha with
  | done r => exact absurd hp (hd r)
  | @build l is k _ =>
    simp only [Prog.eval] at he
    split at he
    · rename_i ts hts
      obtain ⟨ps, hps⟩ := pick_back hs.locals hts
      obtain ⟨s', h1, h2⟩ := A (v := ⟨l, ps⟩) (h.own t th ht hb) h.owns
      exact ⟨_, .call ht hb hp hps h1 h2⟩
    · cases he
  | @kid i n k _ =>
    simp only [Prog.eval] at he
    split at he
    · rename_i x hx
      split at he
      · rename_i y hy
        obtain ⟨p, h1, h2⟩ := hs.locals.back hx
        cases h2 with
        | @node _ l ks ts hd' a =>
          obtain ⟨q, h3, _⟩ := standsAll_back a hy
          exact ⟨_, .look ht hb (.kid hp h1 ⟨l, ks, hd', h3⟩)⟩
      · cases he
    · cases he
  | @eq i j k _ =>
    simp only [Prog.eval] at he
    split at he
    · rename_i x y hx hy
      obtain ⟨p, h1, _⟩ := hs.locals.back hx
      obtain ⟨q, h2, _⟩ := hs.locals.back hy
      exact ⟨_, .look ht hb (.eq hp h1 h2 rfl)⟩
    · cases he
  | @node i k _ =>
    simp only [Prog.eval] at he
    split at he
    · rename_i x hx
      obtain ⟨p, h1, h2⟩ := hs.locals.back hx
      cases h2 with
      | @node _ l ks ts hd' a => exact ⟨_, .look ht hb (.node hp h1 ⟨ks, hd', rfl⟩)⟩
    · cases he

/-! ### For ever -/

omit [BEq L] [LawfulBEq L] in
theorem passes_run {ω : Nat → World I R} (hp : Passes ω) : ∀ i, WRun (ω 0) (ω i)
  | 0 => .refl
  | i + 1 => by
    rcases hp i with h | h
    · rw [h]; exact passes_run hp i
    · exact .step (passes_run hp i) h

omit [BEq L] [LawfulBEq L] in
theorem passes_thread {ω : Nat → World I R} (hp : Passes ω) {t i : Nat} {th : Thread L R P} (ht : (ω i).conf.threads[t]? = some th) :
    ∃ th', (ω (i + 1)).conf.threads[t]? = some th' ∧ ((th'.prog = th.prog ∧ (th.busy = true → th'.busy = true)) ∨ Next th.prog th'.prog) := by
  rcases hp i with h | h
  · exact ⟨th, by rw [h]; exact ht, .inl ⟨rfl, id⟩⟩
  · exact step_thread h ht

variable {ω : Nat → World I R} {ps : List (Prog L R)} {n : Nat}

/-- A thread that has not ended comes to its next operation. -/
theorem next_op (W : Laws I running) (hC : Copies I) (A : CanCall I) (h : Starts ps n (ω 0)) (hp : Passes ω) (ha : Attentive ω)
    (hi : ∀ t i, ∃ j, i ≤ j ∧ ∀ v, ¬ running (ω j).state t v) {t : Nat} {g : Prog L R} (hg : ps[t]? = some g) (hal : g.Alone) {r : R}
    (he : g.eval [] = some r) {i : Nat} {th : Thread L R P} (ht : (ω i).conf.threads[t]? = some th) (hd : ∀ r, th.prog ≠ .done r) :
    ∃ j th', i ≤ j ∧ (ω j).conf.threads[t]? = some th' ∧ Next th.prog th'.prog := by
  refine Classical.byContradiction fun hno => ?_
  have hno : ∀ j th', i ≤ j → (ω j).conf.threads[t]? = some th' → ¬ Next th.prog th'.prog := fun j th' h1 h2 h3 => hno ⟨j, th', h1, h2, h3⟩
  have stay : ∀ m, ∃ th', (ω (i + m)).conf.threads[t]? = some th' ∧ th'.prog = th.prog := by
    intro m
    induction m with
    | zero => exact ⟨th, ht, rfl⟩
    | succ m ih =>
      obtain ⟨th', h1, h2⟩ := ih
      obtain ⟨th'', h3, h4 | h4⟩ := passes_thread hp h1
      · exact ⟨th'', h3, h4.1.trans h2⟩
      · exact (hno _ _ (by omega) h3 (by rw [← h2]; exact h4)).elim
  by_cases hb : ∃ m th', (ω (i + m)).conf.threads[t]? = some th' ∧ th'.busy = true
  · obtain ⟨m, th1, h1, h2⟩ := hb
    have busy : ∀ m', ∃ th', (ω (i + m + m')).conf.threads[t]? = some th' ∧ th'.busy = true := by
      intro m'
      induction m' with
      | zero => exact ⟨th1, h1, h2⟩
      | succ m' ih =>
        obtain ⟨th', h3, h4⟩ := ih
        obtain ⟨th'', h5, h6 | h6⟩ := passes_thread hp h3
        · exact ⟨th'', h5, h6.2 h4⟩
        · obtain ⟨tx, h7, h8⟩ := stay (m + m')
          rw [← Nat.add_assoc, h3] at h7; cases h7
          exact (hno _ _ (by omega) h5 (by rw [← h8]; exact h6)).elim
    obtain ⟨j, h3, h4⟩ := hi t (i + m)
    obtain ⟨th', h5, h6⟩ := busy (j - (i + m))
    rw [Nat.add_sub_cancel' h3] at h5
    obtain ⟨c, _, h7⟩ := inv_run W hC h (passes_run hp j)
    obtain ⟨_, l, is, k, qs, _, _, h8⟩ := h7.calling t th' h5 h6
    exact h4 _ h8
  · have hb : ∀ m th', (ω (i + m)).conf.threads[t]? = some th' → th'.busy = false := by
      intro m th' h1
      cases hx : th'.busy with
      | false => rfl
      | true => exact (hb ⟨m, th', h1, hx⟩).elim
    obtain ⟨j, h1, h2⟩ := ha t i (by
      intro j hj
      obtain ⟨th', h1, h2⟩ := stay (j - i)
      have h3 := hb (j - i) th' h1
      rw [Nat.add_sub_cancel' hj] at h1
      obtain ⟨c, h4, h5⟩ := inv_run W hC h (passes_run hp j)
      obtain ⟨vt, h6, h7, h8⟩ := eval_run h4 hg hal
      obtain ⟨tx, h9, h10⟩ := h5.same.threads.back h6
      rw [h1] at h9; cases h9
      exact able_moves A h5 h1 h10 h7 (h8.trans he) (fun r => by rw [h2]; exact hd r) h3)
    obtain ⟨th', h3, h4⟩ := stay (j - i)
    rw [Nat.add_sub_cancel' h1] at h3
    obtain ⟨th'', h5, h6 | h6⟩ := moves_thread h2 h3
    · exact hno _ _ (by omega) h5 (by rw [← h4]; exact h6)
    · have := hb (j + 1 - i) th'' (by rw [Nat.add_sub_cancel' (by omega)]; exact h5)
      rw [this] at h6; cases h6

/-- A thread comes to its end. -/
theorem comes_to_end (W : Laws I running) (hC : Copies I) (A : CanCall I) (h : Starts ps n (ω 0)) (hp : Passes ω) (ha : Attentive ω)
    (hi : ∀ t i, ∃ j, i ≤ j ∧ ∀ v, ¬ running (ω j).state t v) {t : Nat} {g : Prog L R} (hg : ps[t]? = some g) (hal : g.Alone) {r : R}
    (he : g.eval [] = some r) : ∃ j, ∀ i, j ≤ i → (ω i).conf.progs[t]? = some (.done r) := by
  have key : ∀ (g' : Prog L R) (i : Nat) (th : Thread L R P), (ω i).conf.threads[t]? = some th → th.prog = g' →
      ∃ j th' r', (ω j).conf.threads[t]? = some th' ∧ th'.prog = .done r' := by
    intro g'
    induction g' with
    | done r' => exact fun i th h1 h2 => ⟨i, th, r', h1, h2⟩
    | build l is k ih =>
      intro i th h1 h2
      obtain ⟨j, th', _, h4, h5⟩ := next_op W hC A h hp ha hi hg hal he h1 (by rw [h2]; exact fun _ h => nomatch h)
      rw [h2] at h5
      generalize hx : th'.prog = x at h5
      cases h5
      exact ih j th' h4 hx
    | kid a b k ih =>
      intro i th h1 h2
      obtain ⟨j, th', _, h4, h5⟩ := next_op W hC A h hp ha hi hg hal he h1 (by rw [h2]; exact fun _ h => nomatch h)
      rw [h2] at h5
      generalize hx : th'.prog = x at h5
      cases h5
      exact ih j th' h4 hx
    | eq a b k ih =>
      intro i th h1 h2
      obtain ⟨j, th', _, h4, h5⟩ := next_op W hC A h hp ha hi hg hal he h1 (by rw [h2]; exact fun _ h => nomatch h)
      rw [h2] at h5
      generalize hx : th'.prog = x at h5
      cases h5 with
      | eq b => exact ih b j th' h4 hx
    | node a k ih =>
      intro i th h1 h2
      obtain ⟨j, th', _, h4, h5⟩ := next_op W hC A h hp ha hi hg hal he h1 (by rw [h2]; exact fun _ h => nomatch h)
      rw [h2] at h5
      generalize hx : th'.prog = x at h5
      cases h5 with
      | node l n => exact ih l n j th' h4 hx
    | give a b k ih =>
      intro i th h1 h2
      obtain ⟨j, th', _, h4, h5⟩ := next_op W hC A h hp ha hi hg hal he h1 (by rw [h2]; exact fun _ h => nomatch h)
      rw [h2] at h5
      generalize hx : th'.prog = x at h5
      cases h5
      exact ih j th' h4 hx
    | take a k ih =>
      intro i th h1 h2
      obtain ⟨j, th', _, h4, h5⟩ := next_op W hC A h hp ha hi hg hal he h1 (by rw [h2]; exact fun _ h => nomatch h)
      rw [h2] at h5
      generalize hx : th'.prog = x at h5
      cases h5
      exact ih j th' h4 hx
  obtain ⟨j, th, r', h1, h2⟩ := key g 0 ⟨g, [], false⟩ (by rw [h.conf]; simp [start, hg]) rfl
  have later : ∀ m, ∃ th, (ω (j + m)).conf.threads[t]? = some th ∧ th.prog = .done r' := by
    intro m
    induction m with
    | zero => exact ⟨th, h1, h2⟩
    | succ m ih =>
      obtain ⟨th', h3, h4⟩ := ih
      obtain ⟨th'', h5, h6 | h6⟩ := passes_thread hp h3
      · exact ⟨th'', h5, h6.1.trans h4⟩
      · rw [h4] at h6; cases h6
  have out : ∀ i, j ≤ i → (ω i).conf.progs[t]? = some (.done r') := by
    intro i hi
    obtain ⟨th', h3, h4⟩ := later (i - j)
    rw [Nat.add_sub_cancel' hi] at h3
    simp [Conf.progs, h3, h4]
  have := evaluates W hC h (passes_run hp j) hg hal (out j (Nat.le_refl _))
  rw [he] at this; cases this
  exact ⟨j, out⟩

/-! ### Programs with messages -/

omit [BEq L] [LawfulBEq L] [DecidableEq P] in
theorem next_acc (g : Prog L R) : Acc (fun a b => Next b a) g := by
  induction g with
  | done r => exact ⟨_, fun _ h => nomatch h⟩
  | build l is k ih => exact ⟨_, fun _ h => by cases h; exact ih⟩
  | kid a b k ih => exact ⟨_, fun _ h => by cases h; exact ih⟩
  | eq a b k ih => exact ⟨_, fun _ h => by cases h; exact ih _⟩
  | node a k ih => exact ⟨_, fun _ h => by cases h; exact ih _ _⟩
  | give a b k ih => exact ⟨_, fun _ h => by cases h; exact ih⟩
  | take a k ih => exact ⟨_, fun _ h => by cases h; exact ih⟩

omit [BEq L] [LawfulBEq L] [DecidableEq P] in
theorem next_irrefl {g : Prog L R} : ¬ Next g g := by
  have key : ∀ {g : Prog L R}, Acc (fun a b => Next b a) g → ¬ Next g g := by
    intro g h
    induction h with
    | intro g _ ih => exact fun h => ih g h h
  exact key (next_acc g)

omit [BEq L] [LawfulBEq L] in
/-- A thread stops somewhere: code is finite. -/
theorem thread_stops (hp : Passes ω) {t i : Nat} {th : Thread L R P} (ht : (ω i).conf.threads[t]? = some th) :
    ∃ j g, i ≤ j ∧ ∀ i', j ≤ i' → ∃ th', (ω i').conf.threads[t]? = some th' ∧ th'.prog = g := by
  have key : ∀ g : Prog L R, Acc (fun a b => Next b a) g → ∀ (i : Nat) (th : Thread L R P), (ω i).conf.threads[t]? = some th → th.prog = g →
      ∃ j g, i ≤ j ∧ ∀ i', j ≤ i' → ∃ th', (ω i').conf.threads[t]? = some th' ∧ th'.prog = g := by
    intro g h
    induction h with
    | intro g _ ih =>
      intro i th ht hg
      by_cases hn : ∃ j th', i ≤ j ∧ (ω j).conf.threads[t]? = some th' ∧ Next g th'.prog
      · obtain ⟨j, th', h1, h2, h3⟩ := hn
        obtain ⟨j', g', h4, h5⟩ := ih _ h3 j th' h2 rfl
        exact ⟨j', g', by omega, h5⟩
      · have stay : ∀ m, ∃ th', (ω (i + m)).conf.threads[t]? = some th' ∧ th'.prog = g := by
          intro m
          induction m with
          | zero => exact ⟨th, ht, hg⟩
          | succ m ih =>
            obtain ⟨th', h1, h2⟩ := ih
            obtain ⟨th'', h3, h4 | h4⟩ := passes_thread hp h1
            · exact ⟨th'', h3, h4.1.trans h2⟩
            · exact (hn ⟨i + m + 1, th'', by omega, h3, by rw [← h2]; exact h4⟩).elim
        refine ⟨i, g, Nat.le_refl _, fun i' hi' => ?_⟩
        have := stay (i' - i)
        rwa [Nat.add_sub_cancel' hi'] at this
  exact key _ (next_acc _) i th ht rfl

omit [BEq L] [LawfulBEq L] in
/-- So all threads stop. -/
theorem threads_stop (hp : Passes ω) : ∃ j, ∀ t i i', j ≤ i → j ≤ i' → t < (ω 0).conf.threads.length →
    ∃ th th', (ω i).conf.threads[t]? = some th ∧ (ω i').conf.threads[t]? = some th' ∧ th.prog = th'.prog := by
  have key : ∀ m, m ≤ (ω 0).conf.threads.length → ∃ j, ∀ t i i', j ≤ i → j ≤ i' → t < m →
      ∃ th th', (ω i).conf.threads[t]? = some th ∧ (ω i').conf.threads[t]? = some th' ∧ th.prog = th'.prog := by
    intro m
    induction m with
    | zero => exact fun _ => ⟨0, fun _ _ _ _ _ h => absurd h (Nat.not_lt_zero _)⟩
    | succ m ih =>
      intro hm
      obtain ⟨j, h1⟩ := ih (by omega)
      obtain ⟨j', g, _, h2⟩ := thread_stops hp (t := m) (i := 0) (List.getElem?_eq_getElem (by omega))
      refine ⟨max j j', fun t i i' hi hi' ht => ?_⟩
      by_cases h : t = m
      · subst h
        obtain ⟨th, h3, h4⟩ := h2 i (by omega)
        obtain ⟨th', h5, h6⟩ := h2 i' (by omega)
        exact ⟨th, th', h3, h5, h4.trans h6.symm⟩
      · exact h1 t i i' (by omega) (by omega) (by omega)
  exact key _ (Nat.le_refl _)

omit [BEq L] [LawfulBEq L] in
theorem passes_length (hp : Passes ω) : ∀ i, (ω i).conf.threads.length = (ω 0).conf.threads.length
  | 0 => rfl
  | i + 1 => by
    rw [← passes_length hp i]
    rcases hp i with h | h
    · rw [h]
    · generalize ω (i + 1) = w at h
      cases h <;> simp

omit [LawfulBEq L] [DecidableEq P] in
/-- A step with trees is an operation of a thread. -/
theorem vstep_next {c c' : Conf L R (Tree L)} (h : VStep c c') : ∃ (t : Nat) (th th' : Thread L R (Tree L)), c.threads[t]? = some th ∧ c'.threads[t]? = some th' ∧
    Next th.prog th'.prog := by
  cases h with
  | @look t th th' qs ht hl => exact ⟨t, th, th', ht, by simp [(List.getElem?_eq_some_iff.mp ht).1], (look_next hl).1⟩
  | @build t th l is k ts ht e hpk =>
    exact ⟨t, th, _, ht, by simp [(List.getElem?_eq_some_iff.mp ht).1]; rfl, by rw [e]; exact .build⟩

omit [LawfulBEq L] in
/-- What a thread can do with trees, it can do with handles, if it is not in a call. -/
theorem able_moves' (A : CanCall I) {c c' : Conf L R (Tree L)} (e : VStep c c') :
    ∃ t, ∀ w : World I R, Inv running w c → ∃ th, w.conf.threads[t]? = some th ∧ (th.busy = false → ∃ w', Moves w t w') := by
  cases e with
  | @look t vt vt' vqs hvt hl =>
    refine ⟨t, fun w h => ?_⟩
    obtain ⟨th, ht, hs⟩ := h.same.threads.back hvt
    refine ⟨th, ht, fun hb => ?_⟩
    cases hl with
    | @eq i j k x y b e hi hj _ =>
      obtain ⟨p, h1, _⟩ := hs.locals.back hi
      obtain ⟨q, h3, _⟩ := hs.locals.back hj
      exact ⟨_, .look ht hb (.eq (hs.prog.trans e) h1 h3 rfl)⟩
    | @node i k x l n e hi _ =>
      obtain ⟨p, h1, h2⟩ := hs.locals.back hi
      cases h2 with
      | @node _ l ks ts hd a => exact ⟨_, .look ht hb (.node (hs.prog.trans e) h1 ⟨ks, hd, rfl⟩)⟩
    | @kid i n k x y e hi hy =>
      obtain ⟨p, h1, h2⟩ := hs.locals.back hi
      cases h2 with
      | @node _ l ks ts hd a =>
        obtain ⟨q, h3, _⟩ := standsAll_back a hy
        exact ⟨_, .look ht hb (.kid (hs.prog.trans e) h1 ⟨l, ks, hd, h3⟩)⟩
    | @give q i k x l e hi hq =>
      obtain ⟨p, h1, _⟩ := hs.locals.back hi
      obtain ⟨l', h3, _⟩ := h.same.queues.back hq
      exact ⟨_, .look ht hb (.give (hs.prog.trans e) h1 h3)⟩
    | @take q k x l e hq =>
      obtain ⟨l', h3, h4⟩ := h.same.queues.back hq
      cases h4 with
      | @cons p _ _ _ h5 h6 => exact ⟨_, .look ht hb (.take (hs.prog.trans e) h3)⟩
  | @build t vt l is k ts hvt hg hts =>
    refine ⟨t, fun w h => ?_⟩
    obtain ⟨th, ht, hs⟩ := h.same.threads.back hvt
    refine ⟨th, ht, fun hb => ?_⟩
    obtain ⟨ps, hps⟩ := pick_back hs.locals hts
    obtain ⟨s', h1, h2⟩ := A (v := ⟨l, ps⟩) (h.own t th ht hb) h.owns
    exact ⟨_, .call ht hb (hs.prog.trans hg) hps h1 h2⟩

/-- The program stops, and it stops where the program with trees can stop. -/
theorem settles (W : Laws I running) (hC : Copies I) (A : CanCall I) (h : Starts ps n (ω 0)) (hp : Passes ω) (ha : Attentive ω)
    (hi : ∀ t i, ∃ j, i ≤ j ∧ ∀ v, ¬ running (ω j).state t v) :
    ∃ j c, VRun (start ps n) c ∧ (∀ c', ¬ VStep c c') ∧ ∀ i, j ≤ i → Same (ω i) c := by
  obtain ⟨j, hj⟩ := threads_stop hp
  obtain ⟨c, hc, hinv⟩ := inv_run W hC h (passes_run hp j)
  have still : ∀ {t i i' : Nat} {th th' : Thread L R P}, j ≤ i → j ≤ i' → (ω i).conf.threads[t]? = some th →
      (ω i').conf.threads[t]? = some th' → th.prog = th'.prog := by
    intro t i i' th th' h1 h2 h3 h4
    have hlt := (List.getElem?_eq_some_iff.mp h3).1
    rw [passes_length hp] at hlt
    obtain ⟨a, b, h5, h6, h7⟩ := hj t i i' h1 h2 hlt
    rw [h3] at h5; cases h5
    rw [h4] at h6; cases h6
    exact h7
  have all : ∀ m, Inv running (ω (j + m)) c := by
    intro m
    induction m with
    | zero => exact hinv
    | succ m ih =>
      rcases hp (j + m) with h1 | h1
      · rw [show j + (m + 1) = j + m + 1 from rfl, h1]; exact ih
      · obtain ⟨c', h2 | h2, h3⟩ := inv_step W hC ih h1
        · subst h2; exact h3
        · exfalso
          obtain ⟨t, vt, vt', h4, h5, h6⟩ := vstep_next h2
          obtain ⟨th, h7, h8⟩ := ih.same.threads.back h4
          obtain ⟨th', h9, h10⟩ := h3.same.threads.back h5
          rw [← h8.prog, ← h10.prog, still (by omega) (by omega) h7 h9] at h6
          exact next_irrefl h6
  refine ⟨j, c, hc, fun c' e => ?_, fun i hi => ?_⟩
  · obtain ⟨t, able⟩ := able_moves' (running := running) A e
    by_cases hb : ∃ m th, (ω (j + m)).conf.threads[t]? = some th ∧ th.busy = true
    · obtain ⟨m, th, h1, h2⟩ := hb
      have busy : ∀ m', ∃ th', (ω (j + m + m')).conf.threads[t]? = some th' ∧ th'.busy = true := by
        intro m'
        induction m' with
        | zero => exact ⟨th, h1, h2⟩
        | succ m' ih =>
          obtain ⟨th', h3, h4⟩ := ih
          obtain ⟨th'', h5, h6 | h6⟩ := passes_thread hp h3
          · exact ⟨th'', h5, h6.2 h4⟩
          · rw [still (by omega) (by omega) h3 h5] at h6
            exact (next_irrefl h6).elim
      obtain ⟨i, h3, h4⟩ := hi t (j + m)
      obtain ⟨th', h5, h6⟩ := busy (i - (j + m))
      have h7 := all (i - j)
      rw [Nat.add_sub_cancel' h3] at h5
      rw [Nat.add_sub_cancel' (by omega)] at h7
      obtain ⟨_, l, is, k, qs, _, _, h8⟩ := h7.calling t th' h5 h6
      exact h4 _ h8
    · have hb : ∀ i th, j ≤ i → (ω i).conf.threads[t]? = some th → th.busy = false := by
        intro i th hi h1
        cases hx : th.busy with
        | false => rfl
        | true => exact (hb ⟨i - j, th, by rw [Nat.add_sub_cancel' hi]; exact h1, hx⟩).elim
      obtain ⟨i, h1, h2⟩ := ha t j fun i hi => by
        have h3 := all (i - j)
        rw [Nat.add_sub_cancel' hi] at h3
        obtain ⟨th, h4, h5⟩ := able _ h3
        exact h5 (hb i th hi h4)
      have h3 := all (i - j)
      rw [Nat.add_sub_cancel' h1] at h3
      obtain ⟨th, h4, _⟩ := able _ h3
      obtain ⟨th', h5, h6 | h6⟩ := moves_thread h2 h4
      · rw [still h1 (by omega) h4 h5] at h6
        exact next_irrefl h6
      · rw [hb _ _ (by omega) h5] at h6; cases h6
  · have := (all (i - j)).same
    rwa [Nat.add_sub_cancel' hi] at this

end

/-! ### The interners -/

section
open Pool (Ptr)
variable {L : Type} [BEq L] [Hashable (Node L Ptr)] {K : Type} [DecidableEq K] {k : K}

theorem pool_can {cfg : Pool.Cfg K (Node L Ptr)} : CanCall (pool cfg k) := by
  intro n S t v hi ho
  have hi : S.threads[t]? = some [] := hi
  obtain ⟨f, hf⟩ : ∃ f, Src.PoolCode.start cfg (.intern k (.ofVal v) v) false = some f := by
    simp only [Src.PoolCode.start]
    split <;> exact ⟨_, rfl⟩
  have hs : Src.PoolCode.step cfg S (.call t (.intern k (.ofVal v) v) false) = .ok { S with
      mem := { S.mem with born := Src.PoolCode.taken (.intern k (.ofVal v) v) false ++ S.mem.born }
      threads := S.threads.set t ({ id := S.next, call := .op (.intern k (.ofVal v) v) false, frame := f } :: [])
      next := S.next + 1
      hist := .call S.next (.intern k (.ofVal v) v) :: S.hist } := by
    simp only [Src.PoolCode.step, hi, hf]
    rw [if_pos]
    simp [Src.PoolCode.canCall, Pool.Op.pool, ho.1]
  refine ⟨_, ⟨hi, .ofVal v, false, Pool.lawful_new k v, hs⟩, ho.1, fun p hp => ?_⟩
  obtain ⟨j, q, v, k2⟩ := ho.2 p hp
  exact ⟨j, q, v, List.mem_cons_of_mem _ k2⟩

theorem new_can {cfg : Src.NewCode.Cfg K (Node L Ptr)} : CanCall (newIntern cfg k) := by
  intro n S t v hi ho
  have hi : S.threads[t]? = some [] := hi
  obtain ⟨f, hf⟩ : ∃ f, Src.NewCode.start cfg (.intern k (.ofVal v) v) false = some f := ⟨_, rfl⟩
  have hs : Src.NewCode.step cfg S (.call t (.intern k (.ofVal v) v) false false) = .ok { S with
      mem := { S.mem with born := Src.NewCode.taken (.intern k (.ofVal v) v) false ++ S.mem.born }
      threads := S.threads.set t ({ id := S.next, op := .intern k (.ofVal v) v, byRef := false, unw := false, frame := f } :: [])
      next := S.next + 1
      hist := .call S.next (.intern k (.ofVal v) v) :: S.hist } := by
    simp only [Src.NewCode.step, hi, hf]
    rw [if_pos (show Src.NewCode.canCall cfg ([] : List (Src.NewCode.Running K (Node L Ptr))) = true from rfl)]
  refine ⟨_, ⟨hi, .ofVal v, false, false, Pool.lawful_new k v, hs⟩, fun p hp => ?_⟩
  obtain ⟨j, q, v, k2⟩ := ho p hp
  exact ⟨j, q, v, List.mem_cons_of_mem _ k2⟩

omit [BEq L] [Hashable (Node L Ptr)] [DecidableEq K] in
theorem pool_idle {S : Src.PoolCode.State K (Node L Ptr)} {t : Tid} (h : Src.PoolCode.Idle S t) (v : Node L Ptr) : ¬ PoolOuter k S t v := by
  rintro ⟨cs, c, q, byRef, h1, h2, _⟩
  have h : (S.threads[t]?.getD []) = [] := h
  rw [h1] at h
  have h : cs = [] := h
  subst h; cases h2

omit [BEq L] [Hashable (Node L Ptr)] [DecidableEq K] in
theorem new_idle {S : Src.NewCode.State K (Node L Ptr)} {t : Tid} (h : Src.NewCode.Idle S t) (v : Node L Ptr) : ¬ NewOuter k S t v := by
  rintro ⟨cs, c, q, h1, h2, _⟩
  have h : (S.threads[t]?.getD []) = [] := h
  rw [h1] at h
  have h : cs = [] := h
  subst h; cases h2

end
end Client.Copy
