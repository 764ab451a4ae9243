import Verif.Client.Able
import Verif.Client.PoolLaws
import Verif.Client.ManyLaws
import Verif.Props.PoolSourceFair
import Verif.Props.NewSourceFair
/-
Programs come to their ends, for interners whose handles are `Copy` (C101). That calls of the library end is C85 and C87; here is the rest of
a program.
-/
namespace Client
open Pool (Ptr Query)
open Traits (Methods)

/-! ### What the theorems say -/

section
variable {V R P : Type} [DecidableEq P] {I : Interner V P}

/-- Thread `t` of the program takes a step in its own code: it compares, reads, sends or receives, it starts a call, or it goes on after a drop. -/
inductive Moves (M : Methods V) (w : World I R) (t : Nat) : World I R → Prop
  | look {th th' : Thread V R P} {qs : List (List P)} : w.conf.threads[t]? = some th → th.phase = .own →
      Look (I.view M w.state) th w.conf.queues th' qs → Moves M w t ⟨w.state, { threads := w.conf.threads.set t th', queues := qs }⟩
  | call {s : I.State} {th : Thread V R P} {v : V} {k : Prog V R} : w.conf.threads[t]? = some th → th.phase = .own →
      th.prog = .intern v k → I.Calls w.state t v s → I.Owns s w.conf.held →
      Moves M w t ⟨s, { w.conf with threads := w.conf.threads.set t { th with phase := .interning } }⟩
  | clone {s : I.State} {th : Thread V R P} {i : Nat} {p : P} {k : Prog V R} : w.conf.threads[t]? = some th →
      th.phase = .own → th.prog = .clone i k → th.locals[i]? = some (some p) → I.Clones w.state t p s →
      Moves M w t ⟨s, { w.conf with threads := w.conf.threads.set t { th with prog := k, locals := th.locals ++ [some p] } }⟩
  | drop {s : I.State} {th : Thread V R P} {i : Nat} {p : P} {k : Prog V R} : w.conf.threads[t]? = some th →
      th.phase = .own → th.prog = .drop i k → th.locals[i]? = some (some p) → I.Drops w.state t p s →
      Moves M w t ⟨s, { w.conf with threads := w.conf.threads.set t { prog := k, locals := th.locals.set i none, phase := .dropping } }⟩
  | dropped {th : Thread V R P} : w.conf.threads[t]? = some th → th.phase = .dropping → I.idle w.state t →
      Moves M w t ⟨w.state, { w.conf with threads := w.conf.threads.set t { th with phase := .own } }⟩

/-- A thread of the program that can go on in its own code again and again goes on: the operating system runs every thread. -/
def Attentive (M : Methods V) (ω : Nat → World I R) : Prop :=
  ∀ t i, (∀ j, i ≤ j → ∃ j', j ≤ j' ∧ ∃ w', Moves M (ω j') t w') → ∃ j, i ≤ j ∧ Moves M (ω j) t (ω (j + 1))

/-- An infinite execution. Nothing may happen in the program, and nothing at all. -/
def Passes (M : Methods V) (ω : Nat → World I R) : Prop := ∀ i, ω (i + 1) = ω i ∨ WStep M (ω i) (ω (i + 1))

omit [DecidableEq P] in
/-- Clients can always call the interner, with values that are `ok`. -/
structure CanCall (I : Interner V P) (ok : V → Prop) : Prop where
  call : ∀ {n : P → Nat} {s : I.State} {t : Tid} {v : V}, ok v → I.idle s t → I.Owns s n → ∃ s', I.Calls s t v s' ∧ I.Owns s' n
  clone : ∀ {s : I.State} {t : Tid} {p : P}, I.idle s t → ∃ s', I.Clones s t p s'
  drop : ∀ {s : I.State} {t : Tid} {p : P}, I.idle s t → ∃ s', I.Drops s t p s'

end

/-- All values that a thread interns are `ok`. -/
inductive Prog.Only {V R : Type} (ok : V → Prop) : Prog V R → Prop
  | done (r : R) : Only ok (.done r)
  | intern {v : V} {k : Prog V R} : ok v → Only ok k → Only ok (.intern v k)
  | clone {i : Nat} {k : Prog V R} : Only ok k → Only ok (.clone i k)
  | drop {i : Nat} {k : Prog V R} : Only ok k → Only ok (.drop i k)
  | eq {i j : Nat} {k : Bool → Prog V R} : (∀ b, Only ok (k b)) → Only ok (.eq i j k)
  | cmp {i j : Nat} {k : Ordering → Prog V R} : (∀ o, Only ok (k o)) → Only ok (.cmp i j k)
  | read {i : Nat} {k : V → Prog V R} : (∀ x, Only ok (k x)) → Only ok (.read i k)
  | give {q i : Nat} {k : Prog V R} : Only ok k → Only ok (.give q i k)
  | take {q : Nat} {k : Prog V R} : Only ok k → Only ok (.take q k)

/-! ### One thread -/

section
variable {V R P : Type}

/-- One operation after the other. -/
inductive Next : Prog V R → Prog V R → Prop
  | intern {v : V} {k : Prog V R} : Next (.intern v k) k
  | clone {i : Nat} {k : Prog V R} : Next (.clone i k) k
  | drop {i : Nat} {k : Prog V R} : Next (.drop i k) k
  | eq {i j : Nat} {k : Bool → Prog V R} (b : Bool) : Next (.eq i j k) (k b)
  | cmp {i j : Nat} {k : Ordering → Prog V R} (o : Ordering) : Next (.cmp i j k) (k o)
  | read {i : Nat} {k : V → Prog V R} (x : V) : Next (.read i k) (k x)
  | give {q i : Nat} {k : Prog V R} : Next (.give q i k) k
  | take {q : Nat} {k : Prog V R} : Next (.take q k) k

theorem next_acc (g : Prog V R) : Acc (fun a b => Next b a) g := by
  induction g with
  | done r => exact ⟨_, fun _ h => nomatch h⟩
  | intern v k ih => exact ⟨_, fun _ h => by cases h; exact ih⟩
  | clone a k ih => exact ⟨_, fun _ h => by cases h; exact ih⟩
  | drop a k ih => exact ⟨_, fun _ h => by cases h; exact ih⟩
  | eq a b k ih => exact ⟨_, fun _ h => by cases h; exact ih _⟩
  | cmp a b k ih => exact ⟨_, fun _ h => by cases h; exact ih _⟩
  | read a k ih => exact ⟨_, fun _ h => by cases h; exact ih _⟩
  | give a b k ih => exact ⟨_, fun _ h => by cases h; exact ih⟩
  | take a k ih => exact ⟨_, fun _ h => by cases h; exact ih⟩

theorem only_all (g : Prog V R) : g.Only fun _ => True := by
  induction g with
  | done r => exact .done r
  | intern v k ih => exact .intern trivial ih
  | clone a k ih => exact .clone ih
  | drop a k ih => exact .drop ih
  | eq a b k ih => exact .eq ih
  | cmp a b k ih => exact .cmp ih
  | read a k ih => exact .read ih
  | give a b k ih => exact .give ih
  | take a k ih => exact .take ih

theorem only_next {ok : V → Prop} {g g' : Prog V R} (h : g.Only ok) (e : Next g g') : g'.Only ok := by
  cases e with
  | intern => cases h with | intern _ h => exact h
  | clone => cases h with | clone h => exact h
  | drop => cases h with | drop h => exact h
  | eq b => cases h with | eq h => exact h b
  | cmp o => cases h with | cmp h => exact h o
  | read x => cases h with | read h => exact h x
  | give => cases h with | give h => exact h
  | take => cases h with | take h => exact h

/-- Some operations later. -/
inductive Later (g : Prog V R) : Prog V R → Prop
  | refl : Later g g
  | step {g' g'' : Prog V R} : Later g g' → Next g' g'' → Later g g''

theorem Later.only {ok : V → Prop} {g g' : Prog V R} (h : Later g g') (ho : g.Only ok) : g'.Only ok := by
  induction h with
  | refl => exact ho
  | step _ e ih => exact only_next ih e

theorem Later.first {g g' : Prog V R} (h : Later g g') : g = g' ∨ ∃ a, Next g a ∧ Later a g' := by
  induction h with
  | refl => exact .inl rfl
  | step _ e ih =>
    rcases ih with rfl | ⟨a, h1, h2⟩
    · exact .inr ⟨_, e, .refl⟩
    · exact .inr ⟨a, h1, .step h2 e⟩

/-- A program does not come back. -/
theorem next_once {g g' : Prog V R} (h : Next g g') : ¬ Later g' g := by
  have key : ∀ {g : Prog V R}, Acc (fun a b => Next b a) g → ∀ g', Next g g' → ¬ Later g' g := by
    intro g h
    induction h with
    | intro g _ ih =>
      intro g' h1 h2
      rcases h2.first with rfl | ⟨a, h3, h4⟩
      · exact ih _ h1 _ h1 .refl
      · exact ih _ h1 a h3 (.step h4 h1)
  exact key (next_acc g) g' h

theorem next_irrefl {g : Prog V R} : ¬ Next g g := fun h => next_once h .refl

theorem look_next {S : View V P} {th th' : Thread V R P} {qs qs' : List (List P)} (h : Look S th qs th' qs') :
    Next th.prog th'.prog ∧ th'.phase = th.phase := by
  cases h with
  | eq e _ _ _ => exact ⟨by rw [e]; exact .eq _, rfl⟩
  | cmp e _ _ _ => exact ⟨by rw [e]; exact .cmp _, rfl⟩
  | read e _ _ => exact ⟨by rw [e]; exact .read _, rfl⟩
  | give e _ _ => exact ⟨by rw [e]; exact .give, rfl⟩
  | take e _ => exact ⟨by rw [e]; exact .take, rfl⟩

/-- How the phase of a thread changes while it is at one operation. -/
def Phases (a b : Phase) : Prop := (a = .interning → b = .interning) ∧ (a = .own → b ≠ .dropping)

theorem Phases.same {a : Phase} : Phases a a := ⟨id, fun h h' => by rw [h] at h'; cases h'⟩

variable [DecidableEq P] {I : Interner V P} {M : Methods V}

theorem step_thread {w w' : World I R} (e : WStep M w w') {t : Nat} {th : Thread V R P} (ht : w.conf.threads[t]? = some th) :
    ∃ th', w'.conf.threads[t]? = some th' ∧ ((th'.prog = th.prog ∧ Phases th.phase th'.phase) ∨ Next th.prog th'.prog) := by
  have keep : ∀ {u : Nat} {tu tu' : Thread V R P}, w.conf.threads[u]? = some tu →
      ((tu'.prog = tu.prog ∧ Phases tu.phase tu'.phase) ∨ Next tu.prog tu'.prog) →
      ∃ th', (w.conf.threads.set u tu')[t]? = some th' ∧ ((th'.prog = th.prog ∧ Phases th.phase th'.phase) ∨ Next th.prog th'.prog) := by
    intro u tu tu' hu hh
    by_cases hut : t = u
    · subst hut
      rw [ht] at hu; cases hu
      exact ⟨tu', by simp [(List.getElem?_eq_some_iff.mp ht).1], hh⟩
    · exact ⟨th, by rw [List.getElem?_set_ne (Ne.symm hut)]; exact ht, .inl ⟨rfl, .same⟩⟩
  cases e with
  | inside _ _ _ => exact ⟨th, ht, .inl ⟨rfl, .same⟩⟩
  | look hu _ hl => exact keep hu (.inr (look_next hl).1)
  | call hu _ _ _ _ => exact keep hu (.inl ⟨rfl, fun _ => rfl, fun _ h => nomatch h⟩)
  | ret hu _ e _ => exact keep hu (.inr (by rw [e]; exact .intern))
  | clone hu _ e _ _ => exact keep hu (.inr (by rw [e]; exact .clone))
  | drop hu _ e _ _ => exact keep hu (.inr (by rw [e]; exact .drop))
  | dropped hu hd _ => exact keep hu (.inl ⟨rfl, fun h => by rw [hd] at h; (exact nomatch h), fun _ h => nomatch h⟩)

/-- What a thread does in its own code is a step of the program. -/
theorem Moves.step {w w' : World I R} {t : Nat} (e : Moves M w t w') : WStep M w w' := by
  cases e with
  | look h1 h2 h3 => exact .look h1 h2 h3
  | call h1 h2 h3 h4 h5 => exact .call h1 h2 h3 h4 h5
  | clone h1 h2 h3 h4 h5 => exact .clone h1 h2 h3 h4 h5
  | drop h1 h2 h3 h4 h5 => exact .drop h1 h2 h3 h4 h5
  | dropped h1 h2 h3 => exact .dropped h1 h2 h3

theorem moves_thread {w w' : World I R} {t : Nat} (e : Moves M w t w') {th : Thread V R P} (ht : w.conf.threads[t]? = some th) :
    ∃ th', w'.conf.threads[t]? = some th' ∧ (Next th.prog th'.prog ∨ th'.phase = .interning ∨ (th.phase = .dropping ∧ th'.phase = .own)) := by
  have hlt := (List.getElem?_eq_some_iff.mp ht).1
  have put : ∀ {tu : Thread V R P}, (w.conf.threads.set t tu)[t]? = some tu := by simp [hlt]
  cases e with
  | look hu _ hl => rw [ht] at hu; cases hu; exact ⟨_, put, .inl (look_next hl).1⟩
  | call hu _ _ _ _ => rw [ht] at hu; cases hu; exact ⟨_, put, .inr (.inl rfl)⟩
  | clone hu _ e _ _ => rw [ht] at hu; cases hu; exact ⟨_, put, .inl (by rw [e]; exact .clone)⟩
  | drop hu _ e _ _ => rw [ht] at hu; cases hu; exact ⟨_, put, .inl (by rw [e]; exact .drop)⟩
  | dropped hu hd _ => rw [ht] at hu; cases hu; exact ⟨_, put, .inr (.inr ⟨hd, rfl⟩)⟩

/-! ### For ever -/

theorem passes_run {ω : Nat → World I R} (hp : Passes M ω) : ∀ i, WRun M (ω 0) (ω i)
  | 0 => .refl
  | i + 1 => by
    rcases hp i with h | h
    · rw [h]; exact passes_run hp i
    · exact .step (passes_run hp i) h

variable {ω : Nat → World I R} {ps : List (Prog V R)} {n : Nat}

theorem passes_thread (hp : Passes M ω) {t i : Nat} {th : Thread V R P} (ht : (ω i).conf.threads[t]? = some th) :
    ∃ th', (ω (i + 1)).conf.threads[t]? = some th' ∧ ((th'.prog = th.prog ∧ Phases th.phase th'.phase) ∨ Next th.prog th'.prog) := by
  rcases hp i with h | h
  · exact ⟨th, by rw [h]; exact ht, .inl ⟨rfl, .same⟩⟩
  · exact step_thread h ht

theorem passes_length (hp : Passes M ω) : ∀ i, (ω i).conf.threads.length = (ω 0).conf.threads.length
  | 0 => rfl
  | i + 1 => by
    rw [← passes_length hp i]
    rcases hp i with h | h
    · rw [h]
    · generalize ω (i + 1) = w at h
      cases h <;> simp

/-- A thread stops somewhere: code is finite. -/
theorem thread_stops (hp : Passes M ω) {t i : Nat} {th : Thread V R P} (ht : (ω i).conf.threads[t]? = some th) :
    ∃ j g, i ≤ j ∧ ∀ i', j ≤ i' → ∃ th', (ω i').conf.threads[t]? = some th' ∧ th'.prog = g := by
  have key : ∀ g : Prog V R, Acc (fun a b => Next b a) g → ∀ (i : Nat) (th : Thread V R P), (ω i).conf.threads[t]? = some th → th.prog = g →
      ∃ j g, i ≤ j ∧ ∀ i', j ≤ i' → ∃ th', (ω i').conf.threads[t]? = some th' ∧ th'.prog = g := by
    intro g h
    induction h with
    | intro g _ ih =>
      intro i th ht hg
      by_cases hn : ∃ j th', i ≤ j ∧ (ω j).conf.threads[t]? = some th' ∧ Next g th'.prog
      · obtain ⟨j, th', h1, h2, h3⟩ := hn
        obtain ⟨j', g', h4, h5⟩ := ih _ h3 j th' h2 rfl
        exact ⟨j', g', by omega, h5⟩
      · have stay : ∀ m, ∃ th', (ω (i + m)).conf.threads[t]? = some th' ∧ th'.prog = g := by
          intro m
          induction m with
          | zero => exact ⟨th, ht, hg⟩
          | succ m ih =>
            obtain ⟨th', h1, h2⟩ := ih
            obtain ⟨th'', h3, h4 | h4⟩ := passes_thread hp h1
            · exact ⟨th'', h3, h4.1.trans h2⟩
            · exact (hn ⟨i + m + 1, th'', by omega, h3, by rw [← h2]; exact h4⟩).elim
        refine ⟨i, g, Nat.le_refl _, fun i' hi' => ?_⟩
        have := stay (i' - i)
        rwa [Nat.add_sub_cancel' hi'] at this
  exact key _ (next_acc _) i th ht rfl

/-- So all threads stop. -/
theorem threads_stop (hp : Passes M ω) : ∃ j, ∀ t i i', j ≤ i → j ≤ i' → t < (ω 0).conf.threads.length →
    ∃ th th', (ω i).conf.threads[t]? = some th ∧ (ω i').conf.threads[t]? = some th' ∧ th.prog = th'.prog := by
  have key : ∀ m, m ≤ (ω 0).conf.threads.length → ∃ j, ∀ t i i', j ≤ i → j ≤ i' → t < m →
      ∃ th th', (ω i).conf.threads[t]? = some th ∧ (ω i').conf.threads[t]? = some th' ∧ th.prog = th'.prog := by
    intro m
    induction m with
    | zero => exact fun _ => ⟨0, fun _ _ _ _ _ h => absurd h (Nat.not_lt_zero _)⟩
    | succ m ih =>
      intro hm
      obtain ⟨j, h1⟩ := ih (by omega)
      obtain ⟨j', g, _, h2⟩ := thread_stops hp (t := m) (i := 0) (List.getElem?_eq_getElem (by omega))
      refine ⟨max j j', fun t i i' hi hi' ht => ?_⟩
      by_cases h : t = m
      · subst h
        obtain ⟨th, h3, h4⟩ := h2 i (by omega)
        obtain ⟨th', h5, h6⟩ := h2 i' (by omega)
        exact ⟨th, th', h3, h5, h4.trans h6.symm⟩
      · exact h1 t i i' (by omega) (by omega) (by omega)
  exact key _ (Nat.le_refl _)

variable [BEq V]

omit [DecidableEq P] in
/-- A step with values is an operation of a thread, and of no other. -/
theorem vstep_next {c c' : Conf V R V} (h : VStep M c c') : ∃ (t : Nat) (th th' : Thread V R V), c.threads[t]? = some th ∧
    c'.threads = c.threads.set t th' ∧ Next th.prog th'.prog := by
  cases h with
  | look ht hl => exact ⟨_, _, _, ht, rfl, (look_next hl).1⟩
  | intern ht e => exact ⟨_, _, _, ht, rfl, by rw [e]; exact .intern⟩
  | clone ht e _ => exact ⟨_, _, _, ht, rfl, by rw [e]; exact .clone⟩
  | drop ht e _ => exact ⟨_, _, _, ht, rfl, by rw [e]; exact .drop⟩

omit [DecidableEq P] in
theorem vrun_later {c c' : Conf V R V} (h : VRun M c c') {t : Nat} {th : Thread V R V} (ht : c.threads[t]? = some th) :
    ∃ th', c'.threads[t]? = some th' ∧ Later th.prog th'.prog := by
  induction h with
  | refl => exact ⟨th, ht, .refl⟩
  | step _ e ih =>
    obtain ⟨th', h1, h2⟩ := ih
    obtain ⟨u, a, b, h3, h4, h5⟩ := vstep_next e
    by_cases hut : t = u
    · subst hut
      rw [h1] at h3; cases h3
      exact ⟨b, by rw [h4]; simp [(List.getElem?_eq_some_iff.mp h1).1], .step h2 h5⟩
    · exact ⟨th', by rw [h4, List.getElem?_set_ne (Ne.symm hut)]; exact h1, h2⟩

omit [DecidableEq P] in
theorem vrun_back {c c' : Conf V R V} (h : VRun M c c') {t : Nat} {th' : Thread V R V} (ht : c'.threads[t]? = some th') :
    ∃ th, c.threads[t]? = some th ∧ Later th.prog th'.prog := by
  have hlen : c'.threads.length = c.threads.length := by
    clear ht
    induction h with
    | refl => rfl
    | step _ e ih =>
      obtain ⟨_, _, _, _, h4, _⟩ := vstep_next e
      rw [h4, List.length_set, ih]
  have hlt := (List.getElem?_eq_some_iff.mp ht).1
  obtain ⟨a, h1, h2⟩ := vrun_later h (List.getElem?_eq_getElem (hlen ▸ hlt))
  rw [ht] at h1; cases h1
  exact ⟨_, List.getElem?_eq_getElem (hlen ▸ hlt), h2⟩

omit [DecidableEq P] in
/-- If all threads are at the same operations as before, nothing has happened. -/
theorem vrun_still {c c' : Conf V R V} (h : VRun M c c')
    (hs : ∀ (t : Nat) (th th' : Thread V R V), c.threads[t]? = some th → c'.threads[t]? = some th' → th.prog = th'.prog) : c' = c := by
  cases h with
  | refl => rfl
  | step h e =>
    obtain ⟨t, a, b, h3, h4, h5⟩ := vstep_next e
    obtain ⟨th, h6, h7⟩ := vrun_back h h3
    have := hs t th b h6 (by rw [h4]; simp [(List.getElem?_eq_some_iff.mp h3).1])
    rw [← this] at h5
    exact (next_once h5 h7).elim

variable {running : I.State → Tid → V → Prop}

/-- What a thread can do with values, it can do with handles, if it is not in a call. -/
theorem able_moves {ok : V → Prop} (A : CanCall I ok) {c c' : Conf V R V} (ho : ∀ (t : Nat) (vt : Thread V R V), c.threads[t]? = some vt → vt.prog.Only ok)
    (e : VStep M c c') :
    ∃ t, ∀ w : World I R, Inv running w c → ∃ th, w.conf.threads[t]? = some th ∧ (th.phase = .own → ∃ w', Moves M w t w') := by
  cases e with
  | @look t vt vt' vqs hvt hl =>
    refine ⟨t, fun w h => ?_⟩
    obtain ⟨th, ht, hs⟩ := h.same.threads.back hvt
    refine ⟨th, ht, fun hb => ?_⟩
    cases hl with
    | @eq i j k x y b e hi hj _ =>
      obtain ⟨p, h1, _⟩ := stands_back hs.locals hi
      obtain ⟨q, h3, _⟩ := stands_back hs.locals hj
      exact ⟨_, .look ht hb (.eq (hs.prog.trans e) h1 h3 rfl)⟩
    | @cmp i j k x y b e hi hj _ =>
      obtain ⟨p, h1, x', h2, _⟩ := stands_back hs.locals hi
      obtain ⟨q, h3, y', h4, _⟩ := stands_back hs.locals hj
      exact ⟨_, .look ht hb (.cmp (hs.prog.trans e) h1 h3
        (show Traits.cmp (I.deref w.state) M p q = some (M.cmp x' y') by simp only [Traits.cmp, Traits.both, h2, h4]))⟩
    | @read i k x y e hi _ =>
      obtain ⟨p, h1, x', h2, _⟩ := stands_back hs.locals hi
      exact ⟨_, .look ht hb (.read (x := x') (hs.prog.trans e) h1 h2)⟩
    | @give q i k x l e hi hq =>
      obtain ⟨p, h1, _⟩ := stands_back hs.locals hi
      obtain ⟨l', h3, _⟩ := h.same.queues.back hq
      exact ⟨_, .look ht hb (.give (hs.prog.trans e) h1 h3)⟩
    | @take q k x l e hq =>
      obtain ⟨l', h3, h4⟩ := h.same.queues.back hq
      cases h4 with
      | @cons p _ _ _ h5 h6 => exact ⟨_, .look ht hb (.take (hs.prog.trans e) h3)⟩
  | @intern t vt v k hvt hg =>
    refine ⟨t, fun w h => ?_⟩
    obtain ⟨th, ht, hs⟩ := h.same.threads.back hvt
    refine ⟨th, ht, fun hb => ?_⟩
    have hv : ok v := by
      have := ho t vt hvt
      rw [hg] at this
      cases this with | intern h _ => exact h
    obtain ⟨s', h1, h2⟩ := A.call hv (h.own t th ht hb) h.owns
    exact ⟨_, .call ht hb (hs.prog.trans hg) h1 h2⟩
  | @clone t vt i x k hvt hg hi =>
    refine ⟨t, fun w h => ?_⟩
    obtain ⟨th, ht, hs⟩ := h.same.threads.back hvt
    refine ⟨th, ht, fun hb => ?_⟩
    obtain ⟨p, h1, _⟩ := stands_back hs.locals hi
    obtain ⟨s', h2⟩ := A.clone (p := p) (h.own t th ht hb)
    exact ⟨_, .clone ht hb (hs.prog.trans hg) h1 h2⟩
  | @drop t vt i x k hvt hg hi =>
    refine ⟨t, fun w h => ?_⟩
    obtain ⟨th, ht, hs⟩ := h.same.threads.back hvt
    refine ⟨th, ht, fun hb => ?_⟩
    obtain ⟨p, h1, _⟩ := stands_back hs.locals hi
    obtain ⟨s', h2⟩ := A.drop (p := p) (h.own t th ht hb)
    exact ⟨_, .drop ht hb (hs.prog.trans hg) h1 h2⟩

/-- The program stops, and it stops where the program with values can stop. -/
theorem settles [EquivBEq V] (L : Laws I running) (hM : M.Lawful) {ok : V → Prop} (A : CanCall I ok) (ho : ∀ g ∈ ps, g.Only ok) (h : Starts ps n (ω 0)) (hp : Passes M ω)
    (ha : Attentive M ω) (hi : ∀ t, t < ps.length → ∀ i, ∃ j, i ≤ j ∧ I.idle (ω j).state t) :
    ∃ j c, VRun M (start ps n) c ∧ (∀ c', ¬ VStep M c c') ∧ ∀ i, j ≤ i → Same (ω i) c := by
  obtain ⟨j, hj⟩ := threads_stop hp
  obtain ⟨c, hc, hinv⟩ := inv_run L hM h (passes_run hp j)
  have still : ∀ {t i i' : Nat} {th th' : Thread V R P}, j ≤ i → j ≤ i' → (ω i).conf.threads[t]? = some th →
      (ω i').conf.threads[t]? = some th' → th.prog = th'.prog := by
    intro t i i' th th' h1 h2 h3 h4
    have hlt := (List.getElem?_eq_some_iff.mp h3).1
    rw [passes_length hp] at hlt
    obtain ⟨a, b, h5, h6, h7⟩ := hj t i i' h1 h2 hlt
    rw [h3] at h5; cases h5
    rw [h4] at h6; cases h6
    exact h7
  have all : ∀ i, j ≤ i → Inv running (ω i) c := by
    intro i hji
    obtain ⟨m, rfl⟩ : ∃ m, i = j + m := ⟨i - j, by omega⟩
    clear hji
    induction m with
    | zero => exact hinv
    | succ m ih =>
      rcases hp (j + m) with h1 | h1
      · rw [show j + (m + 1) = j + m + 1 from rfl, h1]; exact ih
      · obtain ⟨c', h2, h3⟩ := inv_step L hM ih h1
        have : c' = c := vrun_still h2 fun t vt vt' h4 h5 => by
          obtain ⟨th, h7, h8⟩ := ih.same.threads.back h4
          obtain ⟨th', h9, h10⟩ := h3.same.threads.back h5
          rw [← h8.prog, ← h10.prog, still (by omega) (by omega) h7 h9]
        subst this
        exact h3
  refine ⟨j, c, hc, fun c' e => ?_, fun i hi => (all i hi).same⟩
  obtain ⟨t, able⟩ := able_moves (running := running) A (fun t vt hvt => by
    obtain ⟨a, h1, h2⟩ := vrun_back hc hvt
    simp only [start, List.getElem?_map, Option.map_eq_some_iff] at h1
    obtain ⟨g, h3, rfl⟩ := h1
    exact h2.only (ho g (List.mem_of_getElem? h3))) e
  have htl : t < (ω 0).conf.threads.length := by
    obtain ⟨th, h1, _⟩ := able _ (all j (Nat.le_refl _))
    have := (List.getElem?_eq_some_iff.mp h1).1
    rwa [passes_length hp] at this
  have idles : ∀ i, ∃ j, i ≤ j ∧ I.idle (ω j).state t := hi t (by rw [h.conf] at htl; simpa [start] using htl)
  have get : ∀ i, ∃ th, (ω i).conf.threads[t]? = some th := fun i => ⟨_, List.getElem?_eq_getElem (by rw [passes_length hp]; exact htl)⟩
  -- the thread stays at its operation
  have next : ∀ {i : Nat} {th : Thread V R P}, j ≤ i → (ω i).conf.threads[t]? = some th →
      ∃ th', (ω (i + 1)).conf.threads[t]? = some th' ∧ Phases th.phase th'.phase := by
    intro i th h1 h2
    obtain ⟨th', h3, h4 | h4⟩ := passes_thread hp h2
    · exact ⟨th', h3, h4.2⟩
    · rw [still (by omega) (by omega) h2 h3] at h4
      exact (next_irrefl h4).elim
  -- it is not in a call of `new`
  have calm : ∀ {i : Nat} {th : Thread V R P}, j ≤ i → (ω i).conf.threads[t]? = some th → th.phase ≠ .interning := by
    intro i th h1 h2 h3
    have busy : ∀ m, ∃ th', (ω (i + m)).conf.threads[t]? = some th' ∧ th'.phase = .interning := by
      intro m
      induction m with
      | zero => exact ⟨th, h2, h3⟩
      | succ m ih =>
        obtain ⟨th', h4, h5⟩ := ih
        obtain ⟨th'', h6, h7⟩ := next (by omega) h4
        exact ⟨th'', h6, h7.1 h5⟩
    obtain ⟨i', h4, h5⟩ := idles i
    obtain ⟨th', h6, h7⟩ := busy (i' - i)
    rw [Nat.add_sub_cancel' h4] at h6
    exact ((all i' (by omega)).calling t th' h6 h7).1 h5
  -- so a move of it ends a drop
  have move : ∀ {i : Nat}, j ≤ i → Moves M (ω i) t (ω (i + 1)) → ∃ th th', (ω i).conf.threads[t]? = some th ∧ th.phase = .dropping ∧
      (ω (i + 1)).conf.threads[t]? = some th' ∧ th'.phase = .own := by
    intro i h1 h2
    obtain ⟨th, h3⟩ := get i
    obtain ⟨th', h4, h5 | h5 | h5⟩ := moves_thread h2 h3
    · rw [still (by omega) (by omega) h3 h4] at h5
      exact (next_irrefl h5).elim
    · exact (calm (by omega) h4 h5).elim
    · exact ⟨th, th', h3, h5.1, h4, h5.2⟩
  -- once it is in its own code, it stays there
  have own : ∀ {i : Nat} {th : Thread V R P}, j ≤ i → (ω i).conf.threads[t]? = some th → th.phase ≠ .own := by
    intro i th h1 h2 h3
    have stay : ∀ m, ∃ th', (ω (i + m)).conf.threads[t]? = some th' ∧ th'.phase = .own := by
      intro m
      induction m with
      | zero => exact ⟨th, h2, h3⟩
      | succ m ih =>
        obtain ⟨th', h4, h5⟩ := ih
        obtain ⟨th'', h6, h7⟩ := next (by omega) h4
        refine ⟨th'', h6, ?_⟩
        have h8 := h7.2 h5
        have h9 := calm (by omega) h6
        cases hx : th''.phase with
        | own => rfl
        | interning => exact (h9 hx).elim
        | dropping => exact (h8 hx).elim
    obtain ⟨i', h4, h5⟩ := ha t i fun a hia => by
      obtain ⟨th', h6, h7⟩ := stay (a - i)
      rw [Nat.add_sub_cancel' hia] at h6
      obtain ⟨th'', h8, h9⟩ := able _ (all a (by omega))
      rw [h6] at h8; cases h8
      exact ⟨a, Nat.le_refl _, h9 h7⟩
    obtain ⟨a, _, h6, h7, _, _⟩ := move (by omega) h5
    obtain ⟨b, h8, h9⟩ := stay (i' - i)
    rw [Nat.add_sub_cancel' h4, h6] at h8; cases h8
    rw [h7] at h9; cases h9
  -- and it comes there
  obtain ⟨i, h1, h2⟩ := ha t j fun a hja => by
    obtain ⟨b, h3, h4⟩ := idles a
    obtain ⟨th, h5⟩ := get b
    refine ⟨b, h3, ?_⟩
    cases hx : th.phase with
    | own => exact (own (by omega) h5 hx).elim
    | interning => exact (calm (by omega) h5 hx).elim
    | dropping => exact ⟨_, .dropped h5 hx h4⟩
  obtain ⟨_, th', _, _, h3, h4⟩ := move h1 h2
  exact own (by omega) h3 h4

/-- A thread on its own that has a result can go on with values until it has it. -/
theorem alone_steps {c : Conf V R V} {t : Nat} {vt : Thread V R V} (hv : c.threads[t]? = some vt) (ha : vt.prog.Alone) {r : R}
    (he : vt.prog.eval M vt.locals = some r) (hs : ∀ c', ¬ VStep M c c') [EquivBEq V] : vt.prog = .done r := by
  generalize hg : vt.prog = g at ha he
  cases ha with
  | done r' => simp only [Prog.eval, Option.some.injEq] at he; rw [he]
  | intern _ => exact (hs _ (.intern hv hg)).elim
  | clone _ =>
    simp only [Prog.eval] at he
    split at he
    · rename_i x hx
      exact (hs _ (.clone hv hg hx)).elim
    · cases he
  | drop _ =>
    simp only [Prog.eval] at he
    split at he
    · rename_i x hx
      exact (hs _ (.drop hv hg hx)).elim
    · cases he
  | eq _ =>
    simp only [Prog.eval] at he
    split at he
    · rename_i x y hx hy
      exact (hs _ (.look hv (.eq hg hx hy rfl))).elim
    · cases he
  | cmp _ =>
    simp only [Prog.eval] at he
    split at he
    · rename_i x y hx hy
      exact (hs _ (.look hv (.cmp hg hx hy rfl))).elim
    · cases he
  | read _ _ =>
    simp only [Prog.eval] at he
    split at he
    · rename_i x hx
      exact (hs _ (.look hv (.read (x := x) hg hx (show (x == x) = true from BEq.rfl)))).elim
    · cases he

/-- A thread comes to its end. -/
theorem comes_to_end [EquivBEq V] (L : Laws I running) (hM : M.Lawful) {ok : V → Prop} (A : CanCall I ok) (ho : ∀ g ∈ ps, g.Only ok) (h : Starts ps n (ω 0)) (hp : Passes M ω)
    (ha : Attentive M ω) (hi : ∀ t, t < ps.length → ∀ i, ∃ j, i ≤ j ∧ I.idle (ω j).state t) {t : Nat} {g : Prog V R}
    (hg : ps[t]? = some g) (hal : g.Alone) {r : R} (he : g.eval M [] = some r) :
    ∃ j, ∀ i, j ≤ i → (ω i).conf.progs[t]? = some (.done r) := by
  obtain ⟨j, c, h1, h2, h3⟩ := settles L hM A ho h hp ha hi
  obtain ⟨vt, h4, h5, h6⟩ := eval_run h1 hg hal
  have h7 := alone_steps h4 h5 (h6.trans he) h2
  refine ⟨j, fun i hi => ?_⟩
  rw [← (h3 i hi).progs]
  simp [Conf.progs, h4, h7]

end

/-! ### The interners -/

section
variable {K V : Type} [DecidableEq K] [BEq V] [Hashable V] {k : K}

theorem pool_call {cfg : Pool.Cfg K V} {S : Src.PoolCode.State K V} {t : Tid} (v : V) (hi : S.threads[t]? = some []) (hk : k ∉ S.gone) :
    ∃ S', (pool cfg k).Calls S t v S' ∧ S'.gone = S.gone ∧ ∀ x, x ∈ S.hist → x ∈ S'.hist := by
  obtain ⟨f, hf⟩ : ∃ f, Src.PoolCode.start cfg (.intern k (.ofVal v) v) false = some f := by
    simp only [Src.PoolCode.start]
    split <;> exact ⟨_, rfl⟩
  have hs : Src.PoolCode.step cfg S (.call t (.intern k (.ofVal v) v) false) = .ok { S with
      mem := { S.mem with born := Src.PoolCode.taken (.intern k (.ofVal v) v) false ++ S.mem.born }
      threads := S.threads.set t ({ id := S.next, call := .op (.intern k (.ofVal v) v) false, frame := f } :: [])
      next := S.next + 1
      hist := .call S.next (.intern k (.ofVal v) v) :: S.hist } := by
    simp only [Src.PoolCode.step, hi, hf]
    rw [if_pos]
    simp [Src.PoolCode.canCall, Pool.Op.pool, hk]
  exact ⟨_, ⟨hi, .ofVal v, false, Pool.lawful_new k v, hs⟩, rfl, fun x hx => List.mem_cons_of_mem _ hx⟩

theorem new_call {cfg : Src.NewCode.Cfg K V} {S : Src.NewCode.State K V} {t : Tid} (v : V) (hi : S.threads[t]? = some []) :
    ∃ S', (newIntern cfg k).Calls S t v S' ∧ ∀ x, x ∈ S.hist → x ∈ S'.hist := by
  obtain ⟨f, hf⟩ : ∃ f, Src.NewCode.start cfg (.intern k (.ofVal v) v) false = some f := ⟨_, rfl⟩
  have hs : Src.NewCode.step cfg S (.call t (.intern k (.ofVal v) v) false false) = .ok { S with
      mem := { S.mem with born := Src.NewCode.taken (.intern k (.ofVal v) v) false ++ S.mem.born }
      threads := S.threads.set t ({ id := S.next, op := .intern k (.ofVal v) v, byRef := false, unw := false, frame := f } :: [])
      next := S.next + 1
      hist := .call S.next (.intern k (.ofVal v) v) :: S.hist } := by
    simp only [Src.NewCode.step, hi, hf]
    rw [if_pos (show Src.NewCode.canCall cfg ([] : List (Src.NewCode.Running K V)) = true from rfl)]
  exact ⟨_, ⟨hi, .ofVal v, false, false, Pool.lawful_new k v, hs⟩, fun x hx => List.mem_cons_of_mem _ hx⟩

theorem pool_can {cfg : Pool.Cfg K V} : CanCall (pool cfg k) (fun _ => True) where
  call := by
    intro n S t v _ hi ho
    obtain ⟨S', h1, h2, h3⟩ := pool_call (cfg := cfg) (k := k) v hi ho.1
    exact ⟨S', h1, by rw [h2]; exact ho.1, fun p hp => let ⟨j, q, v, h⟩ := ho.2 p hp; ⟨j, q, v, h3 _ h⟩⟩
  clone hi := ⟨_, hi, rfl⟩
  drop hi := ⟨_, hi, rfl⟩

theorem new_can {cfg : Src.NewCode.Cfg K V} : CanCall (newIntern cfg k) (fun _ => True) where
  call := by
    intro n S t v _ hi ho
    obtain ⟨S', h1, h3⟩ := new_call (cfg := cfg) (k := k) v hi
    exact ⟨S', h1, fun p hp => let ⟨j, q, v, h⟩ := ho p hp; ⟨j, q, v, h3 _ h⟩⟩
  clone hi := ⟨_, hi, rfl⟩
  drop hi := ⟨_, hi, rfl⟩

theorem pools_can {cfg : Pool.Cfg K V} {ks : K → Prop} : CanCall (pools cfg ks) (fun x => ks x.1) where
  call := by
    intro n S t v hv hi ho
    obtain ⟨S', h1, h2, h3⟩ := pool_call (cfg := cfg) (k := v.1) v.2 hi (ho.1 _ hv)
    exact ⟨S', ⟨hv, h1⟩, by rw [h2]; exact ho.1, fun p hp => let ⟨j, q, v, h⟩ := (ho.2 p hp).2; ⟨(ho.2 p hp).1, j, q, v, h3 _ h⟩⟩
  clone hi := ⟨_, hi, rfl⟩
  drop hi := ⟨_, hi, rfl⟩

theorem newInterns_can {cfg : Src.NewCode.Cfg K V} : CanCall (newInterns cfg) (fun _ => True) where
  call := by
    intro n S t v _ hi ho
    obtain ⟨S', h1, h3⟩ := new_call (cfg := cfg) (k := v.1) v.2 hi
    exact ⟨S', h1, fun p hp => let ⟨j, q, v, h⟩ := ho p hp; ⟨j, q, v, h3 _ h⟩⟩
  clone hi := ⟨_, hi, rfl⟩
  drop hi := ⟨_, hi, rfl⟩

/-- Threads stay. -/
theorem pool_thread {cfg : Pool.Cfg K V} {σ : Nat → Src.PoolCode.State K V} {α : Nat → Option (Src.PoolCode.Act K V)}
    (hx : Src.PoolCode.Execution cfg σ α) {t s : Nat} (h0 : (σ s).threads[t]? = some []) : ∀ m, ∃ cs, (σ (s + m)).threads[t]? = some cs
  | 0 => ⟨_, h0⟩
  | m + 1 => by
    obtain ⟨cs, h1⟩ := pool_thread hx h0 m
    have h2 := hx.2 (s + m)
    cases ha : α (s + m) with
    | none => rw [ha] at h2; exact ⟨cs, by rw [show s + (m + 1) = s + m + 1 from rfl, h2]; exact h1⟩
    | some a =>
      rw [ha] at h2
      obtain ⟨cs', h3, _⟩ := pool_shape h2.2 h1
      exact ⟨cs', h3⟩

theorem new_thread {cfg : Src.NewCode.Cfg K V} {σ : Nat → Src.NewCode.State K V} {α : Nat → Option (Src.NewCode.Act K V)}
    (hx : Src.NewCode.Execution cfg σ α) {t s : Nat} (h0 : (σ s).threads[t]? = some []) : ∀ m, ∃ cs, (σ (s + m)).threads[t]? = some cs
  | 0 => ⟨_, h0⟩
  | m + 1 => by
    obtain ⟨cs, h1⟩ := new_thread hx h0 m
    have h2 := hx.2 (s + m)
    cases ha : α (s + m) with
    | none => rw [ha] at h2; exact ⟨cs, by rw [show s + (m + 1) = s + m + 1 from rfl, h2]; exact h1⟩
    | some a =>
      rw [ha] at h2
      obtain ⟨cs', h3, _⟩ := new_shape h2.2 h1
      exact ⟨cs', h3⟩

end
end Client
