import Verif.Client.Able
/-
A thread that works alone can always be executed to its result (C92).
-/
namespace Client
open Traits (Methods)

/-- The thread creates at most `n` values, by interning or cloning. -/
inductive Prog.Makes {V R : Type} : Nat → Prog V R → Prop
  | done {n : Nat} (r : R) : Makes n (.done r)
  | intern {n : Nat} {v : V} {k : Prog V R} : Makes n k → Makes (n + 1) (.intern v k)
  | clone {n i : Nat} {k : Prog V R} : Makes n k → Makes (n + 1) (.clone i k)
  | drop {n i : Nat} {k : Prog V R} : Makes n k → Makes n (.drop i k)
  | eq {n i j : Nat} {k : Bool → Prog V R} : (∀ b, Makes n (k b)) → Makes n (.eq i j k)
  | cmp {n i j : Nat} {k : Ordering → Prog V R} : (∀ o, Makes n (k o)) → Makes n (.cmp i j k)
  | read {n i : Nat} {k : V → Prog V R} : (∀ x, Makes n (k x)) → Makes n (.read i k)
  | give {n q i : Nat} {k : Prog V R} : Makes n k → Makes n (.give q i k)
  | take {n q : Nat} {k : Prog V R} : Makes n k → Makes n (.take q k)

variable {V R : Type}

theorem flat_set {α β : Type} (f : α → List β) : ∀ {l : List α} {t : Nat} {a : α} (b : α), l[t]? = some a →
    ((l.set t b).flatMap f).length + (f a).length = (l.flatMap f).length + (f b).length
  | [], _, _, _, h => by cases h
  | c :: l, 0, a, b, h => by
    cases h
    simp only [List.set_cons_zero, List.flatMap_cons, List.length_append]
    omega
  | c :: l, t + 1, a, b, h => by
    have := flat_set f (l := l) b h
    simp only [List.set_cons_succ, List.flatMap_cons, List.length_append]
    omega

theorem owned_set {c : Conf V R V} {t : Nat} {th th' : Thread V R V} (h : c.threads[t]? = some th) :
    ({ c with threads := c.threads.set t th' } : Conf V R V).owned.length + (th.locals.filterMap id).length =
      c.owned.length + (th'.locals.filterMap id).length := by
  have := flat_set (fun th : Thread V R V => th.locals.filterMap id) th' h
  simp only [Conf.owned, List.length_append]
  omega

theorem owned_none : ∀ (l : List (Option V)) (i : Nat), ((l.set i none).filterMap id).length ≤ (l.filterMap id).length
  | [], _ => Nat.le_refl _
  | none :: l, 0 => Nat.le_refl _
  | some x :: l, 0 => by simp
  | none :: l, i + 1 => by simpa using owned_none l i
  | some x :: l, i + 1 => by simpa using owned_none l i

variable [BEq V] {M : Methods V}

theorem VRunUpTo.trans {N : Nat} {c c' c'' : Conf V R V} (h : VRunUpTo M N c c') (h' : VRunUpTo M N c' c'') : VRunUpTo M N c c'' := by
  induction h' with
  | refl => exact h
  | step _ e hl ih => exact .step ih e hl

/-- The result that a thread has if it works alone can be reached. -/
theorem eval_reached [ReflBEq V] {N t : Nat} {r : R} : ∀ (g : Prog V R) {n : Nat} {c : Conf V R V} {l : List (Option V)},
    c.threads[t]? = some ⟨g, l, .own⟩ → g.Makes n → g.eval M l = some r → c.owned.length + n ≤ N →
    ∃ c', VRunUpTo M N c c' ∧ c'.progs[t]? = some (.done r) := by
  have go : ∀ {n n' : Nat} {c : Conf V R V} {th : Thread V R V} (g : Prog V R) (l : List (Option V)), c.threads[t]? = some th →
      VStep M c { c with threads := c.threads.set t ⟨g, l, .own⟩ } → (l.filterMap id).length + n' ≤ (th.locals.filterMap id).length + n →
      c.owned.length + n ≤ N →
      (∀ {c : Conf V R V}, c.threads[t]? = some ⟨g, l, .own⟩ → c.owned.length + n' ≤ N → ∃ c', VRunUpTo M N c c' ∧ c'.progs[t]? = some (.done r)) →
      ∃ c', VRunUpTo M N c c' ∧ c'.progs[t]? = some (.done r) := by
    intro n n' c th g l ht e hl hN ih
    have ho := owned_set (th' := ⟨g, l, .own⟩) ht
    have ho : _ = c.owned.length + (l.filterMap id).length := ho
    obtain ⟨c', h1, h2⟩ := ih (c := { c with threads := c.threads.set t ⟨g, l, .own⟩ })
      (List.getElem?_set_self (List.getElem?_eq_some_iff.mp ht).1) (by omega)
    exact ⟨c', VRunUpTo.trans (.step .refl e (by omega)) h1, h2⟩
  intro g
  induction g with
  | done r' =>
    intro n c l ht _ he _
    have he : r' = r := by simpa [Prog.eval] using he
    subst he
    exact ⟨c, .refl, by simp [Conf.progs, ht]⟩
  | intern v k ih =>
    intro n c l ht hm he hN
    cases hm with
    | intern hm => exact go k (l ++ [some v]) ht (.intern ht rfl) (by simp; omega) hN fun h1 h2 => ih h1 hm he h2
  | clone i k ih =>
    intro n c l ht hm he hN
    cases hm with
    | clone hm =>
      simp only [Prog.eval] at he
      split at he
      · next x hx => exact go k (l ++ [some x]) ht (.clone ht rfl hx) (by simp; omega) hN fun h1 h2 => ih h1 hm he h2
      · cases he
  | drop i k ih =>
    intro n c l ht hm he hN
    cases hm with
    | drop hm =>
      simp only [Prog.eval] at he
      split at he
      · next x hx => exact go k (l.set i none) ht (.drop ht rfl hx) (Nat.add_le_add_right (owned_none l i) n) hN fun h1 h2 => ih h1 hm he h2
      · cases he
  | eq i j k ih =>
    intro n c l ht hm he hN
    cases hm with
    | eq hm =>
      simp only [Prog.eval] at he
      split at he
      · next x y hx hy => exact go _ l ht (.look ht (.eq rfl hx hy rfl)) (Nat.le_refl _) hN fun h1 h2 => ih _ h1 (hm _) he h2
      · cases he
  | cmp i j k ih =>
    intro n c l ht hm he hN
    cases hm with
    | cmp hm =>
      simp only [Prog.eval] at he
      split at he
      · next x y hx hy => exact go _ l ht (.look ht (.cmp rfl hx hy rfl)) (Nat.le_refl _) hN fun h1 h2 => ih _ h1 (hm _) he h2
      · cases he
  | read i k ih =>
    intro n c l ht hm he hN
    cases hm with
    | read hm =>
      simp only [Prog.eval] at he
      split at he
      · next x hx => exact go (k x) l ht (.look ht (.read rfl hx (BEq.rfl (a := x)))) (Nat.le_refl _) hN fun h1 h2 => ih _ h1 (hm _) he h2
      · cases he
  | give q i k _ => intro n c l _ _ he _; cases he
  | take q k _ => intro n c l _ _ he _; cases he

theorem eval_start [ReflBEq V] {ps : List (Prog V R)} {m N t : Nat} {g : Prog V R} {r : R} (hg : ps[t]? = some g) (hm : g.Makes N)
    (he : g.eval M [] = some r) : ∃ c, VRunUpTo M N (start ps m) c ∧ c.progs[t]? = some (.done r) := by
  refine eval_reached g (n := N) (l := []) ?_ hm he ?_
  · simp [start, hg]
  · have h1 : ∀ ps : List (Prog V R), ((ps.map fun p => ({ prog := p, locals := [], phase := .own } : Thread V R V)).flatMap
        fun th => th.locals.filterMap id) = [] := by
      intro ps; induction ps with
      | nil => rfl
      | cons _ _ ih => rw [List.map_cons, List.flatMap_cons, ih]; rfl
    have h2 : (List.replicate m ([] : List V)).flatten = [] := by simp
    simp only [Conf.owned, start, h1, h2]
    simp

end Client
