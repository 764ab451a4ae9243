import Verif.Client.Sim
/-
The converse of C90 and C91 (C92): whatever a program can do with values, it can also do with handles. Executions with values in which the
program never owns more than `N` values at a time, and what the proofs use of an interner.
-/
namespace Client
open Traits (Methods)

/-- All that the program owns, in variables and queues. -/
def Conf.owned {V R H : Type} (c : Conf V R H) : List H := (c.threads.flatMap fun th => th.locals.filterMap id) ++ c.queues.flatten

/-- An execution with values, in which the program never owns more than `N` values at a time. -/
inductive VRunUpTo {V R : Type} [BEq V] (M : Methods V) (N : Nat) (c : Conf V R V) : Conf V R V → Prop
  | refl : VRunUpTo M N c c
  | step {c' c'' : Conf V R V} : VRunUpTo M N c c' → VStep M c' c'' → c''.owned.length ≤ N → VRunUpTo M N c c''

/-- All values that a thread interns are `ok`, and what it does with a value that it reads does not distinguish equal values (there is nothing
to distinguish if `==` is identity, as for strings and numbers). -/
inductive Prog.Plain {V R : Type} [BEq V] (ok : V → Prop) : Prog V R → Prop
  | done (r : R) : Plain ok (.done r)
  | intern {v : V} {k : Prog V R} : ok v → Plain ok k → Plain ok (.intern v k)
  | clone {i : Nat} {k : Prog V R} : Plain ok k → Plain ok (.clone i k)
  | drop {i : Nat} {k : Prog V R} : Plain ok k → Plain ok (.drop i k)
  | eq {i j : Nat} {k : Bool → Prog V R} : (∀ b, Plain ok (k b)) → Plain ok (.eq i j k)
  | cmp {i j : Nat} {k : Ordering → Prog V R} : (∀ o, Plain ok (k o)) → Plain ok (.cmp i j k)
  | read {i : Nat} {k : V → Prog V R} : (∀ x, Plain ok (k x)) → (∀ x y, (x == y) = true → k x = k y) → Plain ok (.read i k)
  | give {q i : Nat} {k : Prog V R} : Plain ok k → Plain ok (.give q i k)
  | take {q : Nat} {k : Prog V R} : Plain ok k → Plain ok (.take q k)

/-- Every execution is one of these, for some `N`. -/
theorem VRun.upTo {V R : Type} [BEq V] {M : Methods V} {c c' : Conf V R V} (h : VRun M c c') : ∃ N, VRunUpTo M N c c' := by
  have mono : ∀ {N N' : Nat} {c' : Conf V R V}, N ≤ N' → VRunUpTo M N c c' → VRunUpTo M N' c c' := by
    intro N N' c' hN h
    induction h with
    | refl => exact .refl
    | step _ e hl ih => exact .step ih e (by omega)
  induction h with
  | refl => exact ⟨0, .refl⟩
  | @step c' c'' _ e ih =>
    obtain ⟨N, h⟩ := ih
    exact ⟨max N c''.owned.length, .step (mono (Nat.le_max_left ..) h) e (Nat.le_max_right ..)⟩

/-! ### What the proofs use -/

/-- Steps during a call of thread `t`: no other thread starts or ends a call, and the program can go on owning `n`. `busy`: thread `t` does not
end its call. -/
inductive Path {V P : Type} (I : Interner V P) (t : Tid) (busy : Prop) (n : P → Nat) (s : I.State) : I.State → Prop
  | refl : Path I t busy n s s
  | step {s' s'' : I.State} : Path I t busy n s s' → I.Step s' s'' → (∀ u, u ≠ t → (I.idle s' u ↔ I.idle s'' u)) →
      (busy → ¬ I.idle s'' t) → I.Owns s'' n → Path I t busy n s s''

/-- The number of times that `p` is in a list. -/
def copies {P : Type} [DecidableEq P] (l : List P) (p : P) : Nat := l.count p

/-- Every call can be carried through. `calm l s`: the program owns the handles `l`, and nothing is in the way. -/
structure Able {V P : Type} [DecidableEq P] (I : Interner V P) (N : Nat) (ok : V → Prop) (calm : List P → I.State → Prop) : Prop where
  perm : ∀ {l l' s}, calm l s → l.Perm l' → calm l' s
  news : ∀ {l s t v}, I.Reach s → calm l s → l.length < N → ok v → I.Owns s (copies l) → I.idle s t →
    ∃ s1 s2 p s3, I.Calls s t v s1 ∧ I.Owns s1 (copies l) ∧ Path I t True (copies l) s1 s2 ∧ I.Returns s2 t p s3 ∧
      calm (p :: l) s3
  clones : ∀ {l s t p}, I.Reach s → calm l s → l.length < N → p ∈ l → I.Owns s (copies l) → I.idle s t →
    ∃ s', I.Clones s t p s' ∧ calm (p :: l) s'
  drops : ∀ {l s t p}, I.Reach s → calm (p :: l) s → I.Owns s (copies (p :: l)) → I.idle s t →
    ∃ s1 s2, I.Drops s t p s1 ∧ Path I t False (copies l) s1 s2 ∧ I.idle s2 t ∧ calm l s2

theorem Path.trans {V P : Type} {I : Interner V P} {t : Tid} {busy : Prop} {n : P → Nat} {s s' s'' : I.State} (h : Path I t busy n s s')
    (h' : Path I t busy n s' s'') : Path I t busy n s s'' := by
  induction h' with
  | refl => exact h
  | step _ e h1 h2 h3 ih => exact .step ih e h1 h2 h3

theorem Path.head {V P : Type} {I : Interner V P} {t : Tid} {busy : Prop} {n : P → Nat} {s s' s'' : I.State} (e : I.Step s s')
    (h1 : ∀ u, u ≠ t → (I.idle s u ↔ I.idle s' u)) (h2 : busy → ¬ I.idle s' t) (h3 : I.Owns s' n) (h : Path I t busy n s' s'') :
    Path I t busy n s s'' :=
  Path.trans (.step .refl e h1 h2 h3) h

section
variable {V R P : Type} [DecidableEq P]

theorem held_owned (c : Conf V R P) (p : P) : c.held p = c.owned.count p := by
  have count_filterMap : ∀ l : List (Option P), l.count (some p) = (l.filterMap id).count p := by
    intro l
    induction l with
    | nil => rfl
    | cons a l ih =>
      cases a with
      | none => simpa using ih
      | some b => simp only [List.count_cons, List.filterMap_cons, id, ih]; simp
  simp only [Conf.held, Conf.owned, List.count_append, List.count_flatMap, List.count_flatten]
  congr 1
  congr 1
  exact List.map_congr_left fun th _ => count_filterMap th.locals

theorem count_cons_if (p q : P) (l : List P) : (p :: l).count q = l.count q + if q = p then 1 else 0 := by
  rw [List.count_cons]
  by_cases h : q = p
  · subst h; simp
  · simp [h, Ne.symm h]

theorem held_eq (c : Conf V R P) : c.held = copies c.owned := funext (held_owned c)

theorem owned_perm {c : Conf V R P} {l : List P} (h : ∀ p, c.held p = l.count p) : l.Perm c.owned :=
  List.perm_iff_count.mpr fun p => by rw [← h p, held_owned]

end

section
variable {V R P : Type} [DecidableEq P] [BEq V] {I : Interner V P} {M : Methods V}

omit [DecidableEq P] in
theorem Same.owned {w : World I R} {c : Conf V R V} (h : Same w c) : w.conf.owned.length = c.owned.length := by
  have len : ∀ {α β : Type} {r : α → β → Prop} {l : List α} {m : List β}, Pairs r l m → l.length = m.length := by
    intro α β r l m h
    induction h with
    | nil => rfl
    | cons _ _ ih => simp [ih]
  have var : ∀ {l : List (Option P)} {m : List (Option V)}, Pairs (StandsVar I w.state) l m → (l.filterMap id).length = (m.filterMap id).length := by
    intro l m h
    induction h with
    | nil => rfl
    | @cons a b _ _ h1 _ ih =>
      cases a <;> cases b <;> first | exact h1.elim | simpa using ih
  have ths : ∀ {l : List (Thread V R P)} {m : List (Thread V R V)}, Pairs (SameThread I w.state) l m →
      (l.flatMap fun th => th.locals.filterMap id).length = (m.flatMap fun th => th.locals.filterMap id).length := by
    intro l m h
    induction h with
    | nil => rfl
    | cons h1 _ ih => simp only [List.flatMap_cons, List.length_append, ih, var h1.locals]
  have qs : ∀ {l : List (List P)} {m : List (List V)}, Pairs (Pairs (Stands I w.state)) l m → l.flatten.length = m.flatten.length := by
    intro l m h
    induction h with
    | nil => rfl
    | cons h1 _ ih => simp only [List.flatten_cons, List.length_append, ih, len h1]
  simp only [Conf.owned, List.length_append, ths h.threads, qs h.queues]

/-- All threads are in their own code. -/
structure Ready (running : I.State → Tid → V → Prop) (ok : V → Prop) (calm : List P → I.State → Prop) (w : World I R) (c : Conf V R V) : Prop where
  inv : Inv running w c
  own : ∀ (t : Nat) (th : Thread V R P), w.conf.threads[t]? = some th → th.phase = .own
  plain : ∀ (t : Nat) (th : Thread V R P), w.conf.threads[t]? = some th → th.prog.Plain ok
  calm : calm w.conf.owned w.state

theorem Pairs.back {α β : Type} {r : α → β → Prop} {l : List α} {m : List β} (h : Pairs r l m) : ∀ {i : Nat} {b : β}, m[i]? = some b →
    ∃ a, l[i]? = some a ∧ r a b := by
  induction h with
  | nil => intro i a e; simp at e
  | @cons a b _ _ h1 _ ih =>
    intro i a' e
    cases i with
    | zero => simp only [List.getElem?_cons_zero, Option.some.injEq] at e; subst e; exact ⟨a, by simp, h1⟩
    | succ i => simpa using ih (by simpa using e)

omit [DecidableEq P] in
theorem stands_back {s : I.State} {l : List (Option P)} {m : List (Option V)} (h : Pairs (StandsVar I s) l m) {i : Nat} {x : V}
    (hi : m[i]? = some (some x)) : ∃ p, l[i]? = some (some p) ∧ Stands I s p x := by
  obtain ⟨o, h1, h2⟩ := h.back hi
  cases o with
  | none => exact h2.elim
  | some p => exact ⟨p, h1, h2⟩

omit [BEq V] in
theorem WRun.trans' {w w' w'' : World I R} (h : WRun M w w') (h' : WRun M w' w'') : WRun M w w'' := by
  induction h' with
  | refl => exact h
  | step _ e ih => exact .step ih e

/-- The steps of a call are steps of the world. -/
theorem Path.run [EquivBEq V] {running : I.State → Tid → V → Prop} (L : Laws I running) (hM : M.Lawful) {t : Tid} {busy : Prop} {n : P → Nat}
    {s s' : I.State} {cf : Conf V R P} {th : Thread V R P} {c : Conf V R V} (ht : cf.threads[t]? = some th) (hn : n = cf.held)
    (h : Path I t busy n s s') (hi : Inv running ⟨s, cf⟩ c) (hb : busy ∧ ¬ I.idle s t ∨ th.phase = .dropping) :
    WRun M (⟨s, cf⟩ : World I R) ⟨s', cf⟩ ∧ Inv running (⟨s', cf⟩ : World I R) c ∧ (busy → ¬ I.idle s t → ¬ I.idle s' t) := by
  subst hn
  induction h with
  | refl => exact ⟨.refl, hi, fun _ h => h⟩
  | @step s1 s2 _ e h1 h2 h3 ih =>
    obtain ⟨r, i, b⟩ := ih
    have hw : WStep M (⟨s1, cf⟩ : World I R) ⟨s2, cf⟩ := by
      refine .inside (w := ⟨s1, cf⟩) e (fun u tu hu hp => ?_) h3
      by_cases hut : u = t
      · subst hut
        rw [ht] at hu; cases hu
        rcases hb with hb | hb
        · exact ⟨fun hh => (b hb.1 hb.2 hh).elim, fun hh => (h2 hb.1 hh).elim⟩
        · exact (hp hb).elim
      · exact h1 u hut
    obtain ⟨_, _, i'⟩ := inv_step L hM i hw
    exact ⟨.step r hw, { i' with same := i.same.stay fun p hp => L.stable i.reach e i.owns h3 hp }, fun hb _ => h2 hb⟩

omit [DecidableEq P] in
/-- A thread starts or ends a call. -/
theorem Same.phase {s : I.State} {cf : Conf V R P} {c : Conf V R V} (h : Same ⟨s, cf⟩ c) {t : Nat} {th : Thread V R P}
    (ht : cf.threads[t]? = some th) (ph : Phase) : Same ⟨s, { cf with threads := cf.threads.set t { th with phase := ph } }⟩ c := by
  obtain ⟨vt, hvt, h1⟩ := h.threads.get ht
  refine ⟨?_, h.queues⟩
  have h2 := h.threads.set (a := { th with phase := ph }) (b := vt) ⟨h1.prog, h1.locals⟩ t
  obtain ⟨hlt, hvt⟩ := List.getElem?_eq_some_iff.mp hvt
  rw [← hvt, List.set_getElem_self] at h2
  exact h2

omit [DecidableEq P] [BEq V] in
theorem owned_len {c : Conf V R P} {t : Nat} {th : Thread V R P} (th' : Thread V R P) (ht : c.threads[t]? = some th) :
    ({ c with threads := c.threads.set t th' } : Conf V R P).owned.length + (th.locals.filterMap id).length =
      c.owned.length + (th'.locals.filterMap id).length := by
  have := sum_set (fun th : Thread V R P => (th.locals.filterMap id).length) th' ht
  simp only [Conf.owned, List.length_append, List.length_flatMap] at this ⊢; omega

omit [DecidableEq P] in
theorem set_get {α : Type} {l : List α} {t : Nat} {a : α} (b : α) (h : l[t]? = some a) : (l.set t b)[t]? = some b := by
  simp [(List.getElem?_eq_some_iff.mp h).1]

theorem Inv.step [EquivBEq V] {running : I.State → Tid → V → Prop} (L : Laws I running) (hM : M.Lawful) {w w' : World I R} {c c' : Conf V R V}
    (h : Inv running w c) (e : WStep M w w') (hs : Same w' c') : Inv running w' c' := by
  obtain ⟨_, _, i⟩ := inv_step L hM h e
  exact { i with same := hs }

/-- Every step with values can be done with handles. -/
theorem able_step [EquivBEq V] {running : I.State → Tid → V → Prop} (L : Laws I running) (hM : M.Lawful) {N : Nat} {ok : V → Prop}
    {calm : List P → I.State → Prop} (A : Able I N ok calm) {w : World I R} {c c' : Conf V R V} (h : Ready running ok calm w c)
    (e : VStep M c c') (hN : c'.owned.length ≤ N) : ∃ w', WRun M w w' ∧ Ready running ok calm w' c' := by
  have hlen : w.conf.owned.length = c.owned.length := h.inv.same.owned
  have hown : I.Owns w.state (copies w.conf.owned) := held_eq w.conf ▸ h.inv.owns
  have plain : ∀ {t : Nat} {th : Thread V R P} {qs : List (List P)}, th.prog.Plain ok → ∀ (u : Nat) (tu : Thread V R P),
      ({ threads := w.conf.threads.set t th, queues := qs } : Conf V R P).threads[u]? = some tu → tu.prog.Plain ok := by
    intro t th qs hp u tu hu
    rcases get_set hu with ⟨rfl, rfl⟩ | ⟨_, hu⟩
    · exact hp
    · exact h.plain u tu hu
  have own : ∀ {t : Nat} {th : Thread V R P} {qs : List (List P)}, th.phase = .own → ∀ (u : Nat) (tu : Thread V R P),
      ({ threads := w.conf.threads.set t th, queues := qs } : Conf V R P).threads[u]? = some tu → tu.phase = .own := by
    intro t th qs hp u tu hu
    rcases get_set hu with ⟨rfl, rfl⟩ | ⟨_, hu⟩
    · exact hp
    · exact h.own u tu hu
  cases e with
  | @look t vt vt' vqs hvt hl =>
    obtain ⟨th, ht, hs⟩ := h.inv.same.threads.back hvt
    have hp := h.plain t th ht
    have done : ∀ {th' : Thread V R P} {qs : List (List P)}, Look (I.view M w.state) th w.conf.queues th' qs → th'.prog.Plain ok →
        Same (⟨w.state, { threads := w.conf.threads.set t th', queues := qs }⟩ : World I R) { threads := c.threads.set t vt', queues := vqs } →
        ∃ w', WRun M w w' ∧ Ready running ok calm w' { threads := c.threads.set t vt', queues := vqs } := by
      intro th' qs hk hpl hsm
      have hw : WStep M w ⟨w.state, { threads := w.conf.threads.set t th', queues := qs }⟩ := .look ht (h.own t th ht) hk
      refine ⟨_, .step .refl hw, h.inv.step L hM hw hsm, own ?_, plain hpl, A.perm h.calm (owned_perm fun p => ?_)⟩
      · have := h.own t th ht
        cases hk <;> exact this
      · rw [held_look ht hk p, held_owned]
    have two : ∀ {i j : Nat} {x y : V}, vt.locals[i]? = some (some x) → vt.locals[j]? = some (some y) → ∃ p q x' y',
        th.locals[i]? = some (some p) ∧ th.locals[j]? = some (some q) ∧ I.deref w.state p = some x' ∧ I.deref w.state q = some y' ∧
        (x' == x) = true ∧ (y' == y) = true ∧ (p = q ↔ (x' == y') = true) := by
      intro i j x y hi hj
      obtain ⟨p, h1, x', h2, h3⟩ := stands_back hs.locals hi
      obtain ⟨q, h4, y', h5, h6⟩ := stands_back hs.locals hj
      obtain ⟨a, b, h7, h8, h9⟩ := L.canonical h.inv.reach h.inv.owns (held_local ht (List.mem_of_getElem? h1))
        (held_local ht (List.mem_of_getElem? h4))
      rw [h2] at h7; cases h7
      rw [h5] at h8; cases h8
      exact ⟨p, q, x', y', h1, h4, h2, h5, h3, h6, h9⟩
    cases hl with
    | @eq i j k x y b e hi hj hb =>
      obtain ⟨p, q, x', y', h1, h2, h3, h4, h5, h6, h7⟩ := two hi hj
      have hb : b = (x == y) := hb
      rw [hs.prog, e] at hp
      cases hp with
      | eq hk =>
        refine done (.eq (hs.prog.trans e) h1 h2 (show b = Traits.eq p q from ?_)) (hk b)
          ⟨h.inv.same.threads.set (a := { th with prog := k b }) (b := { vt with prog := k b }) ⟨rfl, hs.locals⟩ t, h.inv.same.queues⟩
        rw [hb, ← beq_congr h5 h6, Bool.eq_iff_iff, ← h7]
        simp [Traits.eq]
    | @cmp i j k x y o e hi hj hb =>
      obtain ⟨p, q, x', y', h1, h2, h3, h4, h5, h6, h7⟩ := two hi hj
      have hb : o = M.cmp x y := hb
      rw [hs.prog, e] at hp
      cases hp with
      | cmp hk =>
        refine done (.cmp (hs.prog.trans e) h1 h2 (show Traits.cmp (I.deref w.state) M p q = some o from ?_)) (hk o)
          ⟨h.inv.same.threads.set (a := { th with prog := k o }) (b := { vt with prog := k o }) ⟨rfl, hs.locals⟩ t, h.inv.same.queues⟩
        simp only [Traits.cmp, Traits.both, h3, h4, hb, cmp_congr hM h5 h6]
    | @read i k x y e hi hb =>
      obtain ⟨p, h1, x', h2, h3⟩ := stands_back hs.locals hi
      have hb : (y == x) = true := hb
      rw [hs.prog, e] at hp
      cases hp with
      | read hk hu =>
        exact done (.read (x := x') (hs.prog.trans e) h1 h2) (hk x')
          ⟨h.inv.same.threads.set (a := { th with prog := k x' }) (b := { vt with prog := k y }) ⟨hu _ _ (BEq.trans h3 (BEq.symm hb)), hs.locals⟩ t,
            h.inv.same.queues⟩
    | @give q i k x l e hi hq =>
      obtain ⟨p, h1, h2⟩ := stands_back hs.locals hi
      obtain ⟨l', h3, h4⟩ := h.inv.same.queues.back hq
      rw [hs.prog, e] at hp
      cases hp with
      | give hk =>
        exact done (.give (hs.prog.trans e) h1 h3) hk
          ⟨h.inv.same.threads.set ⟨rfl, hs.locals.set (show StandsVar I w.state none none from trivial) i⟩ t, h.inv.same.queues.set (h4.snoc h2) q⟩
    | @take q k x l e hq =>
      obtain ⟨l', h3, h4⟩ := h.inv.same.queues.back hq
      cases h4 with
      | @cons p _ _ _ h5 h6 =>
        rw [hs.prog, e] at hp
        cases hp with
        | take hk =>
          exact done (.take (hs.prog.trans e) h3) hk
            ⟨h.inv.same.threads.set ⟨rfl, hs.locals.snoc (show StandsVar I w.state (some p) (some x) from h5)⟩ t, h.inv.same.queues.set h6 q⟩
  | @intern t vt v k hvt hg =>
    obtain ⟨th, ht, hs⟩ := h.inv.same.threads.back hvt
    have hp := h.plain t th ht
    rw [hs.prog, hg] at hp
    cases hp with
    | intern hv hk =>
    have hlt : w.conf.owned.length < N := by
      have := owned_len (c := c) { vt with prog := k, locals := vt.locals ++ [some v] } hvt
      simp only [List.filterMap_append, List.length_append, List.filterMap_cons, List.filterMap_nil, id, List.length_cons, List.length_nil] at this
      omega
    obtain ⟨s1, s2, p, s3, h1, h2, h3, h4, h5⟩ := A.news h.inv.reach h.calm hlt hv hown (h.inv.own t th ht (h.own t th ht))
    have hw1 : WStep M w ⟨s1, { w.conf with threads := w.conf.threads.set t { th with phase := .interning } }⟩ :=
      .call ht (h.own t th ht) (hs.prog.trans hg) h1 (held_eq w.conf ▸ h2)
    obtain ⟨hst, _, hni, _⟩ := L.calls h.inv.reach h1
    have i1 : Inv running (⟨s1, { w.conf with threads := w.conf.threads.set t { th with phase := .interning } }⟩ : World I R) c :=
      h.inv.step L hM hw1 (Same.phase (h.inv.same.stay fun p hp => L.stable h.inv.reach hst h.inv.owns (held_eq w.conf ▸ h2) hp) ht _)
    have ht1 := set_get { th with phase := .interning } ht
    have hheld : copies w.conf.owned =
        ({ w.conf with threads := w.conf.threads.set t { th with phase := .interning } } : Conf V R P).held := by
      rw [← held_eq]; exact funext fun p => (held_same { th with phase := .interning } ht rfl p).symm
    obtain ⟨hr2, i2, _⟩ := Path.run (M := M) L hM (cf := { w.conf with threads := w.conf.threads.set t { th with phase := .interning } })
      ht1 hheld h3 i1 (.inl ⟨trivial, hni⟩)
    obtain ⟨hst2, _, _⟩ := L.returns i2.reach h4
    have hw3 := WStep.ret (M := M) (w := ⟨s2, { w.conf with threads := w.conf.threads.set t { th with phase := .interning } }⟩)
      ht1 rfl (hs.prog.trans hg) h4
    obtain ⟨_, v', k', hg', hrun⟩ := i2.calling t _ ht1 rfl
    rw [show (Thread.prog { th with phase := .interning } : Prog V R) = .intern v k from hs.prog.trans hg] at hg'
    cases hg'
    obtain ⟨x, hx, hxv⟩ := L.result i2.reach i2.owns hrun h4
    have ho3 := L.less (L.owns_returns i2.reach h4 i2.owns) fun p => Nat.le_add_right _ _
    have hsm := i2.same.stay fun q hq => L.stable i2.reach hst2 i2.owns ho3 hq
    have hs3 : SameThread I s3 { th with phase := .interning } vt := by
      obtain ⟨a, ha, hb⟩ := hsm.threads.back hvt
      rw [ht1] at ha; cases ha
      exact hb
    have hsm3 := hsm.threads.set (a := { prog := k, locals := th.locals ++ [some p], phase := .own })
      (b := { vt with prog := k, locals := vt.locals ++ [some v] })
      ⟨rfl, hs3.locals.snoc (show StandsVar I s3 (some p) (some v) from ⟨x, hx, hxv⟩)⟩ t
    have i3 := i2.step L hM hw3 (c' := { c with threads := c.threads.set t { vt with prog := k, locals := vt.locals ++ [some v] } }) ⟨hsm3, hsm.queues⟩
    have hrun3 := (WRun.step WRun.refl hw1).trans' (hr2.step hw3)
    simp only [List.set_set] at hrun3 i3
    refine ⟨_, hrun3, i3, own rfl, plain hk, A.perm h5 (owned_perm fun q => ?_)⟩
    rw [held_snoc { prog := k, locals := th.locals ++ [some p], phase := .own } ht rfl q, held_owned, count_cons_if]
  | @clone t vt i x k hvt hg hi =>
    obtain ⟨th, ht, hs⟩ := h.inv.same.threads.back hvt
    obtain ⟨p, hl, hx⟩ := stands_back hs.locals hi
    have hp := h.plain t th ht
    rw [hs.prog, hg] at hp
    cases hp with
    | clone hk =>
    have hlt : w.conf.owned.length < N := by
      have := owned_len (c := c) { vt with prog := k, locals := vt.locals ++ [some x] } hvt
      simp only [List.filterMap_append, List.length_append, List.filterMap_cons, List.filterMap_nil, id, List.length_cons, List.length_nil] at this
      omega
    have hpos : 0 < w.conf.held p := held_local ht (List.mem_of_getElem? hl)
    obtain ⟨s, h1, h2⟩ := A.clones h.inv.reach h.calm hlt (List.count_pos_iff.mp (held_owned w.conf p ▸ hpos)) hown
      (h.inv.own t th ht (h.own t th ht))
    have hw := WStep.clone (M := M) ht (h.own t th ht) (hs.prog.trans hg) hl h1
    obtain ⟨hst, _⟩ := L.clones h.inv.reach h1
    have ho := L.less (L.owns_clones h1 hpos h.inv.owns) fun p => Nat.le_add_right _ _
    have hsm : Same (⟨s, w.conf⟩ : World I R) c := h.inv.same.stay fun p hp => by
      rcases hst with hst | hst
      · exact L.stable h.inv.reach hst h.inv.owns ho hp
      · rw [hst]
    have hs' : SameThread I s th vt := by
      obtain ⟨a, ha, hb⟩ := hsm.threads.back hvt
      rw [ht] at ha; cases ha
      exact hb
    obtain ⟨x', hx', hst'⟩ := stands_var hs'.locals hl
    rw [hi] at hx'; cases hx'
    refine ⟨_, .step .refl hw, h.inv.step L hM hw
      ⟨hsm.threads.set (b := { vt with prog := k, locals := vt.locals ++ [some x] })
        ⟨rfl, hs'.locals.snoc (show StandsVar I s (some p) (some x) from hst')⟩ t, hsm.queues⟩,
      own (h.own t th ht), plain hk, A.perm h2 (owned_perm fun q => ?_)⟩
    rw [held_snoc { th with prog := k, locals := th.locals ++ [some p] } ht rfl q, held_owned, count_cons_if]
  | @drop t vt i x k hvt hg hi =>
    obtain ⟨th, ht, hs⟩ := h.inv.same.threads.back hvt
    obtain ⟨p, hl, hx⟩ := stands_back hs.locals hi
    have hp := h.plain t th ht
    rw [hs.prog, hg] at hp
    cases hp with
    | drop hk =>
    have hheld := held_drop (c := w.conf) { prog := k, locals := th.locals.set i none, phase := .dropping } ht hl rfl
    let cf1 : Conf V R P := { w.conf with threads := w.conf.threads.set t { prog := k, locals := th.locals.set i none, phase := .dropping } }
    have hperm : w.conf.owned.Perm (p :: cf1.owned) := List.perm_iff_count.mpr fun q => by
      rw [← held_owned, ← hheld q, count_cons_if, ← held_owned]
    have hown' : I.Owns w.state (copies (p :: cf1.owned)) :=
      L.less h.inv.owns fun q => Nat.le_of_eq (by rw [held_owned]; exact (hperm.count_eq q).symm)
    obtain ⟨s1, s2, h1, h2, h3, h4⟩ := A.drops h.inv.reach (A.perm h.calm hperm) hown' (h.inv.own t th ht (h.own t th ht))
    have hw1 : WStep M w ⟨s1, cf1⟩ := WStep.drop (M := M) ht (h.own t th ht) (hs.prog.trans hg) hl h1
    obtain ⟨hst, _⟩ := L.drops h.inv.reach h1
    have ho1 : I.Owns s1 cf1.held := L.owns_drops h1 (L.less h.inv.owns fun q => Nat.le_of_eq (hheld q))
    have hsm1 : Same (⟨s1, cf1⟩ : World I R) { c with threads := c.threads.set t { vt with prog := k, locals := vt.locals.set i none } } := by
      have h2 : Same (⟨w.state, cf1⟩ : World I R) { c with threads := c.threads.set t { vt with prog := k, locals := vt.locals.set i none } } :=
        ⟨h.inv.same.threads.set ⟨rfl, hs.locals.set (show StandsVar I w.state none none from trivial) i⟩ t, h.inv.same.queues⟩
      refine h2.stay fun q hq => ?_
      rcases hst with hst | hst
      · exact L.stable h.inv.reach hst (L.less h.inv.owns fun q => Nat.le_of_add_right_le (Nat.le_of_eq (hheld q))) ho1 hq
      · rw [hst]
    have i1 := h.inv.step L hM hw1 hsm1
    have ht1 : cf1.threads[t]? = some { prog := k, locals := th.locals.set i none, phase := .dropping } := set_get _ ht
    obtain ⟨hr2, i2, _⟩ := Path.run (M := M) L hM ht1 (held_eq cf1).symm h2 i1 (.inr rfl)
    have hw3 := WStep.dropped (M := M) (w := ⟨s2, cf1⟩) ht1 rfl h3
    have i3 := i2.step L hM hw3 (i2.same.phase ht1 .own)
    have hrun3 := (WRun.step WRun.refl hw1).trans' (hr2.step hw3)
    have hheld3 : ∀ q, ({ cf1 with threads := cf1.threads.set t { prog := k, locals := th.locals.set i none, phase := .own } } : Conf V R P).held q = cf1.held q :=
      held_same _ ht1 rfl
    refine ⟨_, hrun3, i3, ?_, ?_, A.perm h4 (owned_perm fun q => ?_)⟩
    · simp only [cf1, List.set_set]; exact own (qs := w.conf.queues) rfl
    · simp only [cf1, List.set_set]; exact plain (qs := w.conf.queues) hk
    · rw [← held_owned]; exact hheld3 q

/-- Every execution with values can be done with handles. -/
theorem able_run [EquivBEq V] {running : I.State → Tid → V → Prop} (L : Laws I running) (hM : M.Lawful) {N : Nat} {ok : V → Prop}
    {calm : List P → I.State → Prop} (A : Able I N ok calm) {ps : List (Prog V R)} {m : Nat} {w : World I R} (h : Starts ps m w)
    (hc : calm [] w.state) (hp : ∀ g ∈ ps, g.Plain ok) {c : Conf V R V} (hr : VRunUpTo M N (start ps m) c) :
    ∃ w', WRun M w w' ∧ Ready running ok calm w' c := by
  induction hr with
  | refl =>
    have hcf : ∀ (t : Nat) (th : Thread V R P), w.conf.threads[t]? = some th → th.phase = .own ∧ th.prog ∈ ps := by
      intro t th ht
      rw [h.conf] at ht
      have h1 : (ps.map fun p => ({ prog := p, locals := [], phase := .own } : Thread V R P))[t]? = some th := ht
      obtain ⟨g, h2, h3⟩ := List.mem_map.mp (List.mem_of_getElem? h1)
      subst h3
      exact ⟨rfl, h2⟩
    refine ⟨w, .refl, inv_start L h, fun t th ht => (hcf t th ht).1, fun t th ht => hp _ (hcf t th ht).2, A.perm hc (owned_perm fun p => ?_)⟩
    rw [h.conf, held_start]; rfl
  | step _ e hN ih =>
    obtain ⟨w1, h1, h2⟩ := ih
    obtain ⟨w2, h3, h4⟩ := able_step L hM A h2 e hN
    exact ⟨w2, h1.trans' h3, h4⟩

theorem achieves [EquivBEq V] {running : I.State → Tid → V → Prop} (L : Laws I running) (hM : M.Lawful) {N : Nat} {ok : V → Prop}
    {calm : List P → I.State → Prop} (A : Able I N ok calm) {ps : List (Prog V R)} {m : Nat} {w : World I R} (h : Starts ps m w)
    (hc : calm [] w.state) (hp : ∀ g ∈ ps, g.Plain ok) {c : Conf V R V} (hr : VRunUpTo M N (start ps m) c) :
    ∃ w', WRun M w w' ∧ w'.conf.progs = c.progs ∧ Same w' c := by
  obtain ⟨w', h1, h2⟩ := able_run L hM A h hc hp hr
  exact ⟨w', h1, h2.inv.same.progs.symm, h2.inv.same⟩

end
end Client
