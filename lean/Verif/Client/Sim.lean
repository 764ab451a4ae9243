import Verif.Client.Lang
/-
Proof of C90: whatever a program does with handles, it can do with values.
-/
namespace Client
open Traits (Methods)

/-- What the proofs use of an interner. `running s t v`: the call that thread `t` of the program has made is `new(v)`. -/
structure Laws {V P : Type} [DecidableEq P] [BEq V] (I : Interner V P) (running : I.State → Tid → V → Prop) : Prop where
  steps : ∀ {s s'}, I.Reach s → I.Step s s' → I.Reach s'
  calls : ∀ {s t v s'}, I.Reach s → I.Calls s t v s' → I.Step s s' ∧ I.idle s t ∧ ¬ I.idle s' t ∧ running s' t v
  returns : ∀ {s t b s'}, I.Reach s → I.Returns s t b s' → I.Step s s' ∧ ¬ I.idle s t ∧ I.idle s' t
  clones : ∀ {s t p s'}, I.Reach s → I.Clones s t p s' → (I.Step s s' ∨ s' = s) ∧ ∀ u, I.idle s u ↔ I.idle s' u
  drops : ∀ {s t p s'}, I.Reach s → I.Drops s t p s' → (I.Step s s' ∨ s' = s) ∧ I.idle s t
  /-- these steps are of thread `t` only. -/
  other : ∀ {s t v s'}, I.Calls s t v s' → ∀ u, u ≠ t → (I.idle s u ↔ I.idle s' u)
  other' : ∀ {s t b s'}, I.Returns s t b s' → ∀ u, u ≠ t → (I.idle s u ↔ I.idle s' u)
  other'' : ∀ {s t p s'}, I.Drops s t p s' → ∀ u, u ≠ t → (I.idle s u ↔ I.idle s' u)
  runs : ∀ {s t v s'}, I.Reach s → I.Step s s' → running s t v → ¬ I.idle s' t → running s' t v
  less : ∀ {s n m}, I.Owns s n → (∀ p, m p ≤ n p) → I.Owns s m
  owns_returns : ∀ {s t b s' n}, I.Reach s → I.Returns s t b s' → I.Owns s n → I.Owns s' fun p => n p + if p = b then 1 else 0
  owns_clones : ∀ {s t b s' n}, I.Clones s t b s' → 0 < n b → I.Owns s n → I.Owns s' fun p => n p + if p = b then 1 else 0
  owns_drops : ∀ {s t b s' n}, I.Drops s t b s' → I.Owns s (fun p => n p + if p = b then 1 else 0) → I.Owns s' n
  canonical : ∀ {s n p q}, I.Reach s → I.Owns s n → 0 < n p → 0 < n q →
    ∃ x y, I.deref s p = some x ∧ I.deref s q = some y ∧ (p = q ↔ (x == y) = true)
  stable : ∀ {s s' n p}, I.Reach s → I.Step s s' → I.Owns s n → I.Owns s' n → 0 < n p → I.deref s' p = I.deref s p
  result : ∀ {s t v b s' n}, I.Reach s → I.Owns s n → running s t v → I.Returns s t b s' → ∃ x, I.deref s' b = some x ∧ (x == v) = true

/-! ### Lists -/

namespace Pairs
variable {α β : Type} {r r' : α → β → Prop}

theorem mono {l : List α} {m : List β} (h : Pairs r l m) (hr : ∀ a ∈ l, ∀ b, r a b → r' a b) : Pairs r' l m := by
  induction h with
  | nil => exact .nil
  | cons h1 _ ih => exact .cons (hr _ List.mem_cons_self _ h1) (ih fun a ha => hr a (List.mem_cons_of_mem _ ha))

theorem get {l : List α} {m : List β} (h : Pairs r l m) : ∀ {i : Nat} {a : α}, l[i]? = some a → ∃ b, m[i]? = some b ∧ r a b := by
  induction h with
  | nil => intro i a e; simp at e
  | @cons a b _ _ h1 _ ih =>
    intro i a' e
    cases i with
    | zero => simp only [List.getElem?_cons_zero, Option.some.injEq] at e; subst e; exact ⟨b, by simp, h1⟩
    | succ i => simpa using ih (by simpa using e)

theorem set {l : List α} {m : List β} (h : Pairs r l m) {a : α} {b : β} (hr : r a b) : ∀ i : Nat, Pairs r (l.set i a) (m.set i b) := by
  induction h with
  | nil => exact fun _ => .nil
  | cons h1 h2 ih =>
    intro i
    cases i with
    | zero => exact .cons hr h2
    | succ i => exact .cons h1 (ih i)

theorem snoc {l : List α} {m : List β} (h : Pairs r l m) {a : α} {b : β} (hr : r a b) : Pairs r (l ++ [a]) (m ++ [b]) := by
  induction h with
  | nil => exact .cons hr .nil
  | cons h1 _ ih => exact .cons h1 ih

end Pairs

theorem sum_set {α : Type} (f : α → Nat) : ∀ {l : List α} {i : Nat} {a : α} (b : α), l[i]? = some a →
    ((l.set i b).map f).sum + f a = (l.map f).sum + f b
  | [], _, _, _, e => by simp at e
  | x :: l, 0, a, b, e => by
    simp only [List.getElem?_cons_zero, Option.some.injEq] at e
    subst e; simp only [List.set_cons_zero, List.map_cons, List.sum_cons]; omega
  | x :: l, i + 1, a, b, e => by
    have := sum_set f (l := l) b (by simpa using e)
    simp only [List.set_cons_succ, List.map_cons, List.sum_cons]; omega

theorem le_sum {α : Type} (f : α → Nat) : ∀ {l : List α} {i : Nat} {a : α}, l[i]? = some a → f a ≤ (l.map f).sum
  | [], _, _, e => by simp at e
  | x :: l, 0, a, e => by
    simp only [List.getElem?_cons_zero, Option.some.injEq] at e
    subst e; simp
  | x :: l, i + 1, a, e => by
    have := le_sum f (l := l) (by simpa using e)
    simp only [List.map_cons, List.sum_cons]; omega

theorem count_set {α : Type} [BEq α] [LawfulBEq α] (c : α) : ∀ {l : List α} {i : Nat} {a : α} (b : α), l[i]? = some a →
    (l.set i b).count c + (if a == c then 1 else 0) = l.count c + if b == c then 1 else 0
  | [], _, _, _, e => by simp at e
  | x :: l, 0, a, b, e => by
    simp only [List.getElem?_cons_zero, Option.some.injEq] at e
    subst e; simp only [List.set_cons_zero, List.count_cons]; omega
  | x :: l, i + 1, a, b, e => by
    have := count_set c (l := l) b (by simpa using e)
    simp only [List.set_cons_succ, List.count_cons]; omega

section
variable {V R P : Type} [DecidableEq P] {I : Interner V P}

/-! ### What the program owns -/

theorem held_local {c : Conf V R P} {t : Nat} {th : Thread V R P} {p : P} (ht : c.threads[t]? = some th) (hp : some p ∈ th.locals) :
    0 < c.held p := by
  have h1 := le_sum (fun th : Thread V R P => th.locals.count (some p)) ht
  have h2 : 0 < th.locals.count (some p) := List.count_pos_iff.mpr hp
  simp only [Conf.held]; omega

theorem held_queue {c : Conf V R P} {q : Nat} {l : List P} {p : P} (hq : c.queues[q]? = some l) (hp : p ∈ l) : 0 < c.held p := by
  have h1 := le_sum (fun l : List P => l.count p) hq
  have h2 : 0 < l.count p := List.count_pos_iff.mpr hp
  simp only [Conf.held]; omega

theorem held_set {c : Conf V R P} {t : Nat} {th : Thread V R P} (th' : Thread V R P) (ht : c.threads[t]? = some th) (p : P) :
    ({ c with threads := c.threads.set t th' } : Conf V R P).held p + th.locals.count (some p) = c.held p + th'.locals.count (some p) := by
  have := sum_set (fun th : Thread V R P => th.locals.count (some p)) th' ht
  simp only [Conf.held] at this ⊢; omega

theorem count_snoc (l : List (Option P)) (p b : P) : (l ++ [some b]).count (some p) = l.count (some p) + if p = b then 1 else 0 := by
  rw [List.count_append]
  by_cases h : p = b
  · subst h; simp
  · simp [h, Ne.symm h]

theorem count_none {l : List (Option P)} {i : Nat} {b : P} (h : l[i]? = some (some b)) (p : P) :
    (l.set i none).count (some p) + (if p = b then 1 else 0) = l.count (some p) := by
  have := count_set (some p) none h
  by_cases hb : p = b
  · subst hb; simpa using this
  · simpa [hb, Ne.symm hb] using this

theorem held_same {c : Conf V R P} {t : Nat} {th : Thread V R P} (th' : Thread V R P) (ht : c.threads[t]? = some th)
    (h : th'.locals = th.locals) (p : P) : ({ c with threads := c.threads.set t th' } : Conf V R P).held p = c.held p := by
  have := held_set th' ht p
  rw [h] at this; omega

theorem held_snoc {c : Conf V R P} {t : Nat} {th : Thread V R P} (th' : Thread V R P) (ht : c.threads[t]? = some th) {b : P}
    (h : th'.locals = th.locals ++ [some b]) (p : P) :
    ({ c with threads := c.threads.set t th' } : Conf V R P).held p = c.held p + if p = b then 1 else 0 := by
  have := held_set th' ht p
  rw [h, count_snoc] at this; omega

theorem held_drop {c : Conf V R P} {t : Nat} {th : Thread V R P} (th' : Thread V R P) (ht : c.threads[t]? = some th) {b : P} {i : Nat}
    (hi : th.locals[i]? = some (some b)) (h : th'.locals = th.locals.set i none) (p : P) :
    ({ c with threads := c.threads.set t th' } : Conf V R P).held p + (if p = b then 1 else 0) = c.held p := by
  have := held_set th' ht p
  have h2 := count_none hi p
  rw [h] at this; omega

theorem held_look {c : Conf V R P} {S : View V P} {t : Nat} {th th' : Thread V R P} {qs : List (List P)}
    (ht : c.threads[t]? = some th) (h : Look S th c.queues th' qs) (p : P) :
    ({ threads := c.threads.set t th', queues := qs } : Conf V R P).held p = c.held p := by
  have h1 := sum_set (fun th : Thread V R P => th.locals.count (some p)) th' ht
  simp only [Conf.held]
  cases h with
  | eq => simp only at h1; omega
  | cmp => simp only at h1; omega
  | read => simp only at h1; omega
  | give e hi hq =>
    rename_i q i k b l
    have h2 := sum_set (fun l : List P => l.count p) (l ++ [b]) hq
    have h3 := count_none hi p
    have h4 : (l ++ [b]).count p = l.count p + if p = b then 1 else 0 := by
      rw [List.count_append]
      by_cases h : p = b
      · subst h; simp
      · simp [h, Ne.symm h]
    simp only at h1 h2
    omega
  | take e hq =>
    rename_i q k b l
    have h2 := sum_set (fun l : List P => l.count p) l hq
    have h3 := count_snoc th.locals p b
    have h4 : (b :: l).count p = l.count p + if p = b then 1 else 0 := by
      rw [List.count_cons]
      by_cases h : p = b
      · subst h; simp
      · simp [h, Ne.symm h]
    simp only at h1 h2
    omega

end

/-! ### Handles and values -/

section
variable {V R P : Type} [DecidableEq P] [BEq V] {I : Interner V P} {M : Methods V}

omit [DecidableEq P] in
theorem Same.progs {w : World I R} {c : Conf V R V} (h : Same w c) : c.progs = w.conf.progs := by
  have key : ∀ {l : List (Thread V R P)} {m : List (Thread V R V)}, Pairs (SameThread I w.state) l m →
      m.map (·.prog) = l.map (·.prog) := by
    intro l m h
    induction h with
    | nil => rfl
    | cons h1 _ ih => simp only [List.map_cons, ih, h1.prog]
  exact key h.threads

/-- The state changes, and what the program owns is as it was. -/
theorem Same.stay {s s' : I.State} {cf : Conf V R P} {c : Conf V R V} (h : Same ⟨s, cf⟩ c)
    (hd : ∀ p, 0 < cf.held p → I.deref s' p = I.deref s p) : Same ⟨s', cf⟩ c := by
  have st : ∀ p, 0 < cf.held p → ∀ x, Stands I s p x → Stands I s' p x := fun p hp x ⟨y, h1, h2⟩ => ⟨y, (hd p hp).trans h1, h2⟩
  refine ⟨h.threads.mono fun th hth th' h1 => ⟨h1.prog, h1.locals.mono fun o ho x hx => ?_⟩, h.queues.mono fun l hl l' h1 => h1.mono fun p hp x hx => ?_⟩
  · obtain ⟨t, ht⟩ := List.getElem?_of_mem hth
    cases o with
    | none => cases x with
      | none => trivial
      | some _ => exact hx.elim
    | some p => cases x with
      | none => exact hx.elim
      | some x => exact st p (held_local ht ho) x hx
  · obtain ⟨q, hq⟩ := List.getElem?_of_mem hl
    exact st p (held_queue hq hp) x hx

omit [DecidableEq P] in
/-- The same for some of what the program owns. -/
theorem stands_var {s : I.State} {l : List (Option P)} {m : List (Option V)} (h : Pairs (StandsVar I s) l m) {i : Nat} {p : P}
    (hi : l[i]? = some (some p)) : ∃ x, m[i]? = some (some x) ∧ Stands I s p x := by
  obtain ⟨o, h1, h2⟩ := h.get hi
  cases o with
  | none => exact h2.elim
  | some x => exact ⟨x, h1, h2⟩

/-- The order of values does not distinguish equal values. -/
theorem cmp_congr (hM : M.Lawful) [EquivBEq V] {x y x' y' : V} (hx : (x == x') = true) (hy : (y == y') = true) : M.cmp x y = M.cmp x' y' := by
  have lt_r : ∀ {a b b' : V}, (b == b') = true → M.cmp a b = .lt → M.cmp a b' = .lt := by
    intro a b b' hb h
    cases h2 : M.cmp a b' with
    | lt => rfl
    | eq =>
      have : (a == b) = true := BEq.trans ((hM.eq _ _).mp h2) (BEq.symm hb)
      rw [(hM.eq _ _).mpr this] at h; cases h
    | gt =>
      have h3 : M.cmp b' a = .lt := by rw [hM.swap a b', h2]; rfl
      have h4 := hM.trans _ _ _ h3 h
      rw [(hM.eq _ _).mpr (BEq.symm hb)] at h4; cases h4
  have lt_l : ∀ {a a' b : V}, (a == a') = true → M.cmp a b = .lt → M.cmp a' b = .lt := by
    intro a a' b ha h
    cases h2 : M.cmp a' b with
    | lt => rfl
    | eq =>
      have : (a == b) = true := BEq.trans ha ((hM.eq _ _).mp h2)
      rw [(hM.eq _ _).mpr this] at h; cases h
    | gt =>
      have h3 : M.cmp b a' = .lt := by rw [hM.swap a' b, h2]; rfl
      have h4 := hM.trans _ _ _ h h3
      rw [(hM.eq _ _).mpr ha] at h4; cases h4
  have lt_iff : ∀ {a b a' b' : V}, (a == a') = true → (b == b') = true → M.cmp a b = .lt → M.cmp a' b' = .lt :=
    fun ha hb h => lt_l ha (lt_r hb h)
  cases h : M.cmp x y with
  | lt => exact (lt_iff hx hy h).symm
  | eq =>
    exact ((hM.eq _ _).mpr (BEq.trans (BEq.symm hx) (BEq.trans ((hM.eq _ _).mp h) hy))).symm
  | gt =>
    have h3 : M.cmp y x = .lt := by rw [hM.swap x y, h]; rfl
    have h4 := lt_iff hy hx h3
    rw [hM.swap y' x', h4]; rfl

theorem beq_congr [EquivBEq V] {x y x' y' : V} (hx : (x == x') = true) (hy : (y == y') = true) : (x == y) = (x' == y') := by
  rw [Bool.eq_iff_iff]
  exact ⟨fun h => BEq.trans (BEq.symm hx) (BEq.trans h hy), fun h => BEq.trans hx (BEq.trans h (BEq.symm hy))⟩

theorem VRun.trans' {c c' c'' : Conf V R V} (h : VRun M c c') (h' : VRun M c' c'') : VRun M c c'' := by
  induction h' with
  | refl => exact h
  | step _ e ih => exact .step ih e

/-- A step of a thread that does not call. -/
theorem look_sim [EquivBEq V] {running : I.State → Tid → V → Prop} (L : Laws I running) (hM : M.Lawful) {s : I.State} {cf : Conf V R P}
    {c : Conf V R V} (hr : I.Reach s) (ho : I.Owns s cf.held) (h : Same ⟨s, cf⟩ c) {t : Nat} {th th' : Thread V R P}
    {qs : List (List P)} (ht : cf.threads[t]? = some th) (hl : Look (I.view M s) th cf.queues th' qs) :
    ∃ c', VStep M c c' ∧ Same ⟨s, { threads := cf.threads.set t th', queues := qs }⟩ c' := by
  obtain ⟨vt, hvt, hs⟩ := h.threads.get ht
  have two : ∀ {i j : Nat} {p q : P}, th.locals[i]? = some (some p) → th.locals[j]? = some (some q) → ∃ x y x' y', vt.locals[i]? = some (some x) ∧
      vt.locals[j]? = some (some y) ∧ I.deref s p = some x' ∧ I.deref s q = some y' ∧ (x' == x) = true ∧ (y' == y) = true ∧
      (p = q ↔ (x' == y') = true) := by
    intro i j p q hi hj
    obtain ⟨x, h1, x', h2, h3⟩ := stands_var hs.locals hi
    obtain ⟨y, h4, y', h5, h6⟩ := stands_var hs.locals hj
    obtain ⟨a, b, h7, h8, h9⟩ := L.canonical hr ho (held_local ht (List.mem_of_getElem? hi)) (held_local ht (List.mem_of_getElem? hj))
    rw [h2] at h7; cases h7
    rw [h5] at h8; cases h8
    exact ⟨x, y, x', y', h1, h4, h2, h5, h3, h6, h9⟩
  cases hl with
  | @eq i j k p q b e hi hj hb =>
    obtain ⟨x, y, x', y', h1, h2, h3, h4, h5, h6, h7⟩ := two hi hj
    refine ⟨_, .look hvt (.eq (hs.prog.symm.trans e) h1 h2 rfl), h.threads.set (a := { th with prog := k b }) (b := { vt with prog := k (x == y) }) ⟨?_, hs.locals⟩ t, h.queues⟩
    have hb : b = Traits.eq p q := hb
    show k b = k (x == y)
    rw [hb, ← beq_congr h5 h6]
    congr 1
    rw [Bool.eq_iff_iff, ← h7]
    simp [Traits.eq]
  | @cmp i j k p q o e hi hj hb =>
    obtain ⟨x, y, x', y', h1, h2, h3, h4, h5, h6, h7⟩ := two hi hj
    refine ⟨_, .look hvt (.cmp (hs.prog.symm.trans e) h1 h2 rfl), h.threads.set (a := { th with prog := k o }) (b := { vt with prog := k (M.cmp x y) }) ⟨?_, hs.locals⟩ t, h.queues⟩
    have hb : Traits.cmp (I.deref s) M p q = some o := hb
    simp only [Traits.cmp, Traits.both, h3, h4, Option.some.injEq] at hb
    show k o = k (M.cmp x y)
    rw [← hb, cmp_congr hM h5 h6]
  | @read i k p x e hi hb =>
    obtain ⟨y, h1, y', h2, h3⟩ := stands_var hs.locals hi
    have hb : I.deref s p = some x := hb
    rw [hb] at h2; cases h2
    exact ⟨_, .look hvt (.read (hs.prog.symm.trans e) h1 h3),
      h.threads.set (a := { th with prog := k x }) (b := { vt with prog := k x }) ⟨rfl, hs.locals⟩ t, h.queues⟩
  | @give q i k p l e hi hq =>
    obtain ⟨y, h1, h2⟩ := stands_var hs.locals hi
    obtain ⟨l', h3, h4⟩ := h.queues.get hq
    exact ⟨_, .look hvt (.give (hs.prog.symm.trans e) h1 h3),
      h.threads.set ⟨rfl, hs.locals.set (show StandsVar I s none none from trivial) i⟩ t, h.queues.set (h4.snoc h2) q⟩
  | @take q k p l e hq =>
    obtain ⟨l', h3, h4⟩ := h.queues.get hq
    cases h4 with
    | @cons _ x _ _ h5 h6 =>
      exact ⟨_, .look hvt (.take (hs.prog.symm.trans e) h3), h.threads.set ⟨rfl, hs.locals.snoc (show StandsVar I s (some p) (some x) from h5)⟩ t, h.queues.set h6 q⟩

/-- What holds in every execution. -/
structure Inv (running : I.State → Tid → V → Prop) (w : World I R) (c : Conf V R V) : Prop where
  reach : I.Reach w.state
  owns : I.Owns w.state w.conf.held
  same : Same w c
  own : ∀ t th, w.conf.threads[t]? = some th → th.phase = .own → I.idle w.state t
  calling : ∀ t th, w.conf.threads[t]? = some th → th.phase = .interning → ¬ I.idle w.state t ∧
    ∃ v k, th.prog = .intern v k ∧ running w.state t v

theorem get_set {α : Type} {l : List α} {t u : Nat} {a b : α} (h : (l.set t a)[u]? = some b) : (u = t ∧ b = a) ∨ (u ≠ t ∧ l[u]? = some b) := by
  by_cases hu : u = t
  · subst hu
    obtain ⟨h1, h2⟩ := List.getElem?_eq_some_iff.mp h
    simp at h2
    exact .inl ⟨rfl, h2.symm⟩
  · rw [List.getElem?_set_ne (Ne.symm hu)] at h
    exact .inr ⟨hu, h⟩

theorem inv_step [EquivBEq V] {running : I.State → Tid → V → Prop} (L : Laws I running) (hM : M.Lawful) {w w' : World I R} {c : Conf V R V}
    (h : Inv running w c) (e : WStep M w w') : ∃ c', VRun M c c' ∧ Inv running w' c' := by
  cases e with
  | @inside s hs hi ho =>
    refine ⟨c, .refl, L.steps h.reach hs, ho, h.same.stay fun p hp => L.stable h.reach hs h.owns ho hp, ?_, ?_⟩
    · intro t th ht hp
      exact (hi t th ht (by rw [hp]; decide)).mp (h.own t th ht hp)
    · intro t th ht hp
      obtain ⟨h1, v, k, h2, h3⟩ := h.calling t th ht hp
      have h4 : ¬ I.idle s t := fun hh => h1 ((hi t th ht (by rw [hp]; decide)).mpr hh)
      exact ⟨h4, v, k, h2, L.runs h.reach hs h3 h4⟩
  | @look t th th' qs ht hp hl =>
    obtain ⟨c', h1, h2⟩ := look_sim L hM h.reach h.owns h.same ht hl
    have hph : th'.phase = .own := by cases hl <;> exact hp
    refine ⟨c', .step .refl h1, h.reach, L.less h.owns fun p => Nat.le_of_eq (held_look ht hl p), h2, ?_, ?_⟩
    · intro u tu hu hpu
      rcases get_set hu with ⟨rfl, rfl⟩ | ⟨_, hu⟩
      · exact h.own _ _ ht hp
      · exact h.own u tu hu hpu
    · intro u tu hu hpu
      rcases get_set hu with ⟨rfl, rfl⟩ | ⟨_, hu⟩
      · rw [hph] at hpu; cases hpu
      · exact h.calling u tu hu hpu
  | @call s t th v k ht hp hg hc ho =>
    obtain ⟨hs, hi, hni, hrun⟩ := L.calls h.reach hc
    have hsame : Same ⟨s, w.conf⟩ c := h.same.stay fun p hp => L.stable h.reach hs h.owns ho hp
    obtain ⟨vt, hvt, h1⟩ := hsame.threads.get ht
    refine ⟨c, .refl, L.steps h.reach hs, L.less ho fun p => Nat.le_of_eq (held_same { th with phase := .interning } ht rfl p), ⟨?_, hsame.queues⟩, ?_, ?_⟩
    · have h2 := hsame.threads.set (a := { th with phase := .interning }) (b := vt) ⟨h1.prog, h1.locals⟩ t
      obtain ⟨hlt, hvt⟩ := List.getElem?_eq_some_iff.mp hvt
      rw [← hvt, List.set_getElem_self] at h2
      exact h2
    · intro u tu hu hpu
      rcases get_set hu with ⟨rfl, rfl⟩ | ⟨hut, hu⟩
      · cases hpu
      · exact (L.other hc u hut).mp (h.own u tu hu hpu)
    · intro u tu hu hpu
      rcases get_set hu with ⟨rfl, rfl⟩ | ⟨hut, hu⟩
      · exact ⟨hni, v, k, hg, hrun⟩
      · obtain ⟨h1, v', k', h2, h3⟩ := h.calling u tu hu hpu
        have h4 : ¬ I.idle s u := fun hh => h1 ((L.other hc u hut).mpr hh)
        exact ⟨h4, v', k', h2, L.runs h.reach hs h3 h4⟩
  | @ret s t th v k b ht hp hg hc =>
    obtain ⟨hs, hi, hni⟩ := L.returns h.reach hc
    obtain ⟨_, v', k', hg', hrun⟩ := h.calling t th ht hp
    rw [hg] at hg'; cases hg'
    obtain ⟨x, hx, hxv⟩ := L.result h.reach h.owns hrun hc
    have ho' := L.owns_returns h.reach hc h.owns
    have ho : I.Owns s w.conf.held := L.less ho' fun p => Nat.le_add_right _ _
    have hsame : Same ⟨s, w.conf⟩ c := h.same.stay fun p hp => L.stable h.reach hs h.owns ho hp
    obtain ⟨vt, hvt, h1⟩ := hsame.threads.get ht
    refine ⟨_, .step .refl (.intern hvt (h1.prog.symm.trans hg)), L.steps h.reach hs,
      L.less ho' fun p => Nat.le_of_eq (held_snoc { prog := k, locals := th.locals ++ [some b], phase := .own } ht rfl p),
      ⟨hsame.threads.set ⟨rfl, h1.locals.snoc (show StandsVar I s (some b) (some v) from ⟨x, hx, hxv⟩)⟩ t, hsame.queues⟩, ?_, ?_⟩
    · intro u tu hu hpu
      rcases get_set hu with ⟨rfl, rfl⟩ | ⟨hut, hu⟩
      · exact hni
      · exact (L.other' hc u hut).mp (h.own u tu hu hpu)
    · intro u tu hu hpu
      rcases get_set hu with ⟨rfl, rfl⟩ | ⟨hut, hu⟩
      · cases hpu
      · obtain ⟨h1, v', k', h2, h3⟩ := h.calling u tu hu hpu
        have h4 : ¬ I.idle s u := fun hh => h1 ((L.other' hc u hut).mpr hh)
        exact ⟨h4, v', k', h2, L.runs h.reach hs h3 h4⟩
  | @clone s t th i p k ht hp hg hl hc =>
    obtain ⟨hs, hi⟩ := L.clones h.reach hc
    have ho' := L.owns_clones hc (held_local ht (List.mem_of_getElem? hl)) h.owns
    have ho : I.Owns s w.conf.held := L.less ho' fun p => Nat.le_add_right _ _
    have hr : I.Reach s := by
      rcases hs with hs | hs
      · exact L.steps h.reach hs
      · rw [hs]; exact h.reach
    have hrun : ∀ {u v}, running w.state u v → ¬ I.idle s u → running s u v := by
      intro u v h1 h2
      rcases hs with hs | hs
      · exact L.runs h.reach hs h1 h2
      · rw [hs]; exact h1
    have hsame : Same ⟨s, w.conf⟩ c := h.same.stay fun p hp => by
      rcases hs with hs | hs
      · exact L.stable h.reach hs h.owns ho hp
      · rw [hs]
    obtain ⟨vt, hvt, h1⟩ := hsame.threads.get ht
    obtain ⟨x, hx, hst⟩ := stands_var h1.locals hl
    refine ⟨_, .step .refl (.clone hvt (h1.prog.symm.trans hg) hx), hr,
      L.less ho' fun q => Nat.le_of_eq (held_snoc { th with prog := k, locals := th.locals ++ [some p] } ht rfl q),
      ⟨hsame.threads.set ⟨rfl, h1.locals.snoc (show StandsVar I s (some p) (some x) from hst)⟩ t, hsame.queues⟩, ?_, ?_⟩
    · intro u tu hu hpu
      rcases get_set hu with ⟨rfl, rfl⟩ | ⟨hut, hu⟩
      · exact (hi _).mp (h.own _ _ ht hp)
      · exact (hi u).mp (h.own u tu hu hpu)
    · intro u tu hu hpu
      rcases get_set hu with ⟨rfl, rfl⟩ | ⟨hut, hu⟩
      · exact absurd (hp.symm.trans hpu) (by simp)
      · obtain ⟨h1, v', k', h2, h3⟩ := h.calling u tu hu hpu
        have h4 : ¬ I.idle s u := fun hh => h1 ((hi u).mpr hh)
        exact ⟨h4, v', k', h2, hrun h3 h4⟩
  | @drop s t th i p k ht hp hg hl hc =>
    obtain ⟨hs, hi⟩ := L.drops h.reach hc
    have hheld := held_drop (c := w.conf) { prog := k, locals := th.locals.set i none, phase := .dropping } ht hl rfl
    have ho : I.Owns s ({ w.conf with threads := w.conf.threads.set t { prog := k, locals := th.locals.set i none, phase := .dropping } } : Conf V R P).held :=
      L.owns_drops hc (L.less h.owns fun q => Nat.le_of_eq (hheld q))
    have hr : I.Reach s := by
      rcases hs with hs | hs
      · exact L.steps h.reach hs
      · rw [hs]; exact h.reach
    have hrun : ∀ {u v}, running w.state u v → ¬ I.idle s u → running s u v := by
      intro u v h1 h2
      rcases hs with hs | hs
      · exact L.runs h.reach hs h1 h2
      · rw [hs]; exact h1
    obtain ⟨vt, hvt, h1⟩ := h.same.threads.get ht
    obtain ⟨x, hx, hst⟩ := stands_var h1.locals hl
    refine ⟨_, .step .refl (.drop hvt (h1.prog.symm.trans hg) hx), hr, ho, ?_, ?_, ?_⟩
    · have h2 : Same ⟨w.state, { w.conf with threads := w.conf.threads.set t { prog := k, locals := th.locals.set i none, phase := .dropping } }⟩
          { c with threads := c.threads.set t { vt with prog := k, locals := vt.locals.set i none } } :=
        ⟨h.same.threads.set ⟨rfl, h1.locals.set (show StandsVar I w.state none none from trivial) i⟩ t, h.same.queues⟩
      refine h2.stay fun q hq => ?_
      rcases hs with hs | hs
      · exact L.stable h.reach hs (L.less h.owns fun q => Nat.le_of_add_right_le (Nat.le_of_eq (hheld q))) ho hq
      · rw [hs]
    · intro u tu hu hpu
      rcases get_set hu with ⟨rfl, rfl⟩ | ⟨hut, hu⟩
      · cases hpu
      · exact (L.other'' hc u hut).mp (h.own u tu hu hpu)
    · intro u tu hu hpu
      rcases get_set hu with ⟨rfl, rfl⟩ | ⟨hut, hu⟩
      · cases hpu
      · obtain ⟨h1, v', k', h2, h3⟩ := h.calling u tu hu hpu
        have h4 : ¬ I.idle s u := fun hh => h1 ((L.other'' hc u hut).mpr hh)
        exact ⟨h4, v', k', h2, hrun h3 h4⟩
  | @dropped t th ht hp hi =>
    obtain ⟨vt, hvt, h1⟩ := h.same.threads.get ht
    refine ⟨c, .refl, h.reach, L.less h.owns fun p => Nat.le_of_eq (held_same { th with phase := .own } ht rfl p), ⟨?_, h.same.queues⟩, ?_, ?_⟩
    · have h2 := h.same.threads.set (a := { th with phase := .own }) (b := vt) ⟨h1.prog, h1.locals⟩ t
      obtain ⟨hlt, hvt⟩ := List.getElem?_eq_some_iff.mp hvt
      rw [← hvt, List.set_getElem_self] at h2
      exact h2
    · intro u tu hu hpu
      rcases get_set hu with ⟨rfl, rfl⟩ | ⟨hut, hu⟩
      · exact hi
      · exact h.own u tu hu hpu
    · intro u tu hu hpu
      rcases get_set hu with ⟨rfl, rfl⟩ | ⟨hut, hu⟩
      · cases hpu
      · exact h.calling u tu hu hpu

omit [BEq V] in
theorem held_start (ps : List (Prog V R)) (n : Nat) (p : P) : (start ps n : Conf V R P).held p = 0 := by
  have h1 : ∀ ps : List (Prog V R), ((ps.map fun p => ({ prog := p, locals := [], phase := .own } : Thread V R P)).map
      fun th => th.locals.count (some p)).sum = 0 := by
    intro ps
    induction ps with
    | nil => rfl
    | cons _ _ ih => simpa using ih
  have h2 : ∀ n, ((List.replicate n ([] : List P)).map fun l => l.count p).sum = 0 := by
    intro n
    induction n with
    | zero => rfl
    | succ n ih => simp [List.replicate_succ]
  simp only [Conf.held, start, h1, h2]

omit [DecidableEq P] in
theorem same_start (s : I.State) (ps : List (Prog V R)) (n : Nat) : Same (⟨s, start ps n⟩ : World I R) (start ps n) := by
  constructor
  · show Pairs _ (ps.map _) (ps.map _)
    induction ps with
    | nil => exact .nil
    | cons p ps ih => exact .cons ⟨rfl, .nil⟩ ih
  · show Pairs _ (List.replicate n []) (List.replicate n [])
    induction n with
    | zero => exact .nil
    | succ n ih => exact .cons .nil ih

theorem inv_start {running : I.State → Tid → V → Prop} (L : Laws I running) {ps : List (Prog V R)} {n : Nat} {w : World I R}
    (h : Starts ps n w) : Inv running w (start ps n) := by
  obtain ⟨s, cf⟩ := w
  obtain ⟨hc, hr, hO, hi⟩ := h
  subst hc
  have own : ∀ {t : Nat} {th : Thread V R P}, (start ps n : Conf V R P).threads[t]? = some th → th.phase = .own ∧ t < ps.length := by
    intro t th ht
    have h1 : (ps.map fun p => ({ prog := p, locals := [], phase := .own } : Thread V R P))[t]? = some th := ht
    obtain ⟨hlt, h2⟩ := List.getElem?_eq_some_iff.mp h1
    simp only [List.getElem_map] at h2
    rw [List.length_map] at hlt
    exact ⟨by rw [← h2], hlt⟩
  refine ⟨hr, L.less hO fun p => Nat.le_of_eq (held_start ps n p), same_start s ps n, fun t th ht _ => hi t (own ht).2, fun t th ht hp => ?_⟩
  rw [(own ht).1] at hp; cases hp

theorem inv_run [EquivBEq V] {running : I.State → Tid → V → Prop} (L : Laws I running) (hM : M.Lawful) {ps : List (Prog V R)} {n : Nat}
    {w w' : World I R} (h : Starts ps n w) (hr : WRun M w w') : ∃ c, VRun M (start ps n) c ∧ Inv running w' c := by
  induction hr with
  | refl => exact ⟨_, .refl, inv_start L h⟩
  | step _ e ih =>
    obtain ⟨c, h1, h2⟩ := ih
    obtain ⟨c', h3, h4⟩ := inv_step L hM h2 e
    exact ⟨c', h1.trans' h3, h4⟩

/-! ### One thread, computed -/

theorem eval_run {ps : List (Prog V R)} {n : Nat} {c : Conf V R V} (h : VRun M (start ps n) c) {t : Nat} {p : Prog V R}
    (hp : ps[t]? = some p) (ha : p.Alone) : ∃ th, c.threads[t]? = some th ∧ th.prog.Alone ∧ th.prog.eval M th.locals = p.eval M [] := by
  induction h with
  | refl => exact ⟨⟨p, [], .own⟩, by simp [start, hp], ha, rfl⟩
  | @step c' c'' _ e ih =>
    obtain ⟨th, h1, h2, h3⟩ := ih
    have set : ∀ {u : Nat} {tu tu' : Thread V R V}, c'.threads[u]? = some tu →
        (tu.prog.Alone → tu'.prog.Alone ∧ tu'.prog.eval M tu'.locals = tu.prog.eval M tu.locals) →
        ∃ th, (c'.threads.set u tu')[t]? = some th ∧ th.prog.Alone ∧ th.prog.eval M th.locals = p.eval M [] := by
      intro u tu tu' hu hh
      by_cases hut : t = u
      · subst hut
        rw [h1] at hu; cases hu
        obtain ⟨h4, h5⟩ := hh h2
        exact ⟨tu', by simp [(List.getElem?_eq_some_iff.mp h1).1], h4, h5.trans h3⟩
      · exact ⟨th, by rw [List.getElem?_set_ne (Ne.symm hut)]; exact h1, h2, h3⟩
    cases e with
    | @look u tu tu' qs hu hl =>
      refine set hu fun hal => ?_
      cases hl with
      | @eq i j k x y b e hi hj hb =>
        have hb : b = (x == y) := hb
        subst hb
        rw [e] at hal
        cases hal with
        | eq hk => exact ⟨hk _, by simp only [e, Prog.eval, hi, hj]⟩
      | @cmp i j k x y o e hi hj hb =>
        have hb : o = M.cmp x y := hb
        subst hb
        rw [e] at hal
        cases hal with
        | cmp hk => exact ⟨hk _, by simp only [e, Prog.eval, hi, hj]⟩
      | @read i k x y e hi hb =>
        have hb : (y == x) = true := hb
        rw [e] at hal
        cases hal with
        | read hk hs =>
          refine ⟨hk _, ?_⟩
          rw [hs y x hb]
          simp only [e, Prog.eval, hi]
      | give e => rw [e] at hal; cases hal
      | take e => rw [e] at hal; cases hal
    | @intern u tu v k hu e =>
      refine set hu fun hal => ?_
      rw [e] at hal
      cases hal with
      | intern hk => exact ⟨hk, by simp only [e, Prog.eval]⟩
    | @clone u tu i x k hu e hi =>
      refine set hu fun hal => ?_
      rw [e] at hal
      cases hal with
      | clone hk => exact ⟨hk, by simp only [e, Prog.eval, hi]⟩
    | @drop u tu i x k hu e hi =>
      refine set hu fun hal => ?_
      rw [e] at hal
      cases hal with
      | drop hk => exact ⟨hk, by simp only [e, Prog.eval, hi]⟩

/-! ### The theorems, for any interner -/

theorem refines [EquivBEq V] {running : I.State → Tid → V → Prop} (L : Laws I running) (hM : M.Lawful) {ps : List (Prog V R)} {n : Nat}
    {w w' : World I R} (h : Starts ps n w) (hr : WRun M w w') : ∃ c, VRun M (start ps n) c ∧ c.progs = w'.conf.progs ∧ Same w' c := by
  obtain ⟨c, h1, h2⟩ := inv_run L hM h hr
  exact ⟨c, h1, h2.same.progs, h2.same⟩

theorem evaluates [EquivBEq V] {running : I.State → Tid → V → Prop} (L : Laws I running) (hM : M.Lawful) {ps : List (Prog V R)} {n : Nat}
    {w w' : World I R} (h : Starts ps n w) (hr : WRun M w w') {t : Nat} {p : Prog V R} (hp : ps[t]? = some p) (ha : p.Alone) {r : R}
    (hd : w'.conf.progs[t]? = some (.done r)) : p.eval M [] = some r := by
  obtain ⟨c, h1, h2, _⟩ := refines L hM h hr
  obtain ⟨th, h3, _, h4⟩ := eval_run h1 hp ha
  rw [← h2] at hd
  simp only [Conf.progs, List.getElem?_map, h3, Option.map_some, Option.some.injEq] at hd
  rw [hd] at h4
  exact h4.symm

theorem usable_looks [EquivBEq V] {running : I.State → Tid → V → Prop} (L : Laws I running) (hM : M.Lawful) {ps : List (Prog V R)} {n : Nat}
    {w w' : World I R} (h : Starts ps n w) (hr : WRun M w w') {t : Nat} {th : Thread V R P} (ht : w'.conf.threads[t]? = some th)
    (hu : th.usable) : ∃ th', Look (I.view M w'.state) th w'.conf.queues th' w'.conf.queues := by
  obtain ⟨c, h1, h2⟩ := inv_run L hM h hr
  have key : ∀ {i : Nat} {p : P}, th.locals[i]? = some (some p) → ∃ x, I.deref w'.state p = some x := by
    intro i p hi
    obtain ⟨x, _, h3, _⟩ := L.canonical h2.reach h2.owns (held_local ht (List.mem_of_getElem? hi)) (held_local ht (List.mem_of_getElem? hi))
    exact ⟨x, h3⟩
  unfold Thread.usable at hu
  split at hu
  · rename_i i j k e
    obtain ⟨⟨p, hp⟩, q, hq⟩ := hu
    exact ⟨_, .eq e hp hq rfl⟩
  · rename_i i j k e
    obtain ⟨⟨p, hp⟩, q, hq⟩ := hu
    obtain ⟨x, hx⟩ := key hp
    obtain ⟨y, hy⟩ := key hq
    exact ⟨_, .cmp e hp hq (show Traits.cmp (I.deref w'.state) M p q = some (M.cmp x y) by simp only [Traits.cmp, Traits.both, hx, hy])⟩
  · rename_i i k e
    obtain ⟨p, hp⟩ := hu
    obtain ⟨x, hx⟩ := key hp
    exact ⟨_, .read e hp hx⟩
  · exact hu.elim

end
end Client
