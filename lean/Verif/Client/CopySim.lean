import Verif.Client.Copy
import Verif.Client.Sim
import Verif.Client.TermSim
/-
Why handles that are `Copy` stand for trees (C96). A program never forgets a handle, so that the children of a node that it has built are among
its handles; and a handle of the program leads to the same node for ever.
-/
namespace Client.Copy
open Arc (Tree)
open Client.Term (label kids same same_iff)

/-! ### Handles and trees -/

section
variable {L P : Type} {d d' : P → Option (Node L P)}

mutual
theorem stands_fun {p : P} : ∀ {t u : Tree L}, Stands d p t → Stands d p u → t = u
  | .node _ _, _, .node h1 a1, .node h2 a2 => by
    rw [h1] at h2; cases h2
    rw [standsAll_fun a1 a2]
theorem standsAll_fun : ∀ {ps : List P} {ts us : List (Tree L)}, StandsAll d ps ts → StandsAll d ps us → ts = us
  | _, [], _, .nil, .nil => rfl
  | _, _ :: _, _, .cons h1 a1, .cons h2 a2 => by rw [stands_fun h1 h2, standsAll_fun a1 a2]
end

mutual
/-- `A` contains the children of its nodes, and its nodes do not change. -/
theorem stands_keep {A : List P} (hc : ∀ p ∈ A, ∀ x, d p = some x → ∀ k ∈ x.kids, k ∈ A) (hd : ∀ p ∈ A, d' p = d p) {p : P} :
    ∀ {t : Tree L}, p ∈ A → Stands d p t → Stands d' p t
  | .node _ _, hp, .node h a => .node ((hd p hp).trans h) (standsAll_keep hc hd (hc p hp _ h) a)
theorem standsAll_keep {A : List P} (hc : ∀ p ∈ A, ∀ x, d p = some x → ∀ k ∈ x.kids, k ∈ A) (hd : ∀ p ∈ A, d' p = d p) :
    ∀ {ps : List P} {ts : List (Tree L)}, (∀ k ∈ ps, k ∈ A) → StandsAll d ps ts → StandsAll d' ps ts
  | _, [], _, .nil => .nil
  | _, _ :: _, hp, .cons h a => .cons (stands_keep hc hd (hp _ List.mem_cons_self) h) (standsAll_keep hc hd (fun k hk => hp k (List.mem_cons_of_mem _ hk)) a)
end

mutual
/-- In `A` there is one node for each label and children, so there is one handle for each tree. -/
theorem stands_inj {A : List P} (hc : ∀ p ∈ A, ∀ x, d p = some x → ∀ k ∈ x.kids, k ∈ A) (hu : ∀ p ∈ A, ∀ q ∈ A, ∀ x, d p = some x → d q = some x → p = q)
    {p q : P} : ∀ {t : Tree L}, p ∈ A → q ∈ A → Stands d p t → Stands d q t → p = q
  | .node _ _, hp, hq, .node h1 a1, .node h2 a2 => by
    have := standsAll_inj hc hu (hc p hp _ h1) (hc q hq _ h2) a1 a2
    subst this
    exact hu p hp q hq _ h1 h2
theorem standsAll_inj {A : List P} (hc : ∀ p ∈ A, ∀ x, d p = some x → ∀ k ∈ x.kids, k ∈ A)
    (hu : ∀ p ∈ A, ∀ q ∈ A, ∀ x, d p = some x → d q = some x → p = q) : ∀ {ps qs : List P} {ts : List (Tree L)}, (∀ k ∈ ps, k ∈ A) → (∀ k ∈ qs, k ∈ A) →
    StandsAll d ps ts → StandsAll d qs ts → ps = qs
  | _, _, [], _, _, .nil, .nil => rfl
  | _, _, _ :: _, hp, hq, .cons h1 a1, .cons h2 a2 => by
    rw [stands_inj hc hu (hp _ List.mem_cons_self) (hq _ List.mem_cons_self) h1 h2,
      standsAll_inj hc hu (fun k hk => hp k (List.mem_cons_of_mem _ hk)) (fun k hk => hq k (List.mem_cons_of_mem _ hk)) a1 a2]
end

theorem standsAll_length : ∀ {ps : List P} {ts : List (Tree L)}, StandsAll d ps ts → ps.length = ts.length
  | _, _, .nil => rfl
  | _, _, .cons _ a => by rw [List.length_cons, List.length_cons, standsAll_length a]

theorem standsAll_get : ∀ {ps : List P} {ts : List (Tree L)}, StandsAll d ps ts → ∀ {n : Nat} {p : P}, ps[n]? = some p →
    ∃ t, ts[n]? = some t ∧ Stands d p t
  | _, _, .nil, n, p, e => by simp at e
  | _, _, .cons h _, 0, p, e => by
    simp only [List.getElem?_cons_zero, Option.some.injEq] at e
    subst e; exact ⟨_, by simp, h⟩
  | _, _, .cons _ a, n + 1, p, e => by simpa using standsAll_get a (by simpa using e)

theorem pick_pairs : ∀ {is : List Nat} {l : List P} {m : List (Tree L)} {ps : List P}, Pairs (Stands d) l m → pick is l = some ps →
    ∃ ts, pick is m = some ts ∧ StandsAll d ps ts
  | [], l, m, ps, _, e => by cases e; exact ⟨[], rfl, .nil⟩
  | i :: is, l, m, ps, h, e => by
    simp only [pick] at e
    split at e
    · rename_i p ps' h1 h2
      cases e
      obtain ⟨t, h3, h4⟩ := h.get h1
      obtain ⟨ts, h5, h6⟩ := pick_pairs h h2
      exact ⟨t :: ts, by simp only [pick, h3, h5], .cons h4 h6⟩
    · cases e

theorem pick_mem {H : Type} : ∀ {is : List Nat} {l ps : List H}, pick is l = some ps → ∀ p ∈ ps, p ∈ l
  | [], l, ps, e, p, hp => by cases e; cases hp
  | i :: is, l, ps, e, p, hp => by
    simp only [pick] at e
    split at e
    · rename_i q ps' h1 h2
      cases e
      rcases List.mem_cons.mp hp with rfl | hp
      · exact List.mem_of_getElem? h1
      · exact pick_mem h2 p hp
    · cases e

end

/-! ### What a program has -/

section
variable {L R P : Type}

theorem all_local {c : Conf L R P} {t : Nat} {th : Thread L R P} {p : P} (ht : c.threads[t]? = some th) (hp : p ∈ th.locals) : p ∈ c.all :=
  List.mem_append.mpr (.inl (List.mem_flatMap.mpr ⟨th, List.mem_of_getElem? ht, hp⟩))

theorem all_queue {c : Conf L R P} {q : Nat} {l : List P} {p : P} (hq : c.queues[q]? = some l) (hp : p ∈ l) : p ∈ c.all :=
  List.mem_append.mpr (.inr (List.mem_flatten.mpr ⟨l, List.mem_of_getElem? hq, hp⟩))

/-- Changing a thread and the queues. -/
theorem all_set {c : Conf L R P} {t : Nat} {th' : Thread L R P} {qs : List (List P)} {p : P} :
    p ∈ ({ threads := c.threads.set t th', queues := qs } : Conf L R P).all → p ∈ th'.locals ∨ (∃ l ∈ qs, p ∈ l) ∨ p ∈ c.all := by
  intro h
  rcases List.mem_append.mp h with h | h
  · obtain ⟨x, hx, hp⟩ := List.mem_flatMap.mp h
    obtain ⟨u, hu⟩ := List.getElem?_of_mem hx
    rcases get_set hu with ⟨_, rfl⟩ | ⟨_, hu⟩
    · exact .inl hp
    · exact .inr (.inr (all_local hu hp))
  · exact .inr (.inl (List.mem_flatten.mp h))

/-- And the other way. -/
theorem all_set' {c : Conf L R P} {t : Nat} {th th' : Thread L R P} {qs : List (List P)} (ht : c.threads[t]? = some th)
    (hl : ∀ p ∈ th.locals, p ∈ th'.locals) (hq : ∀ l ∈ c.queues, ∀ p ∈ l, p ∈ th'.locals ∨ ∃ l ∈ qs, p ∈ l) {p : P} (h : p ∈ c.all) :
    p ∈ ({ threads := c.threads.set t th', queues := qs } : Conf L R P).all := by
  have hlt := (List.getElem?_eq_some_iff.mp ht).1
  have here : p ∈ th'.locals → p ∈ ({ threads := c.threads.set t th', queues := qs } : Conf L R P).all := fun hp =>
    all_local (t := t) (th := th') (by simp [hlt]) hp
  rcases List.mem_append.mp h with h | h
  · obtain ⟨x, hx, hp⟩ := List.mem_flatMap.mp h
    obtain ⟨u, hu⟩ := List.getElem?_of_mem hx
    by_cases hut : u = t
    · subst hut
      rw [ht] at hu; cases hu
      exact here (hl p hp)
    · exact all_local (t := u) (th := x) (by simp only; rw [List.getElem?_set_ne (Ne.symm hut)]; exact hu) hp
  · obtain ⟨l, h1, h2⟩ := List.mem_flatten.mp h
    rcases hq l h1 p h2 with h | ⟨l', h3, h4⟩
    · exact here h
    · exact List.mem_append.mpr (.inr (List.mem_flatten.mpr ⟨l', h3, h4⟩))

end

/-! ### The simulation -/

section
variable {L R P : Type} [DecidableEq P] [BEq L] [LawfulBEq L] {I : Interner (Node L P) P}

/-- Handles are `Copy`: to have some means no more than that they were returned once. -/
def Copies (I : Interner (Node L P) P) : Prop := ∀ {s : I.State} {n m : P → Nat}, I.Owns s n → (∀ p, 0 < m p → 0 < n p) → I.Owns s m

/-- What holds in every execution. -/
structure Inv (running : I.State → Tid → Node L P → Prop) (w : World I R) (c : Conf L R (Tree L)) : Prop where
  reach : I.Reach w.state
  owns : Owned I w.state w.conf
  same : Same w c
  closed : ∀ p ∈ w.conf.all, ∀ x, I.deref w.state p = some x → ∀ k ∈ x.kids, k ∈ w.conf.all
  own : ∀ t th, w.conf.threads[t]? = some th → th.busy = false → I.idle w.state t
  calling : ∀ t th, w.conf.threads[t]? = some th → th.busy = true → ¬ I.idle w.state t ∧
    ∃ l is k ps, th.prog = .build l is k ∧ pick is th.locals = some ps ∧ running w.state t ⟨l, ps⟩

omit [DecidableEq P] [BEq L] [LawfulBEq L] in
theorem Same.progs {w : World I R} {c : Conf L R (Tree L)} (h : Same w c) : c.progs = w.conf.progs := by
  have key : ∀ {l : List (Thread L R P)} {m : List (Thread L R (Tree L))}, Pairs (SameThread (I.deref w.state)) l m →
      m.map (·.prog) = l.map (·.prog) := by
    intro l m h
    induction h with
    | nil => rfl
    | cons h1 _ ih => simp only [List.map_cons, ih, h1.prog]
  exact key h.threads

omit [DecidableEq P] [BEq L] [LawfulBEq L] in
/-- The state changes, and what the program has is as it was. -/
theorem Same.stay {s s' : I.State} {cf : Conf L R P} {c : Conf L R (Tree L)} (h : Same ⟨s, cf⟩ c)
    (hc : ∀ p ∈ cf.all, ∀ x, I.deref s p = some x → ∀ k ∈ x.kids, k ∈ cf.all) (hd : ∀ p ∈ cf.all, I.deref s' p = I.deref s p) : Same ⟨s', cf⟩ c := by
  refine ⟨h.threads.mono fun th hth th' h1 => ⟨h1.prog, h1.locals.mono fun p hp x hx => ?_⟩, h.queues.mono fun l hl l' h1 => h1.mono fun p hp x hx => ?_⟩
  · obtain ⟨t, ht⟩ := List.getElem?_of_mem hth
    exact stands_keep hc hd (all_local ht hp) hx
  · obtain ⟨q, hq⟩ := List.getElem?_of_mem hl
    exact stands_keep hc hd (all_queue hq hp) hx

omit [BEq L] [LawfulBEq L] in
theorem owned_pos {c : Conf L R P} {p : P} (h : p ∈ c.all) : 0 < c.all.count p := List.count_pos_iff.mpr h

omit [BEq L] [LawfulBEq L] in
theorem Copies.mono (hC : Copies I) {s : I.State} {c c' : Conf L R P} (h : Owned I s c) (hm : ∀ p ∈ c'.all, p ∈ c.all) : Owned I s c' :=
  hC h fun p hp => owned_pos (hm p (List.count_pos_iff.mp hp))

variable {running : I.State → Tid → Node L P → Prop}

theorem Inv.unique (W : Laws I running) {w : World I R} {c : Conf L R (Tree L)} (h : Inv running w c) :
    ∀ p ∈ w.conf.all, ∀ q ∈ w.conf.all, ∀ x, I.deref w.state p = some x → I.deref w.state q = some x → p = q := by
  intro p hp q hq x h1 h2
  obtain ⟨a, b, h3, h4, h5⟩ := W.canonical h.reach h.owns (owned_pos hp) (owned_pos hq)
  rw [h1] at h3; cases h3
  rw [h2] at h4; cases h4
  exact h5.mpr (by simp)

/-- Handles are equal just if their trees are. -/
theorem Inv.equal (W : Laws I running) {w : World I R} {c : Conf L R (Tree L)} (h : Inv running w c) {p q : P} (hp : p ∈ w.conf.all)
    (hq : q ∈ w.conf.all) {t u : Tree L} (ht : Stands (I.deref w.state) p t) (hu : Stands (I.deref w.state) q u) : p = q ↔ t = u := by
  constructor
  · rintro rfl; exact stands_fun ht hu
  · rintro rfl; exact stands_inj h.closed (h.unique W) hp hq ht hu

/-- A step of a thread that does not call. -/
theorem look_sim (W : Laws I running) {w : World I R} {c : Conf L R (Tree L)} (h : Inv running w c) {t : Nat} {th th' : Thread L R P}
    {qs : List (List P)} (ht : w.conf.threads[t]? = some th) (hl : Look (handles I w.state) th w.conf.queues th' qs) :
    ∃ c', VStep c c' ∧ Same (⟨w.state, { threads := w.conf.threads.set t th', queues := qs }⟩ : World I R) c' := by
  obtain ⟨vt, hvt, hs⟩ := h.same.threads.get ht
  cases hl with
  | @eq i j k p q b e hi hj hb =>
    obtain ⟨x, h1, h2⟩ := hs.locals.get hi
    obtain ⟨y, h3, h4⟩ := hs.locals.get hj
    refine ⟨_, .look hvt (.eq (hs.prog.symm.trans e) h1 h3 rfl),
      h.same.threads.set (a := { th with prog := k b }) (b := { vt with prog := k (same x y) }) ⟨?_, hs.locals⟩ t, h.same.queues⟩
    have hb : b = Traits.eq p q := hb
    show k b = k (same x y)
    congr 1
    rw [hb, Bool.eq_iff_iff, same_iff, ← h.equal W (all_local ht (List.mem_of_getElem? hi)) (all_local ht (List.mem_of_getElem? hj)) h2 h4]
    simp [Traits.eq]
  | @node i k p l n e hi hb =>
    obtain ⟨x, h1, h2⟩ := hs.locals.get hi
    obtain ⟨ks, hd, hn⟩ := hb
    cases h2 with
    | @node _ l' ks' ts h3 a =>
      rw [hd] at h3; cases h3
      refine ⟨_, .look hvt (.node (hs.prog.symm.trans e) h1 ⟨rfl, rfl⟩),
        h.same.threads.set (a := { th with prog := k l n }) (b := { vt with prog := k l ts.length }) ⟨?_, hs.locals⟩ t, h.same.queues⟩
      show k l n = k l ts.length
      rw [hn, standsAll_length a]
  | @kid i n k p q e hi hb =>
    obtain ⟨x, h1, h2⟩ := hs.locals.get hi
    obtain ⟨l, ks, hd, hn⟩ := hb
    cases h2 with
    | @node _ l' ks' ts h3 a =>
      rw [hd] at h3; cases h3
      obtain ⟨u, h4, h5⟩ := standsAll_get a hn
      exact ⟨_, .look hvt (.kid (hs.prog.symm.trans e) h1 h4), h.same.threads.set ⟨rfl, hs.locals.snoc h5⟩ t, h.same.queues⟩
  | @give q i k p l e hi hq =>
    obtain ⟨y, h1, h2⟩ := hs.locals.get hi
    obtain ⟨l', h3, h4⟩ := h.same.queues.get hq
    exact ⟨_, .look hvt (.give (hs.prog.symm.trans e) h1 h3),
      h.same.threads.set (a := { th with prog := k }) (b := { vt with prog := k }) ⟨rfl, hs.locals⟩ t, h.same.queues.set (h4.snoc h2) q⟩
  | @take q k p l e hq =>
    obtain ⟨l', h3, h4⟩ := h.same.queues.get hq
    cases h4 with
    | @cons _ x _ _ h5 h6 =>
      exact ⟨_, .look hvt (.take (hs.prog.symm.trans e) h3), h.same.threads.set ⟨rfl, hs.locals.snoc h5⟩ t, h.same.queues.set h6 q⟩

omit [BEq L] [LawfulBEq L] in
/-- It changes what the program has only by children of nodes. -/
theorem look_all {s : I.State} {cf : Conf L R P} {t : Nat} {th th' : Thread L R P} {qs : List (List P)} (ht : cf.threads[t]? = some th)
    (hc : ∀ p ∈ cf.all, ∀ x, I.deref s p = some x → ∀ k ∈ x.kids, k ∈ cf.all) (hl : Look (handles I s) th cf.queues th' qs) (p : P) :
    p ∈ ({ threads := cf.threads.set t th', queues := qs } : Conf L R P).all ↔ p ∈ cf.all := by
  have old : ∀ l ∈ cf.queues, p ∈ l → p ∈ cf.all := fun l hl hp => List.mem_append.mpr (.inr (List.mem_flatten.mpr ⟨l, hl, hp⟩))
  constructor
  · intro hm
    rcases all_set hm with hx | ⟨l, hq, hx⟩ | hx
    · cases hl with
      | eq => exact all_local ht hx
      | node => exact all_local ht hx
      | @kid i n k p0 q e hi hb =>
        rcases List.mem_append.mp hx with hx | hx
        · exact all_local ht hx
        · obtain ⟨l, ks, hd, hn⟩ := hb
          cases List.mem_singleton.mp hx
          exact hc p0 (all_local ht (List.mem_of_getElem? hi)) _ hd _ (List.mem_of_getElem? hn)
      | give => exact all_local ht hx
      | @take q k p0 l e hq =>
        rcases List.mem_append.mp hx with hx | hx
        · exact all_local ht hx
        · cases List.mem_singleton.mp hx
          exact all_queue hq List.mem_cons_self
    · cases hl with
      | eq => exact old l hq hx
      | node => exact old l hq hx
      | kid => exact old l hq hx
      | @give q i k p0 l0 e hi hq0 =>
        rcases List.mem_or_eq_of_mem_set hq with hq | rfl
        · exact old l hq hx
        · rcases List.mem_append.mp hx with hx | hx
          · exact all_queue hq0 hx
          · cases List.mem_singleton.mp hx
            exact all_local ht (List.mem_of_getElem? hi)
      | @take q k p0 l0 e hq0 =>
        rcases List.mem_or_eq_of_mem_set hq with hq | rfl
        · exact old l hq hx
        · exact all_queue hq0 (List.mem_cons_of_mem _ hx)
    · exact hx
  · intro h
    cases hl with
    | @eq _ _ k _ _ b => exact all_set' (th' := { th with prog := k b }) ht (fun _ h => h) (fun l hl p hp => .inr ⟨l, hl, hp⟩) h
    | @node _ k _ l n => exact all_set' (th' := { th with prog := k l n }) ht (fun _ h => h) (fun l hl p hp => .inr ⟨l, hl, hp⟩) h
    | kid => exact all_set' ht (fun _ h => List.mem_append.mpr (.inl h)) (fun l hl p hp => .inr ⟨l, hl, hp⟩) h
    | @give q i k p0 l0 e hi hq0 =>
      refine all_set' (th' := { th with prog := k }) ht (fun _ h => h) (fun l hl p hp => .inr ?_) h
      obtain ⟨u, hu⟩ := List.getElem?_of_mem hl
      by_cases huq : u = q
      · subst huq
        rw [hq0] at hu; cases hu
        exact ⟨l0 ++ [p0], List.mem_iff_getElem?.mpr ⟨u, by simp [(List.getElem?_eq_some_iff.mp hq0).1]⟩, List.mem_append.mpr (.inl hp)⟩
      · exact ⟨l, List.mem_iff_getElem?.mpr ⟨u, by rw [List.getElem?_set_ne (Ne.symm huq)]; exact hu⟩, hp⟩
    | @take q k p0 l0 e hq0 =>
      refine all_set' ht (fun _ h => List.mem_append.mpr (.inl h)) (fun l hl p hp => ?_) h
      obtain ⟨u, hu⟩ := List.getElem?_of_mem hl
      by_cases huq : u = q
      · subst huq
        rw [hq0] at hu; cases hu
        rcases List.mem_cons.mp hp with rfl | hp
        · exact .inl (by simp)
        · exact .inr ⟨l0, List.mem_iff_getElem?.mpr ⟨u, by simp [(List.getElem?_eq_some_iff.mp hq0).1]⟩, hp⟩
      · exact .inr ⟨l, List.mem_iff_getElem?.mpr ⟨u, by rw [List.getElem?_set_ne (Ne.symm huq)]; exact hu⟩, hp⟩

theorem inv_step (W : Laws I running) (hC : Copies I) {w w' : World I R} {c : Conf L R (Tree L)} (h : Inv running w c) (e : WStep w w') :
    ∃ c', (c' = c ∨ VStep c c') ∧ Inv running w' c' := by
  have stable : ∀ {s : I.State}, I.Step w.state s → Owned I s w.conf → ∀ p ∈ w.conf.all, I.deref s p = I.deref w.state p :=
    fun hs ho p hp => W.stable h.reach hs h.owns ho (owned_pos hp)
  have closed : ∀ {s : I.State}, I.Step w.state s → Owned I s w.conf → ∀ p ∈ w.conf.all, ∀ x, I.deref s p = some x → ∀ k ∈ x.kids, k ∈ w.conf.all :=
    fun hs ho p hp x hx => h.closed p hp x ((stable hs ho p hp).symm.trans hx)
  cases e with
  | @inside s hs hi ho =>
    have lt : ∀ {t : Nat} {th : Thread L R P}, w.conf.threads[t]? = some th → t < w.conf.threads.length := fun h => (List.getElem?_eq_some_iff.mp h).1
    refine ⟨c, .inl rfl, W.steps h.reach hs, ho, h.same.stay h.closed (stable hs ho), closed hs ho, ?_, ?_⟩
    · intro t th ht hp
      exact (hi t (lt ht)).mp (h.own t th ht hp)
    · intro t th ht hp
      obtain ⟨h1, l, is, k, ps, h2, h2', h3⟩ := h.calling t th ht hp
      have h4 : ¬ I.idle s t := fun hh => h1 ((hi t (lt ht)).mpr hh)
      exact ⟨h4, l, is, k, ps, h2, h2', W.runs h.reach hs h3 h4⟩
  | @look t th th' qs ht hp hl =>
    obtain ⟨c', h1, h2⟩ := look_sim W h ht hl
    have hph : th'.busy = false := by cases hl <;> exact hp
    have hall := look_all ht h.closed hl
    refine ⟨c', .inr h1, h.reach, hC.mono h.owns fun p hp => (hall p).mp hp, h2, ?_, ?_, ?_⟩
    · intro p hp x hx k hk
      exact (hall k).mpr (h.closed p ((hall p).mp hp) x hx k hk)
    · intro u tu hu hpu
      rcases get_set hu with ⟨rfl, rfl⟩ | ⟨_, hu⟩
      · exact h.own _ _ ht hp
      · exact h.own u tu hu hpu
    · intro u tu hu hpu
      rcases get_set hu with ⟨rfl, rfl⟩ | ⟨_, hu⟩
      · rw [hph] at hpu; cases hpu
      · exact h.calling u tu hu hpu
  | @call s t th l is k ps ht hp hg hpk hc ho =>
    obtain ⟨hs, hi, hni, hrun⟩ := W.calls h.reach hc
    have hsame : Same ⟨s, w.conf⟩ c := h.same.stay h.closed (stable hs ho)
    obtain ⟨vt, hvt, h1⟩ := hsame.threads.get ht
    have hall : ∀ p, p ∈ ({ w.conf with threads := w.conf.threads.set t { th with busy := true } } : Conf L R P).all ↔ p ∈ w.conf.all := by
      intro p
      constructor
      · intro hp
        rcases all_set hp with hp | ⟨l, hl, hp⟩ | hp
        · exact all_local ht hp
        · exact List.mem_append.mpr (.inr (List.mem_flatten.mpr ⟨l, hl, hp⟩))
        · exact hp
      · exact all_set' (th' := { th with busy := true }) ht (fun _ h => h) fun l hl p hp => .inr ⟨l, hl, hp⟩
    refine ⟨c, .inl rfl, W.steps h.reach hs, hC.mono ho fun p hp => (hall p).mp hp, ⟨?_, hsame.queues⟩, ?_, ?_, ?_⟩
    · have h2 := hsame.threads.set (a := { th with busy := true }) (b := vt) ⟨h1.prog, h1.locals⟩ t
      obtain ⟨hlt, hvt⟩ := List.getElem?_eq_some_iff.mp hvt
      rw [← hvt, List.set_getElem_self] at h2
      exact h2
    · intro p hp x hx k hk
      exact (hall k).mpr (closed hs ho p ((hall p).mp hp) x hx k hk)
    · intro u tu hu hpu
      rcases get_set hu with ⟨rfl, rfl⟩ | ⟨hut, hu⟩
      · cases hpu
      · exact (W.other hc u hut).mp (h.own u tu hu hpu)
    · intro u tu hu hpu
      rcases get_set hu with ⟨rfl, rfl⟩ | ⟨hut, hu⟩
      · exact ⟨hni, l, is, k, ps, hg, hpk, hrun⟩
      · obtain ⟨h1, l', is', k', ps', h2, h2', h3⟩ := h.calling u tu hu hpu
        have h4 : ¬ I.idle s u := fun hh => h1 ((W.other hc u hut).mpr hh)
        exact ⟨h4, l', is', k', ps', h2, h2', W.runs h.reach hs h3 h4⟩
  | @ret s t th l is k b ht hp hg hc =>
    obtain ⟨hs, hi, hni⟩ := W.returns h.reach hc
    obtain ⟨_, l', is', k', ps, hg', hpk, hrun⟩ := h.calling t th ht hp
    rw [hg] at hg'; cases hg'
    obtain ⟨x, hx, hxv⟩ := W.result h.reach h.owns hrun hc
    have hxv := eq_of_beq hxv
    subst hxv
    have ho' := W.owns_returns h.reach hc h.owns
    have ho : Owned I s w.conf := W.less ho' fun p => Nat.le_add_right _ _
    have hsame : Same ⟨s, w.conf⟩ c := h.same.stay h.closed (stable hs ho)
    obtain ⟨vt, hvt, h1⟩ := hsame.threads.get ht
    obtain ⟨ts, hts, hst⟩ := pick_pairs h1.locals hpk
    have hall : ∀ p, p ∈ ({ w.conf with threads := w.conf.threads.set t { prog := k, locals := th.locals ++ [b], busy := false } } : Conf L R P).all →
        p ∈ w.conf.all ∨ p = b := by
      intro p hp
      rcases all_set hp with hp | ⟨l, hl, hp⟩ | hp
      · rcases List.mem_append.mp hp with hp | hp
        · exact .inl (all_local ht hp)
        · exact .inr (List.mem_singleton.mp hp)
      · exact .inl (List.mem_append.mpr (.inr (List.mem_flatten.mpr ⟨l, hl, hp⟩)))
      · exact .inl hp
    have hall' : ∀ p ∈ w.conf.all,
        p ∈ ({ w.conf with threads := w.conf.threads.set t { prog := k, locals := th.locals ++ [b], busy := false } } : Conf L R P).all :=
      fun p hp => all_set' ht (fun _ h => List.mem_append.mpr (.inl h)) (fun l hl p hp => .inr ⟨l, hl, hp⟩) hp
    refine ⟨_, .inr (.build hvt (h1.prog.symm.trans hg) hts), W.steps h.reach hs, ?_,
      ⟨hsame.threads.set ⟨rfl, h1.locals.snoc (.node hx hst)⟩ t, hsame.queues⟩, ?_, ?_, ?_⟩
    · refine hC ho' fun p hp => ?_
      rcases hall p (List.count_pos_iff.mp hp) with h | rfl
      · exact Nat.lt_of_lt_of_le (owned_pos h) (Nat.le_add_right _ _)
      · simp
    · intro p hp y hy k hk
      rcases hall p hp with hp | rfl
      · exact hall' k (closed hs ho p hp y hy k hk)
      · rw [hx] at hy; cases hy
        exact hall' k (all_local ht (pick_mem hpk k hk))
    · intro u tu hu hpu
      rcases get_set hu with ⟨rfl, rfl⟩ | ⟨hut, hu⟩
      · exact hni
      · exact (W.other' hc u hut).mp (h.own u tu hu hpu)
    · intro u tu hu hpu
      rcases get_set hu with ⟨rfl, rfl⟩ | ⟨hut, hu⟩
      · cases hpu
      · obtain ⟨h1, l', is', k', ps', h2, h2', h3⟩ := h.calling u tu hu hpu
        have h4 : ¬ I.idle s u := fun hh => h1 ((W.other' hc u hut).mpr hh)
        exact ⟨h4, l', is', k', ps', h2, h2', W.runs h.reach hs h3 h4⟩

omit [DecidableEq P] [BEq L] [LawfulBEq L] in
theorem all_start (ps : List (Prog L R)) (n : Nat) : (start ps n : Conf L R P).all = [] := by
  have h1 : (ps.map fun p => ({ prog := p, locals := [], busy := false } : Thread L R P)).flatMap (·.locals) = [] := by
    induction ps with
    | nil => rfl
    | cons _ _ ih => simp
  have h2 : (List.replicate n ([] : List P)).flatten = [] := by
    induction n with
    | zero => rfl
    | succ n ih => simp [List.replicate_succ]
  simp only [Conf.all, start, h1, h2, List.append_nil]

omit [BEq L] [LawfulBEq L] in
theorem inv_start {ps : List (Prog L R)} {n : Nat} {w : World I R} (h : Starts ps n w) : Inv running w (start ps n) := by
  obtain ⟨s, cf⟩ := w
  obtain ⟨hc, hr, hO, hi⟩ := h
  simp only at hc
  subst hc
  have own : ∀ {t : Nat} {th : Thread L R P}, (start ps n : Conf L R P).threads[t]? = some th → th.busy = false ∧ t < ps.length := by
    intro t th ht
    have h1 : (ps.map fun p => ({ prog := p, locals := [], busy := false } : Thread L R P))[t]? = some th := ht
    obtain ⟨hlt, h2⟩ := List.getElem?_eq_some_iff.mp h1
    simp only [List.getElem_map] at h2
    rw [List.length_map] at hlt
    exact ⟨by rw [← h2], hlt⟩
  refine ⟨hr, ?_, ⟨?_, ?_⟩, ?_, fun t th ht _ => hi t (own ht).2, fun t th ht hp => ?_⟩
  · simp only [Owned, all_start]
    exact hO
  · show Pairs _ (ps.map _) (ps.map _)
    clear hi own hO hr
    induction ps with
    | nil => exact .nil
    | cons p ps ih => exact .cons ⟨rfl, .nil⟩ ih
  · show Pairs _ (List.replicate n []) (List.replicate n [])
    clear own hi hO hr
    induction n with
    | zero => exact .nil
    | succ n ih => exact .cons .nil ih
  · intro p hp
    simp only [all_start] at hp
    cases hp
  · rw [(own ht).1] at hp; cases hp

theorem inv_run (W : Laws I running) (hC : Copies I) {ps : List (Prog L R)} {n : Nat} {w w' : World I R} (h : Starts ps n w) (hr : WRun w w') :
    ∃ c, VRun (start ps n) c ∧ Inv running w' c := by
  induction hr with
  | refl => exact ⟨_, .refl, inv_start h⟩
  | step _ e ih =>
    obtain ⟨c, h1, h2⟩ := ih
    obtain ⟨c', h3 | h3, h4⟩ := inv_step W hC h2 e
    · subst h3; exact ⟨c', h1, h4⟩
    · exact ⟨c', .step h1 h3, h4⟩

/-! ### One thread, computed -/

omit [DecidableEq P] [LawfulBEq L] in
theorem eval_run {ps : List (Prog L R)} {n : Nat} {c : Conf L R (Tree L)} (h : VRun (start ps n) c) {t : Nat} {p : Prog L R}
    (hp : ps[t]? = some p) (ha : p.Alone) : ∃ th, c.threads[t]? = some th ∧ th.prog.Alone ∧ th.prog.eval th.locals = p.eval [] := by
  induction h with
  | refl => exact ⟨⟨p, [], false⟩, by simp [start, hp], ha, rfl⟩
  | @step c' c'' _ e ih =>
    obtain ⟨th, h1, h2, h3⟩ := ih
    have set : ∀ {u : Nat} {tu tu' : Thread L R (Tree L)}, c'.threads[u]? = some tu →
        (tu.prog.Alone → tu'.prog.Alone ∧ tu'.prog.eval tu'.locals = tu.prog.eval tu.locals) →
        ∃ th, (c'.threads.set u tu')[t]? = some th ∧ th.prog.Alone ∧ th.prog.eval th.locals = p.eval [] := by
      intro u tu tu' hu hh
      by_cases hut : t = u
      · subst hut
        rw [h1] at hu; cases hu
        obtain ⟨h4, h5⟩ := hh h2
        exact ⟨tu', by simp [(List.getElem?_eq_some_iff.mp h1).1], h4, h5.trans h3⟩
      · exact ⟨th, by rw [List.getElem?_set_ne (Ne.symm hut)]; exact h1, h2, h3⟩
    cases e with
    | @look u tu tu' qs hu hl =>
      refine set hu fun hal => ?_
      cases hl with
      | @eq i j k x y b e hi hj hb =>
        have hb : b = same x y := hb
        subst hb
        rw [e] at hal
        cases hal with
        | eq hk => exact ⟨hk _, by simp only [e, Prog.eval, hi, hj]⟩
      | @node i k x l n e hi hb =>
        obtain ⟨rfl, rfl⟩ := hb
        rw [e] at hal
        cases hal with
        | node hk => exact ⟨hk _ _, by simp only [e, Prog.eval, hi]⟩
      | @kid i n k x y e hi hb =>
        have hb : (kids x)[n]? = some y := hb
        rw [e] at hal
        cases hal with
        | kid hk => exact ⟨hk, by simp only [e, Prog.eval, hi, hb]⟩
      | give e => rw [e] at hal; cases hal
      | take e => rw [e] at hal; cases hal
    | @build u tu l is k ts hu e hpk =>
      refine set hu fun hal => ?_
      rw [e] at hal
      cases hal with
      | build hk => exact ⟨hk, by simp only [e, Prog.eval, hpk]⟩

/-! ### The theorems, for any interner whose handles are `Copy` -/

theorem refines (W : Laws I running) (hC : Copies I) {ps : List (Prog L R)} {n : Nat} {w w' : World I R} (h : Starts ps n w) (hr : WRun w w') :
    ∃ c, VRun (start ps n) c ∧ c.progs = w'.conf.progs ∧ Same w' c := by
  obtain ⟨c, h1, h2⟩ := inv_run W hC h hr
  exact ⟨c, h1, h2.same.progs, h2.same⟩

theorem evaluates (W : Laws I running) (hC : Copies I) {ps : List (Prog L R)} {n : Nat} {w w' : World I R} (h : Starts ps n w) (hr : WRun w w')
    {t : Nat} {p : Prog L R} (hp : ps[t]? = some p) (ha : p.Alone) {r : R} (hd : w'.conf.progs[t]? = some (.done r)) : p.eval [] = some r := by
  obtain ⟨c, h1, h2, _⟩ := refines W hC h hr
  obtain ⟨th, h3, _, h4⟩ := eval_run h1 hp ha
  rw [← h2] at hd
  simp only [Conf.progs, List.getElem?_map, h3, Option.map_some, Option.some.injEq] at hd
  rw [hd] at h4
  exact h4.symm

theorem equal (W : Laws I running) (hC : Copies I) {ps : List (Prog L R)} {n : Nat} {w w' : World I R} (h : Starts ps n w) (hr : WRun w w')
    {t u : Nat} {th tu : Thread L R P} (ht : w'.conf.threads[t]? = some th) (hu : w'.conf.threads[u]? = some tu) {i j : Nat} {p q : P}
    (hi : th.locals[i]? = some p) (hj : tu.locals[j]? = some q) :
    ∃ x y, Stands (I.deref w'.state) p x ∧ Stands (I.deref w'.state) q y ∧ (Traits.eq p q = true ↔ x = y) := by
  obtain ⟨c, _, h2⟩ := inv_run W hC h hr
  obtain ⟨vt, _, h3⟩ := h2.same.threads.get ht
  obtain ⟨vu, _, h4⟩ := h2.same.threads.get hu
  obtain ⟨x, _, hx⟩ := h3.locals.get hi
  obtain ⟨y, _, hy⟩ := h4.locals.get hj
  refine ⟨x, y, hx, hy, ?_⟩
  rw [← h2.equal W (all_local ht (List.mem_of_getElem? hi)) (all_local hu (List.mem_of_getElem? hj)) hx hy]
  simp [Traits.eq]

end
end Client.Copy
