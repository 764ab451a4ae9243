import Verif.Alias.Facts
/-!
Lemmas about Tree Borrows for C69.
-/
namespace Alias.Tree

theorem mapM_some {α : Type} {f : α → Option α} {g : α → α} : ∀ {s : List α}, (∀ m ∈ s, f m = some (g m)) → s.mapM f = some (s.map g)
  | [], _ => by simp
  | m :: s, h => by
    rw [List.mapM_cons, h m List.mem_cons_self, mapM_some fun n hn => h n (List.mem_cons_of_mem _ hn)]
    rfl

theorem find_mem {s : List Node} {t : Tag} {n : Node} (h : find s t = some n) : n ∈ s ∧ n.tag = t := by
  refine ⟨List.mem_of_find?_eq_some h, ?_⟩
  simpa using List.find?_some h

theorem find_cons_ne {s : List Node} {p : Node} {t : Tag} (h : t ≠ p.tag) : find (p :: s) t = find s t := by
  have : (p.tag == t) = false := by simpa using fun e : p.tag = t => h e.symm
  simp [find, this]

theorem find_cons_self {s : List Node} {p : Node} : find (p :: s) p.tag = some p := by
  simp [find]

theorem find_map {s : List Node} {g : Node → Node} (hg : ∀ m, (g m).tag = m.tag) (t : Tag) : find (s.map g) t = (find s t).map g := by
  induction s with
  | nil => rfl
  | cons m s ih =>
    by_cases h : m.tag = t
    · subst h
      have h1 : find (m :: s) m.tag = some m := find_cons_self
      have h2 : find (g m :: s.map g) m.tag = some (g m) := by
        have := find_cons_self (s := s.map g) (p := g m)
        rwa [hg m] at this
      rw [List.map_cons, h1, h2]; rfl
    · rw [List.map_cons, find_cons_ne (fun e => h (by rw [hg] at e; exact e.symm)), find_cons_ne (fun e => h e.symm), ih]

/-- `n` is on the way from the root to pointer `m`. -/
def on (m n : Node) : Bool := n.tag == m.tag || m.path.contains n.tag

theorem Node.see_child {w : Bool} {l : Loc} {m n : Node} {q : Perm} (h : on m n = true) (hq : (n.perm l).child w = some q) :
    Node.see w l m n = some { n with perm := fun k => if k = l then q else n.perm k } := by
  unfold Node.see
  have h' : (n.tag == m.tag || m.path.contains n.tag) = true := h
  rw [if_pos h', hq]; rfl

theorem Node.see_foreign {w : Bool} {l : Loc} {m n : Node} (h : on m n = false) :
    Node.see w l m n = some { n with perm := fun k => if k = l then (n.perm l).foreign w else n.perm k } := by
  unfold Node.see
  have : ¬ ((n.tag == m.tag || m.path.contains n.tag) = true) := by
    intro e; unfold on at h; rw [h] at e; cases e
  rw [if_neg this]

theorem Node.set_same {n : Node} {l : Loc} {q : Perm} (h : n.perm l = q) : { n with perm := fun k => if k = l then q else n.perm k } = n := by
  cases n with
  | mk tag path perm =>
    simp only [Node.mk.injEq, true_and]
    funext k
    by_cases hk : k = l
    · subst hk; simp only [if_true]; exact h.symm
    · simp only [if_neg hk]

/-- The invariant. Pointers below `k` (the trunk) are the boxes from which all pointers in use are derived; `Q` are the permissions of the
others for bytes in an `UnsafeCell`; `n` is fresh. -/
structure Calm (k : Tag) (Q : Perm → Prop) (s : List Node) (n : Tag) : Prop where
  lt : ∀ m ∈ s, m.tag < n ∧ ∀ j ∈ m.path, j < n
  plain : ∀ m ∈ s, m.perm .plain = .reserved false ∨ m.perm .plain = .frozen ∨ (m.perm .plain = .active ∧ m.tag < k)
  trunk : ∀ m ∈ s, m.tag < k → (∃ im, m.perm .cell = .reserved im) ∨ m.perm .cell = .active
  rest : ∀ m ∈ s, k ≤ m.tag → Q (m.perm .cell)

/-- Pointer `t` is derived from the trunk. -/
def Derived (k : Tag) (s : List Node) (t : Tag) : Prop := ∃ m, find s t = some m ∧ ∀ j, j < k → j = t ∨ j ∈ m.path

/-- Pointer `t` is a shared reference. -/
def Shared (k : Tag) (s : List Node) (t : Tag) : Prop :=
  ∃ m, find s t = some m ∧ ∀ n ∈ s, on m n = true → k ≤ n.tag → n.perm .cell = .cell

/-- Pointer `t` is a box. -/
def IsBox (s : List Node) (t : Tag) : Prop :=
  ∃ m, find s t = some m ∧ ∀ n ∈ s, on m n = true → ∀ l, (∃ im, n.perm l = .reserved im) ∨ n.perm l = .active

def Quiet (Q : Perm → Prop) : Prop := ∀ p, Q p → p = .cell ∨ ∃ im, p = .reserved im

/-- A read changes nothing. -/
theorem Calm.read {k : Tag} {Q : Perm → Prop} {s : List Node} {n t : Tag} (h : Calm k Q s n) (hQ : Quiet Q) (hd : Derived k s t) (l : Loc) :
    access false t l s = some s := by
  obtain ⟨m, hm, hp⟩ := hd
  unfold access
  rw [hm]
  show s.mapM _ = some s
  have hid : s.map id = s := List.map_id s
  refine (mapM_some (g := id) fun x hx => ?_).trans (by rw [hid])
  have perms : x.perm l ≠ .disabled ∧ (x.perm l = .active → x.tag < k) := by
    cases l with
    | plain =>
      rcases h.plain x hx with e | e | ⟨e, hk⟩ <;> rw [e]
      · exact ⟨by simp, by simp⟩
      · exact ⟨by simp, by simp⟩
      · exact ⟨by simp, fun _ => hk⟩
    | cell =>
      by_cases hk : x.tag < k
      · refine ⟨?_, fun _ => hk⟩
        rcases h.trunk x hx hk with ⟨_, e⟩ | e <;> rw [e] <;> simp
      · rcases hQ _ (h.rest x hx (Nat.le_of_not_lt hk)) with e | ⟨_, e⟩ <;> rw [e] <;> exact ⟨by simp, by simp⟩
  cases ho : on m x with
  | true =>
    have hc : (x.perm l).child false = some (x.perm l) := by
      cases hx' : x.perm l <;> first | rfl | exact (perms.1 hx').elim
    rw [Node.see_child ho hc, Node.set_same rfl]; rfl
  | false =>
    have hna : x.perm l ≠ .active := by
      intro e
      have := perms.2 e
      rcases hp _ this with e | e
      · simp [on, e, (find_mem hm).2] at ho
      · simp [on, e] at ho
    have hf : (x.perm l).foreign false = x.perm l := by
      cases hx' : x.perm l <;> first | rfl | exact (hna hx').elim
    rw [Node.see_foreign ho, hf, Node.set_same rfl]; rfl

/-- What a new pointer inherits. -/
theorem Derived.lt {k : Tag} {Q : Perm → Prop} {s : List Node} {n t : Tag} (h : Calm k Q s n) (hd : Derived k s t) : t < n := by
  obtain ⟨m, hm, _⟩ := hd
  have := (h.lt m (find_mem hm).1).1
  rwa [(find_mem hm).2] at this

theorem on_new {m x : Node} {n old : Tag} {f : Loc → Perm} (hold : m.tag = old) :
    on ⟨n, old :: m.path, f⟩ x = true ↔ x.tag = n ∨ on m x = true := by
  subst hold
  simp only [on, List.contains_cons, Bool.or_eq_true, beq_iff_eq]

/-- Adding a pointer. -/
theorem Calm.push {k : Tag} {Q : Perm → Prop} {s : List Node} {n old : Tag} (h : Calm k Q s n) (hk : k ≤ n) (hd : Derived k s old)
    {f : Loc → Perm} (h1 : f .plain = .reserved false ∨ f .plain = .frozen) (h2 : Q (f .cell)) {m : Node} (hm : find s old = some m) :
    let s' := (⟨n, old :: m.path, f⟩ : Node) :: s
    Calm k Q s' (n + 1) ∧ Derived k s' n ∧ (∀ t, Derived k s t → Derived k s' t) ∧ (∀ t, t < n → Shared k s t → Shared k s' t) ∧
      (∀ t, t < n → IsBox s t → IsBox s' t) ∧ (f .cell = .cell → Shared k s old → Shared k s' n) ∧
      ((∀ l, ∃ im, f l = .reserved im) → IsBox s old → IsBox s' n) := by
  have hself : find ((⟨n, old :: m.path, f⟩ : Node) :: s) n = some ⟨n, old :: m.path, f⟩ := find_cons_self
  have hne : ∀ {t : Tag}, t < n → find ((⟨n, old :: m.path, f⟩ : Node) :: s) t = find s t := fun hl => find_cons_ne (Nat.ne_of_lt hl)
  have hold := (find_mem hm).2
  -- the new node is on the way to no older pointer
  have hoff : ∀ {m' : Node} {x : Node}, m' ∈ s → x.tag = n → on m' x = false := by
    intro m' x hm' hx
    have := h.lt m' hm'
    cases ho : on m' x with
    | false => rfl
    | true =>
      simp only [on, Bool.or_eq_true, beq_iff_eq, List.contains_iff_mem] at ho
      rcases ho with e | e
      · rw [hx] at e; exact absurd this.1 (by rw [← e]; exact Nat.lt_irrefl _)
      · rw [hx] at e; exact absurd (this.2 _ e) (Nat.lt_irrefl _)
  refine ⟨⟨?_, ?_, ?_, ?_⟩, ?_, ?_, ?_, ?_, ?_, ?_⟩
  · intro x hx
    rcases List.mem_cons.1 hx with rfl | hx
    · refine ⟨Nat.lt_succ_self _, fun j hj => Nat.lt_succ_of_lt ?_⟩
      rcases List.mem_cons.1 hj with rfl | hj
      · exact Derived.lt h hd
      · exact (h.lt m (find_mem hm).1).2 j hj
    · exact ⟨Nat.lt_succ_of_lt (h.lt x hx).1, fun j hj => Nat.lt_succ_of_lt ((h.lt x hx).2 j hj)⟩
  · intro x hx
    rcases List.mem_cons.1 hx with rfl | hx
    · exact h1.imp id .inl
    · exact h.plain x hx
  · intro x hx hl
    rcases List.mem_cons.1 hx with rfl | hx
    · exact absurd hl (Nat.not_lt.2 hk)
    · exact h.trunk x hx hl
  · intro x hx hl
    rcases List.mem_cons.1 hx with rfl | hx
    · exact h2
    · exact h.rest x hx hl
  · refine ⟨_, hself, fun j hj => ?_⟩
    obtain ⟨m', hm', hp⟩ := hd
    rw [hm] at hm'
    cases hm'
    rcases hp j hj with rfl | hp
    · exact .inr List.mem_cons_self
    · exact .inr (List.mem_cons_of_mem _ hp)
  · intro t ht
    have hl := Derived.lt h ht
    obtain ⟨m', hm', hp⟩ := ht
    exact ⟨m', (hne hl).trans hm', hp⟩
  · rintro t hl ⟨m', hm', hp⟩
    refine ⟨m', (hne hl).trans hm', fun x hx ho hkx => ?_⟩
    rcases List.mem_cons.1 hx with rfl | hx
    · rw [hoff (find_mem hm').1 rfl] at ho; cases ho
    · exact hp x hx ho hkx
  · rintro t hl ⟨m', hm', hp⟩
    refine ⟨m', (hne hl).trans hm', fun x hx ho => ?_⟩
    rcases List.mem_cons.1 hx with rfl | hx
    · rw [hoff (find_mem hm').1 rfl] at ho; cases ho
    · exact hp x hx ho
  · rintro hf ⟨m', hm', hp⟩
    rw [hm] at hm'
    cases hm'
    refine ⟨_, hself, fun x hx ho hkx => ?_⟩
    rcases List.mem_cons.1 hx with rfl | hx
    · exact hf
    · rcases (on_new hold).1 ho with e | ho
      · exact absurd (h.lt x hx).1 (by rw [e]; exact Nat.lt_irrefl _)
      · exact hp x hx ho hkx
  · rintro hf ⟨m', hm', hp⟩
    rw [hm] at hm'
    cases hm'
    refine ⟨_, hself, fun x hx ho => ?_⟩
    rcases List.mem_cons.1 hx with rfl | hx
    · exact fun l => .inl (hf l)
    · rcases (on_new hold).1 ho with e | ho
      · exact absurd (h.lt x hx).1 (by rw [e]; exact Nat.lt_irrefl _)
      · exact hp x hx ho

/-- What one step does for the pointers in use. -/
structure Keeps (k : Tag) (Q : Perm → Prop) (s s' : List Node) (n n' : Tag) : Prop where
  calm : Calm k Q s' n'
  derived : ∀ t, Derived k s t → Derived k s' t
  shared : ∀ t, t < n → Shared k s t → Shared k s' t
  box : ∀ t, t < n → IsBox s t → IsBox s' t

theorem Calm.share {k : Tag} {Q : Perm → Prop} {s : List Node} {n old : Tag} (h : Calm k Q s n) (hQ : Quiet Q) (hk : k ≤ n)
    (hc : Q .cell) (hd : Derived k s old) (im : Bool) :
    ∃ s', step im s (.share old n) = some s' ∧ Keeps k Q s s' n (n + 1) ∧ Derived k s' n ∧ (Shared k s old → Shared k s' n) := by
  obtain ⟨m, hm, hp⟩ := hd
  obtain ⟨c, d, kd, ks, kb, sh, _⟩ := h.push hk ⟨m, hm, hp⟩ (f := fun | .plain => .frozen | .cell => .cell) (.inr rfl) hc hm
  refine ⟨_, ?_, ⟨c, kd, ks, kb⟩, d, sh rfl⟩
  simp only [step, hm]
  exact c.read hQ d .plain

theorem Calm.move {k : Tag} {Q : Perm → Prop} {s : List Node} {n old : Tag} (h : Calm k Q s n) (hQ : Quiet Q) (hk : k ≤ n) {im : Bool}
    (hc : Q (.reserved im)) (hd : Derived k s old) :
    ∃ s', step im s (.move old n) = some s' ∧ Keeps k Q s s' n (n + 1) ∧ Derived k s' n ∧ (IsBox s old → IsBox s' n) := by
  obtain ⟨m, hm, hp⟩ := hd
  obtain ⟨c, d, kd, ks, kb, _, sb⟩ := h.push hk ⟨m, hm, hp⟩ (f := fun | .plain => .reserved false | .cell => .reserved im) (.inl rfl) hc hm
  refine ⟨_, ?_, ⟨c, kd, ks, kb⟩, d, sb fun l => ?_⟩
  · simp only [step, hm]
    have e1 := c.read hQ d .plain
    have e2 := c.read hQ d .cell
    exact (congrArg (fun o => Option.bind o (access false n .cell)) e1).trans e2
  · cases l
    · exact ⟨false, rfl⟩
    · exact ⟨im, rfl⟩

/-- The trunk becomes active. -/
def activate (k : Tag) (m : Node) : Node :=
  if m.tag < k then { m with perm := fun l => if l = .cell then .active else m.perm l } else m

theorem activate_tag (k : Tag) (m : Node) : (activate k m).tag = m.tag ∧ (activate k m).path = m.path := by
  unfold activate; split <;> exact ⟨rfl, rfl⟩

theorem activate_plain (k : Tag) (m : Node) : (activate k m).perm .plain = m.perm .plain := by
  unfold activate; split <;> rfl

/-- A write through a shared reference to bytes in an `UnsafeCell`. -/
theorem Calm.write {k : Tag} {Q : Perm → Prop} {s : List Node} {n t : Tag} (h : Calm k Q s n) (hQ : ∀ p, Q p → p = .cell ∨ p = .reserved true)
    (hd : Derived k s t) (hsh : Shared k s t) : ∃ s', access true t .cell s = some s' ∧ Keeps k Q s s' n n := by
  obtain ⟨m, hm, hp⟩ := hd
  obtain ⟨m', hm', hc⟩ := hsh
  rw [hm] at hm'
  cases hm'
  refine ⟨s.map (activate k), ?_, ?_⟩
  · unfold access
    rw [hm]
    refine mapM_some fun x hx => ?_
    by_cases hk : x.tag < k
    · have ho : on m x = true := by
        rcases hp _ hk with e | e
        · simp [on, e, (find_mem hm).2]
        · simp [on, e]
      have hch : (x.perm .cell).child true = some .active := by
        rcases h.trunk x hx hk with ⟨_, e⟩ | e <;> rw [e] <;> rfl
      rw [Node.see_child ho hch]
      simp only [activate, if_pos hk]
    · have hk' := Nat.le_of_not_lt hk
      cases ho : on m x with
      | true =>
        have e := hc x hx ho hk'
        have hch : (x.perm .cell).child true = some (x.perm .cell) := by rw [e]; rfl
        rw [Node.see_child ho hch, Node.set_same rfl]
        simp only [activate, if_neg hk]
      | false =>
        have hf : (x.perm .cell).foreign true = x.perm .cell := by
          rcases hQ _ (h.rest x hx hk') with e | e <;> rw [e] <;> rfl
        rw [Node.see_foreign ho, hf, Node.set_same rfl]
        simp only [activate, if_neg hk]
  · have hfind : ∀ {u : Tag} {x : Node}, find s u = some x → find (s.map (activate k)) u = some (activate k x) := by
      intro u x hx
      rw [find_map (fun m => (activate_tag k m).1), hx]; rfl
    have hon : ∀ {x y : Node}, on (activate k x) (activate k y) = on x y := by
      intro x y
      simp only [on, activate_tag]
    refine ⟨⟨?_, ?_, ?_, ?_⟩, ?_, ?_, ?_⟩
    · intro x hx
      obtain ⟨y, hy, rfl⟩ := List.mem_map.1 hx
      rw [(activate_tag k y).1, (activate_tag k y).2]
      exact h.lt y hy
    · intro x hx
      obtain ⟨y, hy, rfl⟩ := List.mem_map.1 hx
      rw [activate_plain, (activate_tag k y).1]
      exact h.plain y hy
    · intro x hx hl
      obtain ⟨y, hy, rfl⟩ := List.mem_map.1 hx
      rw [(activate_tag k y).1] at hl
      right
      simp only [activate, if_pos hl, if_true]
    · intro x hx hl
      obtain ⟨y, hy, rfl⟩ := List.mem_map.1 hx
      rw [(activate_tag k y).1] at hl
      simp only [activate, if_neg (Nat.not_lt.2 hl)]
      exact h.rest y hy hl
    · rintro u ⟨x, hx, hpx⟩
      exact ⟨_, hfind hx, by rw [(activate_tag k x).2]; exact hpx⟩
    · rintro u _ ⟨x, hx, hcx⟩
      refine ⟨_, hfind hx, fun z hz ho hkz => ?_⟩
      obtain ⟨y, hy, rfl⟩ := List.mem_map.1 hz
      rw [hon] at ho
      rw [(activate_tag k y).1] at hkz
      simp only [activate, if_neg (Nat.not_lt.2 hkz)]
      exact hcx y hy ho hkz
    · rintro u _ ⟨x, hx, hcx⟩
      refine ⟨_, hfind hx, fun z hz ho l => ?_⟩
      obtain ⟨y, hy, rfl⟩ := List.mem_map.1 hz
      rw [hon] at ho
      cases l with
      | plain => rw [activate_plain]; exact hcx y hy ho .plain
      | cell =>
        by_cases hk : y.tag < k
        · right; simp only [activate, if_pos hk, if_true]
        · simp only [activate, if_neg hk]; exact hcx y hy ho .cell

/-- An access through a box. -/
theorem IsBox.access {s : List Node} {t : Tag} (h : IsBox s t) (l : Loc) : ∃ s', access true t l s = some s' ∧ IsBox s' t := by
  obtain ⟨m, hm, hb⟩ := h
  let g : Node → Node := fun x => { x with perm := fun k => if k = l then
    (if on m x = true then .active else (x.perm l).foreign true) else x.perm k }
  refine ⟨s.map g, ?_, g m, by rw [find_map (g := g) (fun _ => rfl), hm]; rfl, fun z hz ho k => ?_⟩
  · unfold Tree.access
    rw [hm]
    refine mapM_some fun x hx => ?_
    cases ho : on m x with
    | true =>
      have hch : (x.perm l).child true = some .active := by
        rcases hb x hx ho l with ⟨_, e⟩ | e <;> rw [e] <;> rfl
      rw [Node.see_child ho hch]
      simp only [g, ho, if_true]
    | false =>
      rw [Node.see_foreign ho]
      simp only [g, ho, Bool.false_eq_true, if_false]
  · obtain ⟨y, hy, rfl⟩ := List.mem_map.1 hz
    have ho' : on m y = true := ho
    by_cases hk : k = l
    · right
      simp only [g, hk, ho', if_true]
    · simp only [g, if_neg hk]
      exact hb y hy ho' k

theorem IsBox.free {s : List Node} {t : Tag} (h : IsBox s t) (im : Bool) : step im s (.free t) = some [] := by
  obtain ⟨s1, e1, h1⟩ := h.access .plain
  obtain ⟨s2, e2, _⟩ := h1.access .cell
  simp only [step, e1]
  show (Tree.access true t .cell s1).map _ = _
  rw [e2]; rfl

end Alias.Tree
