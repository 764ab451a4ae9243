import Verif.Closures.Facts
/-! The set of a type in the middle of an execution: what the finished calls left there, and possibly some steps of a call
that is not finished. -/
namespace Closures
open TypeMap (Code Entry Replay)
open Pool (Ptr Query)

variable {V : Type} [BEq V] [Hashable V] [EquivBEq V] [LawfulHashable V]

/-- `m` is the set after the finished calls `l` and some steps of at most one call in progress. -/
def Now (L : Lay V) (l : List (Entry (Table V) Ret)) (m : Table V) : Prop :=
  ∃ m0, Replay [] l m0 ∧ (m = m0 ∨ ∃ (o : Op V) (n : Nat), o.Lawful ∧ m = ((o.code L).steps n m0).1)

/-- A call interned `v` and returned `p`. -/
def Returned (L : Lay V) (l : List (Entry (Table V) Ret)) (v : V) (p : Ptr) : Prop :=
  ∃ q al n, (Op.intern q v al).Lawful ∧ ⟨(Op.intern q v al).code L, n, some (.ptr p)⟩ ∈ l

/-- A call to intern `v` returned or panicked. -/
def Called (L : Lay V) (l : List (Entry (Table V) Ret)) (v : V) : Prop :=
  ∃ q al n r, (Op.intern q v al).Lawful ∧ ⟨(Op.intern q v al).code L, n, r⟩ ∈ l

/-- Dereferencing a handle. -/
def deref (m : Table V) (p : Ptr) : Option V := (m.find? fun e => e.1 == p).map (·.2)

omit [BEq V] [Hashable V] [EquivBEq V] [LawfulHashable V] in
theorem deref_mem {m : Table V} (g : m.Pairwise fun a b => a.1 ≠ b.1) {p : Ptr} {x : V} (h : (p, x) ∈ m) : deref m p = some x := by
  induction m with
  | nil => cases h
  | cons c m ih =>
    rw [List.pairwise_cons] at g
    unfold deref
    rw [List.find?_cons]
    rcases List.mem_cons.mp h with e | h
    · subst e; simp
    · have : (c.1 == p) = false := by
        simp only [beq_eq_false_iff_ne]
        exact g.1 _ h
      rw [this]
      exact ih g.2 h

theorem effect_sub {L : Lay V} {o : Op V} {m m' : Table V} {k} (e : Effect L o m m' k) : ∃ more, m' = more ++ m := by
  cases e with
  | same _ => exact ⟨[], rfl⟩
  | added _ _ _ => exact ⟨[_], rfl⟩

theorem Now.good {L : Lay V} (ok : L.Ok) {l : List (Entry (Table V) Ret)} {m : Table V} (h : Now L l m) (ho : Ops L l) :
    Good L m := by
  obtain ⟨m0, r, rfl | ⟨o, n, hl, rfl⟩⟩ := h
  · exact replay_good ok r ho
  · have g := replay_good ok r ho
    have e := effect (L := L) hl m0 n
    generalize ((o.code L).steps n m0).1 = m' at e ⊢
    generalize ((o.code L).steps n m0).2 = k at e
    cases e with
    | same _ => exact g
    | added ho' hn _ => subst ho'; exact g.insert ok hl.2.2 hn

theorem Now.returned {L : Lay V} {l : List (Entry (Table V) Ret)} {m : Table V} (h : Now L l m) (ho : Ops L l) {v : V} {p : Ptr}
    (hr : Returned L l v p) : ∃ x, (p, x) ∈ m ∧ (x == v) = true := by
  obtain ⟨m0, r, h⟩ := h
  obtain ⟨q, al, n, hl, he⟩ := hr
  obtain ⟨p', x, e, hx, hv⟩ := replay_handle r ho hl he
  cases e
  rcases h with rfl | ⟨o, n, hl, rfl⟩
  · exact ⟨x, hx, hv⟩
  · obtain ⟨more, e⟩ := effect_sub (effect (L := L) hl m0 n)
    exact ⟨x, by rw [e]; exact List.mem_append_right _ hx, hv⟩

/-- Pointer equality is value equality, and a handle dereferences to its value. -/
theorem Now.canonical {L : Lay V} (ok : L.Ok) {l : List (Entry (Table V) Ret)} {m : Table V} (h : Now L l m) (ho : Ops L l)
    {v w : V} {p p' : Ptr} (hr : Returned L l v p) (hr' : Returned L l w p') : p = p' ↔ (v == w) = true := by
  have g := h.good ok ho
  obtain ⟨x, hx, hv⟩ := h.returned ho hr
  obtain ⟨y, hy, hw⟩ := h.returned ho hr'
  constructor
  · rintro rfl
    have := pairwise_unique_ptr g.ptrs hx hy rfl
    cases this
    exact PartialEquivBEq.trans (PartialEquivBEq.symm hv) hw
  · intro e
    have := pairwise_unique g.vals hx hy (PartialEquivBEq.trans hv (PartialEquivBEq.trans e (PartialEquivBEq.symm hw)))
    cases this
    rfl

theorem Now.deref {L : Lay V} (ok : L.Ok) {l : List (Entry (Table V) Ret)} {m : Table V} (h : Now L l m) (ho : Ops L l)
    {v : V} {p : Ptr} (hr : Returned L l v p) : ∃ x, deref m p = some x ∧ (x == v) = true := by
  obtain ⟨x, hx, hv⟩ := h.returned ho hr
  exact ⟨x, deref_mem (h.good ok ho).ptrs hx, hv⟩

/-- What a handle points to stays the same when calls are added. -/
theorem Now.deref_later {L : Lay V} (ok : L.Ok) {l l' newer : List (Entry (Table V) Ret)} {m m' : Table V} (h : Now L l m)
    (ho : Ops L l) (h' : Now L l' m') (ho' : Ops L l') (e : l' = newer ++ l) {v : V} {p : Ptr} (hr : Returned L l v p) :
    Closures.deref m' p = Closures.deref m p := by
  have g := h.good ok ho
  have g' := h'.good ok ho'
  obtain ⟨q, al, n, hl, he⟩ := hr
  obtain ⟨m0, r, h⟩ := h
  obtain ⟨m0', r', h'⟩ := h'
  obtain ⟨m1, more, r1, e1⟩ := replay_suffix r' ho' e
  obtain ⟨_, rfl⟩ := r1.det r rfl
  obtain ⟨p', x, e, hx, _⟩ := replay_handle r ho hl he
  cases e
  have up : ∀ {a b : Table V}, (b = a ∨ ∃ (o : Op V) (n : Nat), o.Lawful ∧ b = ((o.code L).steps n a).1) → (p, x) ∈ a →
      (p, x) ∈ b := by
    intro a b h hx
    rcases h with rfl | ⟨o, n, hl, rfl⟩
    · exact hx
    · obtain ⟨more, e⟩ := effect_sub (effect (L := L) hl a n)
      rw [e]; exact List.mem_append_right _ hx
  rw [deref_mem g.ptrs (up h hx), deref_mem g'.ptrs (up h' (by rw [e1]; exact List.mem_append_right _ hx))]

/-- Every element is the argument of some call. -/
theorem replay_called {L : Lay V} {l : List (Entry (Table V) Ret)} {m : Table V} (r : Replay [] l m) (h : Ops L l) {e : Ptr × V}
    (he : e ∈ m) : Called L l e.2 := by
  have key : ∀ {l : List (Entry (Table V) Ret)} {c c' : Table V} {o : Op V} {n k} {r : Option Ret}, o.Lawful → Effect L o c c' k →
      (e ∈ c → Called L l e.2) → e ∈ c' → Called L (⟨o.code L, n, r⟩ :: l) e.2 := by
    intro l c c' o n k r ho ef ih he
    have up : Called L l e.2 → Called L (⟨o.code L, n, r⟩ :: l) e.2 :=
      fun ⟨q, al, n', r', h1, h2⟩ => ⟨q, al, n', r', h1, List.mem_cons_of_mem _ h2⟩
    cases ef with
    | same _ => exact up (ih he)
    | added ho' hn _ =>
      rcases List.mem_cons.mp he with rfl | he
      · subst ho'
        exact ⟨_, _, _, _, ho, List.mem_cons_self⟩
      · exact up (ih he)
  induction r with
  | nil => cases he
  | @ret l c c' code n r' _ hs ih =>
    obtain ⟨o, ho, hc⟩ := h _ List.mem_cons_self
    simp only at hc
    subst hc
    have ef := effect (L := L) ho c n
    rw [hs] at ef
    exact key ho ef (ih fun e he => h e (List.mem_cons_of_mem _ he)) he
  | @panic l c c' code n k _ hs ih =>
    obtain ⟨o, ho, hc⟩ := h _ List.mem_cons_self
    simp only at hc
    subst hc
    have ef := effect (L := L) ho c n
    rw [hs] at ef
    exact key ho ef (ih fun e he => h e (List.mem_cons_of_mem _ he)) he

/-- `num_objects_interned`: the number of pairwise different values that the calls before it interned. -/
theorem Now.len {L : Lay V} (ok : L.Ok) {l newer older : List (Entry (Table V) Ret)} {m : Table V} (h : Now L l m) (ho : Ops L l)
    {n : Nat} {a : Ret} (e : l = newer ++ ⟨(Op.len : Op V).code L, n, some a⟩ :: older) :
    ∃ vals : List V, a = .num vals.length ∧ vals.Pairwise (fun x y => (x == y) = false) ∧ (∀ x ∈ vals, Called L older x) ∧
      ∀ v p, Returned L older v p → ∃ x ∈ vals, (x == v) = true := by
  obtain ⟨_, r, _⟩ := h
  have hold : Ops L older := fun e' he' => ho e' (by rw [e]; exact List.mem_append_right _ (List.mem_cons_of_mem _ he'))
  obtain ⟨m0, m1, more, h1, h2, h3⟩ := replay_entry r ho (o := .len) trivial e
  have hlen : a = .num m0.length := by
    cases h3 with
    | same hr =>
      have := hr a rfl
      cases a with
      | num k => simp only at this; rw [this]
      | _ => exact this.elim
    | added e1 _ _ => cases e1
  have g := replay_good ok h1 hold
  refine ⟨m0.map (·.2), by simpa using hlen, List.pairwise_map.mpr g.vals, ?_, ?_⟩
  · intro x hx
    obtain ⟨e', he', rfl⟩ := List.mem_map.mp hx
    exact replay_called h1 hold he'
  · rintro v p ⟨q, al, n, hl, he⟩
    obtain ⟨p', x, _, hx, hv⟩ := replay_handle h1 hold hl he
    exact ⟨x, List.mem_map.mpr ⟨_, hx, rfl⟩, hv⟩

/-- `is_interned`: true if a matching value was interned before, and only if a call tried to. -/
theorem Now.query {L : Lay V} {l newer older : List (Entry (Table V) Ret)} {m : Table V} (h : Now L l m) (ho : Ops L l)
    {q : Query V} (hq : (Op.query q).Lawful) {n : Nat} {a : Ret} (e : l = newer ++ ⟨(Op.query q).code L, n, some a⟩ :: older) :
    ∃ b, a = .bool b ∧ (b = true → ∃ v, Called L older v ∧ q.eq v = true) ∧
      ∀ v p, Returned L older v p → q.eq v = true → b = true := by
  obtain ⟨_, r, _⟩ := h
  have hold : Ops L older := fun e' he' => ho e' (by rw [e]; exact List.mem_append_right _ (List.mem_cons_of_mem _ he'))
  obtain ⟨m0, m1, more, h1, h2, h3⟩ := replay_entry r ho hq e
  have hb : a = .bool (m0.any fun e => q.eq e.2) := by
    cases h3 with
    | same hr =>
      have := hr a rfl
      cases a with
      | bool b => simp only at this; rw [this]
      | _ => exact this.elim
    | added e1 _ _ => cases e1
  refine ⟨_, hb, fun h => ?_, ?_⟩
  · obtain ⟨e', he', hm⟩ := List.any_eq_true.mp h
    exact ⟨e'.2, replay_called h1 hold he', hm⟩
  · rintro v p ⟨q', al, n, hl, he⟩ hm
    obtain ⟨p', x, _, hx, hv⟩ := replay_handle h1 hold hl he
    exact List.any_eq_true.mpr ⟨_, hx, by rw [← hm]; exact hq.2 _ _ hv⟩

end Closures
