import Verif.Closures.AnyOps
import Verif.Closures.Now
/-!
The closures of `Intern` and `NewIntern` once more, now with the leaked boxes and the set of pointers kept apart, so that
the set may be cleared, and with arbitrary user code: what a lookup in the set answers is whatever `Hash`, `Eq` and `Borrow`
of the user make of it.
-/
namespace Closures
open TypeMap (Cfg Code Entry Replay Tid)
open Pool (Ptr Query)

variable {V : Type}

/-- The memory of one type: the boxes leaked so far, newest first (nothing in the crate frees a leaked box), and the elements of
the `HashSet<&'static T>`. -/
structure Mem (V : Type) where
  heap : Table V
  set : List Ptr

/-- Calls. `look` is what the lookup of the key answers, `look2` what `insert` finds when it looks for an equal element.
* `intern`: as `Op.intern`, the functions listed there;
* `query`: `Intern::is_interned` (intern.rs:274-279);
* `len`: `num_objects_interned` (intern.rs:249-251, typearena.rs:300-302);
* `clear`: `benchmarking_only_clear_interns` (intern.rs:255-257, typearena.rs:306-308). -/
inductive WOp (V : Type) where
  | intern (look : Mem V → Option Ptr) (mk : V) (al : List Nat → Nat) (look2 : Mem V → Option Ptr)
  | query (look : Mem V → Option Ptr)
  | len
  | clear

/-- `Box::leak(Box::new(mk))` (intern.rs:215, 233, 160, 173; typearena.rs:265, 283, 217, 230). -/
def Mem.leak (m : Mem V) (p : Ptr) (mk : V) : Mem V := { m with heap := (p, mk) :: m.heap }

/-- `m.insert(p)` (intern.rs:216, 234, 161, 174; typearena.rs:266, 284, 218, 231; boxedset.rs:81-83): nothing happens if the lookup
finds an element. -/
def Mem.insert (m : Mem V) (p : Ptr) (look2 : Mem V → Option Ptr) : Mem V :=
  { m with set := if (look2 m).isSome then m.set else p :: m.set }

/-- `m.clear()`: the set is emptied; its elements are references, the boxes stay (boxedset.rs:95-97). -/
def Mem.clear (m : Mem V) : Mem V := { m with set := [] }

/-- The closure of a call; see `Op.code` for the steps at which user code may panic. -/
def WOp.code (L : Lay V) : WOp V → Code (Mem V) Ret
  | .intern look mk al look2 => .next id fun m => match look m with
    | some p => .next id fun _ => .ret (.ptr p)
    | none => .next id fun m => .next (fun m' => m'.leak (newPtr L m.heap mk al) mk) fun _ =>
      .next (fun m' => m'.insert (newPtr L m.heap mk al) look2) fun _ => .ret (.ptr (newPtr L m.heap mk al))
  | .query look => .next id fun m => .ret (.bool (look m).isSome)
  | .len => .next id fun m => .ret (.num m.set.length)
  | .clear => .next Mem.clear fun _ => .ret (.bool true)

/-- All that is asked of arbitrary user code: the hash table answers with one of its elements. And the allocator does not
return memory that is in use. -/
def WOp.Possible : WOp V → Prop
  | .intern look _ al look2 => (∀ m p, look m = some p → p ∈ m.set) ∧ (∀ m p, look2 m = some p → p ∈ m.set) ∧ ∀ l, al l ∉ l
  | .query look => ∀ m p, look m = some p → p ∈ m.set
  | _ => True

/-- The lookup in the hash table (boxedset.rs:53-67, 81-83) with given `Hash`, `Eq` and `Borrow`: an element whose value has the
hash of the key and is, says `Eq`, equal to it. -/
def lookOf [Hashable V] (q : Query V) (m : Mem V) : Option Ptr :=
  m.set.find? fun p => match deref m.heap p with
    | some x => hash x == q.hash && q.eq x
    | none => false

/-- A call with the `Hash` and `Eq` of the type. -/
inductive WOp.Honest [BEq V] [Hashable V] : WOp V → Prop where
  | intern (q : Query V) (mk : V) (al : List Nat → Nat) : (Op.intern q mk al).Lawful →
      WOp.Honest (.intern (lookOf q) mk al (lookOf (.ofVal mk)))
  | query (q : Query V) : WOp.Honest (.query (lookOf q))
  | len : WOp.Honest .len
  | clear : WOp.Honest .clear

theorem WOp.Honest.possible [BEq V] [Hashable V] {o : WOp V} (h : o.Honest) : o.Possible := by
  cases h with
  | intern q mk al hl =>
    exact ⟨fun m p hp => List.mem_of_find?_eq_some hp, fun m p hp => List.mem_of_find?_eq_some hp, hl.2.2⟩
  | query q => exact fun m p hp => List.mem_of_find?_eq_some hp
  | _ => trivial

/-- What some steps of a call do. -/
inductive WEffect (L : Lay V) (o : WOp V) (m : Mem V) : Mem V → Code (Mem V) Ret → Prop where
  /-- nothing: a lookup, `len`, or a call that has not come far -/
  | same {k} : (∀ p, k = .ret (.ptr p) → ∃ look mk al look2, o = .intern look mk al look2 ∧ look m = some p) → WEffect L o m m k
  /-- the new box has been leaked -/
  | leak {k look mk al look2} : o = .intern look mk al look2 → look m = none → (∀ r, k ≠ .ret r) →
      WEffect L o m (m.leak (newPtr L m.heap mk al) mk) k
  /-- ... and inserted -/
  | ins {k look mk al look2} : o = .intern look mk al look2 → look m = none →
      (∀ r, k = .ret r → r = .ptr (newPtr L m.heap mk al)) →
      WEffect L o m ((m.leak (newPtr L m.heap mk al) mk).insert (newPtr L m.heap mk al) look2) k
  | clear {k} : o = .clear → (∀ p, k ≠ .ret (.ptr p)) → WEffect L o m m.clear k

theorem wsteps_ret {C R : Type} (n : Nat) (r : R) (c : C) : Code.steps n (.ret r) c = (c, .ret r) := by cases n <;> rfl

theorem weffect (L : Lay V) (o : WOp V) (m : Mem V) (n : Nat) :
    WEffect L o m ((o.code L).steps n m).1 ((o.code L).steps n m).2 := by
  cases o with
  | intern look mk al look2 =>
    rcases n with _ | n
    · exact .same fun p e => by cases e
    · simp only [WOp.code, Code.steps]
      cases hl : look m with
      | some q =>
        simp only
        rcases n with _ | n
        · exact .same fun p e => by cases e
        · simp only [Code.steps, wsteps_ret]
          exact .same fun p e => by cases e; exact ⟨_, _, _, _, rfl, hl⟩
      | none =>
        simp only
        rcases n with _ | _ | _ | n
        · exact .same fun p e => by cases e
        · exact .same fun p e => by cases e
        · exact .leak rfl hl fun r e => by cases e
        · simp only [Code.steps, wsteps_ret]
          exact .ins rfl hl fun r e => by cases e; rfl
  | query look =>
    rcases n with _ | n
    · exact .same fun p e => by cases e
    · simp only [WOp.code, Code.steps, wsteps_ret]
      exact .same fun p e => by cases e
  | len =>
    rcases n with _ | n
    · exact .same fun p e => by cases e
    · simp only [WOp.code, Code.steps, wsteps_ret]
      exact .same fun p e => by cases e
  | clear =>
    rcases n with _ | n
    · exact .same fun p e => by cases e
    · simp only [WOp.code, Code.steps, wsteps_ret]
      exact .clear rfl fun p e => by cases e

/-- A call that returned a handle made all its steps. -/
theorem weffect_ret (L : Lay V) {o : WOp V} {m m' : Mem V} {n : Nat} {p : Ptr} (h : (o.code L).steps n m = (m', .ret (.ptr p))) :
    ∃ look mk al look2, o = .intern look mk al look2 ∧ (look m = some p ∧ m' = m ∨ look m = none ∧ p = newPtr L m.heap mk al ∧
      m' = (m.leak p mk).insert p look2) := by
  have e := weffect L o m n
  rw [h] at e
  simp only at e
  cases e with
  | same h => obtain ⟨look, mk, al, look2, ho, hl⟩ := h p rfl; exact ⟨_, _, _, _, ho, .inl ⟨hl, rfl⟩⟩
  | leak _ _ h => exact absurd rfl (h _)
  | ins ho hl h =>
    have := h _ rfl
    cases this
    exact ⟨_, _, _, _, ho, .inr ⟨hl, rfl, rfl⟩⟩
  | clear _ h => exact absurd rfl (h _)

/-! ### the invariant of the memory of one type -/

/-- Elements of the set point to boxes; a pointer points to one value; pointers have the form that the layout prescribes. -/
structure WGood (L : Lay V) (m : Mem V) : Prop where
  sub : ∀ p ∈ m.set, ∃ x, (p, x) ∈ m.heap
  one : ∀ p x y, (p, x) ∈ m.heap → (p, y) ∈ m.heap → x = y
  info : ∀ p x, (p, x) ∈ m.heap → p.info = L.info x

theorem WGood.nil (L : Lay V) : WGood L ⟨[], []⟩ where
  sub _ h := by cases h
  one _ _ _ h := by cases h
  info _ _ h := by cases h

theorem newPtr_info (L : Lay V) (h : Table V) (v : V) (al) : (newPtr L h v al).info = L.info v := by
  unfold newPtr; split <;> rfl

/-- A new box is at a new place, or zero-sized and holds the same value as all boxes there. -/
theorem WGood.fresh {L : Lay V} (ok : L.Ok) {m : Mem V} (g : WGood L m) {v : V} {al} (hal : ∀ l, al l ∉ l) {x : V}
    (h : (newPtr L m.heap v al, x) ∈ m.heap) : x = v ∧ L.zst v = true := by
  have hi : L.info v = L.info x := by rw [← g.info _ _ h, newPtr_info]
  have hz := ok.size _ _ hi
  cases hv : L.zst v with
  | true => exact ⟨ok.unique _ _ (hz ▸ hv) hv hi.symm, rfl⟩
  | false =>
    exfalso
    apply hal ((m.heap.filter fun e => !L.zst e.2).map fun e => e.1.addr)
    refine List.mem_map.mpr ⟨_, List.mem_filter.mpr ⟨h, by simp [← hz, hv]⟩, ?_⟩
    simp [newPtr, hv]

theorem WGood.leak {L : Lay V} (ok : L.Ok) {m : Mem V} (g : WGood L m) {v : V} {al} (hal : ∀ l, al l ∉ l) :
    WGood L (m.leak (newPtr L m.heap v al) v) where
  sub p hp := by obtain ⟨x, hx⟩ := g.sub p hp; exact ⟨x, List.mem_cons_of_mem _ hx⟩
  one p x y hx hy := by
    rcases List.mem_cons.mp hx with hx | hx <;> rcases List.mem_cons.mp hy with hy | hy
    · cases hx; cases hy; rfl
    · cases hx; exact (g.fresh ok hal hy).1.symm
    · cases hy; exact (g.fresh ok hal hx).1
    · exact g.one p x y hx hy
  info p x hx := by
    rcases List.mem_cons.mp hx with hx | hx
    · cases hx; exact newPtr_info ..
    · exact g.info p x hx

theorem WGood.insert {L : Lay V} {m : Mem V} (g : WGood L m) {p : Ptr} {x : V} (h : (p, x) ∈ m.heap) (look2) :
    WGood L (m.insert p look2) where
  sub q hq := by
    simp only [Mem.insert] at hq
    split at hq
    · exact g.sub q hq
    · rcases List.mem_cons.mp hq with rfl | hq
      · exact ⟨x, h⟩
      · exact g.sub q hq
  one := g.one
  info := g.info

theorem WGood.clear {L : Lay V} {m : Mem V} (g : WGood L m) : WGood L m.clear := ⟨(fun _ h => by cases h), g.one, g.info⟩

theorem WGood.effect {L : Lay V} (ok : L.Ok) {m m' : Mem V} (g : WGood L m) {o : WOp V} (ho : o.Possible) {k}
    (e : WEffect L o m m' k) : WGood L m' := by
  cases e with
  | same _ => exact g
  | leak h _ _ => subst h; exact g.leak ok ho.2.2
  | ins h _ _ => subst h; exact (g.leak ok ho.2.2).insert List.mem_cons_self _
  | clear _ _ => exact g.clear

/-- Boxes are never freed. -/
theorem weffect_heap {L : Lay V} {m m' : Mem V} {o : WOp V} {k} (e : WEffect L o m m' k) : ∀ b ∈ m.heap, b ∈ m'.heap := by
  cases e with
  | same _ => exact fun b h => h
  | leak _ _ _ => exact fun b h => List.mem_cons_of_mem _ h
  | ins _ _ _ => exact fun b h => List.mem_cons_of_mem _ h
  | clear _ _ => exact fun b h => h

/-- A box was leaked by the call or before. -/
theorem weffect_origin {L : Lay V} {m m' : Mem V} {o : WOp V} {k} (e : WEffect L o m m' k) {p : Ptr} {x : V} (h : (p, x) ∈ m'.heap) :
    (p, x) ∈ m.heap ∨ ∃ look al look2, o = .intern look x al look2 := by
  cases e with
  | same _ => exact .inl h
  | leak ho _ _ =>
    rcases List.mem_cons.mp h with h | h
    · cases h; exact .inr ⟨_, _, _, ho⟩
    · exact .inl h
  | ins ho _ _ =>
    rcases List.mem_cons.mp h with h | h
    · cases h; exact .inr ⟨_, _, _, ho⟩
    · exact .inl h
  | clear _ _ => exact .inl h

theorem wderef {L : Lay V} {m : Mem V} (g : WGood L m) {p : Ptr} {x : V} (h : (p, x) ∈ m.heap) : deref m.heap p = some x := by
  unfold deref
  cases hf : m.heap.find? fun e => e.1 == p with
  | none =>
    have := List.find?_eq_none.mp hf _ h
    simp at this
  | some b =>
    have h1 := List.mem_of_find?_eq_some hf
    have h2 := List.find?_some hf
    simp only [beq_iff_eq] at h2
    obtain ⟨q, y⟩ := b
    simp only at h2
    subst h2
    rw [g.one q x y h h1]
    rfl

theorem mem_of_deref {h : Table V} {p : Ptr} {x : V} (e : deref h p = some x) : (p, x) ∈ h := by
  unfold deref at e
  cases hf : h.find? fun e => e.1 == p with
  | none => rw [hf] at e; cases e
  | some b =>
    rw [hf] at e
    injection e with e
    have h1 := List.mem_of_find?_eq_some hf
    have h2 := List.find?_some hf
    simp only [beq_iff_eq] at h2
    subst h2 e
    exact h1

/-! ### histories -/

theorem Replay.split {C R : Type} {d c : C} {l1 l2 : List (Entry C R)} (h : Replay d (l1 ++ l2) c) :
    ∃ c', Replay d l2 c' ∧ Replay c' l1 c := by
  induction l1 generalizing c with
  | nil => exact ⟨c, h, .nil⟩
  | cons e l1 ih =>
    rw [List.cons_append] at h
    cases h with
    | ret h hs => obtain ⟨c', h1, h2⟩ := ih h; exact ⟨c', h1, h2.ret hs⟩
    | panic h hs => obtain ⟨c', h1, h2⟩ := ih h; exact ⟨c', h1, h2.panic hs⟩

/-- A property of the memory that every call keeps is kept by a history of calls. -/
theorem replay_keeps {L : Lay V} {P : WOp V → Prop} {I : Mem V → Prop}
    (keep : ∀ o, P o → ∀ m m' k, I m → WEffect L o m m' k → I m') {l : List (Entry (Mem V) Ret)} {m m' : Mem V}
    (r : Replay m l m') (hl : ∀ e ∈ l, ∃ o, P o ∧ e.code = o.code L) (h : I m) : I m' := by
  induction r with
  | nil => exact h
  | @ret l c c' code n r _ hs ih =>
    obtain ⟨o, ho, e⟩ := hl _ List.mem_cons_self
    simp only at e
    subst e
    have := weffect L o c n
    rw [hs] at this
    exact keep o ho _ _ _ (ih fun e he => hl e (List.mem_cons_of_mem _ he)) this
  | @panic l c c' code n k _ hs ih =>
    obtain ⟨o, ho, e⟩ := hl _ List.mem_cons_self
    simp only at e
    subst e
    have := weffect L o c n
    rw [hs] at this
    exact keep o ho _ _ _ (ih fun e he => hl e (List.mem_cons_of_mem _ he)) this

/-- The closure is a possible call. -/
def IsPossible (L : Lay V) (code : Code (Mem V) Ret) : Prop := ∃ o : WOp V, o.Possible ∧ code = o.code L

theorem replay_wgood {L : Lay V} (ok : L.Ok) {l : List (Entry (Mem V) Ret)} {m m' : Mem V} (r : Replay m l m')
    (hl : ∀ e ∈ l, IsPossible L e.code) (g : WGood L m) : WGood L m' :=
  replay_keeps (P := WOp.Possible) (fun _ ho _ _ _ g e => g.effect ok ho e) r hl g

theorem replay_heap {L : Lay V} {l : List (Entry (Mem V) Ret)} {m m' : Mem V} (r : Replay m l m')
    (hl : ∀ e ∈ l, IsPossible L e.code) : ∀ b ∈ m.heap, b ∈ m'.heap :=
  replay_keeps (P := WOp.Possible) (I := fun m' => ∀ b ∈ m.heap, b ∈ m'.heap)
    (fun _ _ _ _ _ h e b hb => weffect_heap e b (h b hb)) r hl fun _ h => h

/-- Every box was supplied by a call. -/
theorem replay_origin {L : Lay V} {l : List (Entry (Mem V) Ret)} {m' : Mem V} (r : Replay ⟨[], []⟩ l m')
    (hl : ∀ e ∈ l, IsPossible L e.code) {p : Ptr} {x : V} (h : (p, x) ∈ m'.heap) :
    ∃ e ∈ l, ∃ look al look2, e.code = (WOp.intern look x al look2).code L := by
  induction r with
  | nil => cases h
  | @ret l c c' code n r _ hs ih =>
    obtain ⟨o, ho, e⟩ := hl _ List.mem_cons_self
    simp only at e
    subst e
    have := weffect L o c n
    rw [hs] at this
    rcases weffect_origin this h with h | ⟨look, al, look2, rfl⟩
    · obtain ⟨e, he, hx⟩ := ih (fun e he => hl e (List.mem_cons_of_mem _ he)) h
      exact ⟨e, List.mem_cons_of_mem _ he, hx⟩
    · exact ⟨_, List.mem_cons_self, look, al, look2, rfl⟩
  | @panic l c c' code n k _ hs ih =>
    obtain ⟨o, ho, e⟩ := hl _ List.mem_cons_self
    simp only at e
    subst e
    have := weffect L o c n
    rw [hs] at this
    rcases weffect_origin this h with h | ⟨look, al, look2, rfl⟩
    · obtain ⟨e, he, hx⟩ := ih (fun e he => hl e (List.mem_cons_of_mem _ he)) h
      exact ⟨e, List.mem_cons_of_mem _ he, hx⟩
    · exact ⟨_, List.mem_cons_self, look, al, look2, rfl⟩

/-- Where a finished call that returned a handle stands in the history. -/
theorem replay_at {C R : Type} {d c : C} {l1 l2 : List (Entry C R)} {code : Code C R} {n : Nat} {r : R}
    (h : Replay d (l1 ++ ⟨code, n, some r⟩ :: l2) c) :
    ∃ c1 c2, Replay d l2 c1 ∧ code.steps n c1 = (c2, .ret r) ∧ Replay c2 l1 c := by
  obtain ⟨c2, h2, h1⟩ := Replay.split h
  cases h2 with
  | ret h hs => exact ⟨_, _, h, hs, h1⟩

end Closures
