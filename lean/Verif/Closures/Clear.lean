import Verif.Closures.Wild
/-!
Lawful user code, with the set being cleared now and then.
-/
namespace Closures
open TypeMap (Cfg Code Entry Replay Tid)
open Pool (Ptr Query)

variable {V : Type} [BEq V] [Hashable V]

/-- The closure is a call with the `Hash` and `Eq` of the type. -/
def IsHonest (L : Lay V) (code : Code (Mem V) Ret) : Prop := ∃ o : WOp V, o.Honest ∧ code = o.code L

theorem IsHonest.possible {L : Lay V} {code : Code (Mem V) Ret} (h : IsHonest L code) : IsPossible L code := by
  obtain ⟨o, ho, e⟩ := h
  exact ⟨o, ho.possible, e⟩

/-- A finished call that interned `v` and returned `p`. -/
def Interned (L : Lay V) (e : Entry (Mem V) Ret) (v : V) (p : Ptr) : Prop :=
  ∃ q al n, (Op.intern q v al).Lawful ∧ e = ⟨(WOp.intern (lookOf q) v al (lookOf (.ofVal v))).code L, n, some (.ptr p)⟩

/-- A call that was to intern `v`. -/
def Supplied (L : Lay V) (e : Entry (Mem V) Ret) (v : V) : Prop :=
  ∃ look al look2, e.code = (WOp.intern look v al look2).code L

/-- The elements of the set are pairwise unequal. -/
def WCanon (m : Mem V) : Prop := m.set.Pairwise fun p p' => ∀ x y, (p, x) ∈ m.heap → (p', y) ∈ m.heap → (x == y) = false

set_option linter.unusedSectionVars false
variable [EquivBEq V] [LawfulHashable V]

/-- A lookup that finds nothing. -/
theorem lookOf_none {L : Lay V} {m : Mem V} (g : WGood L m) {q : Query V} (h : lookOf q m = none) {p : Ptr} (hp : p ∈ m.set) {x : V}
    (hx : (p, x) ∈ m.heap) : (hash x == q.hash && q.eq x) = false := by
  have := List.find?_eq_none.mp h p hp
  rw [wderef g hx] at this
  simpa using this

theorem lookOf_some {m : Mem V} {q : Query V} {p : Ptr} (h : lookOf q m = some p) :
    p ∈ m.set ∧ ∃ x, (p, x) ∈ m.heap ∧ q.eq x = true := by
  have h1 := List.mem_of_find?_eq_some h
  have h2 := List.find?_some h
  refine ⟨h1, ?_⟩
  cases hd : deref m.heap p with
  | none => rw [hd] at h2; cases h2
  | some x =>
    rw [hd] at h2
    simp only [Bool.and_eq_true] at h2
    exact ⟨x, mem_of_deref hd, h2.2⟩

/-- A lookup for `v` finds nothing: no element is equal to `v`. -/
theorem miss_unequal {L : Lay V} {m : Mem V} (g : WGood L m) {q : Query V} {v : V} {al} (hl : (Op.intern q v al).Lawful)
    (h : lookOf q m = none) {p : Ptr} (hp : p ∈ m.set) {x : V} (hx : (p, x) ∈ m.heap) : (x == v) = false := by
  have := lookOf_none g h hp hx
  cases e : x == v with
  | false => rfl
  | true =>
    rw [hl.2.1, e, hl.1, LawfulHashable.hash_eq x v e] at this
    simp at this

/-- ... so `insert` does insert the new box. -/
theorem miss_inserts {L : Lay V} (ok : L.Ok) {m : Mem V} (g : WGood L m) {q : Query V} {v : V} {al} (hl : (Op.intern q v al).Lawful)
    (h : lookOf q m = none) :
    ((m.leak (newPtr L m.heap v al) v).insert (newPtr L m.heap v al) (lookOf (.ofVal v))).set = newPtr L m.heap v al :: m.set := by
  simp only [Mem.insert]
  rw [if_neg]
  · rfl
  · intro hs
    obtain ⟨p, hp⟩ := Option.isSome_iff_exists.mp hs
    obtain ⟨h1, x, hx, he⟩ := lookOf_some hp
    have h1 : p ∈ m.set := h1
    obtain ⟨y, hy⟩ := g.sub p h1
    have := (g.leak ok hl.2.2).one p x y hx (List.mem_cons_of_mem _ hy)
    subst this
    have := miss_unequal g hl h h1 hy
    simp only [Query.ofVal] at he
    rw [this] at he
    cases he

/-- What an interning call leaves: its handle is in the set and points to an equal value. -/
theorem interned_effect {L : Lay V} (ok : L.Ok) {m m' : Mem V} (g : WGood L m) {q : Query V} {v : V} {al} {n : Nat} {p : Ptr}
    (hl : (Op.intern q v al).Lawful)
    (hr : ((WOp.intern (lookOf q) v al (lookOf (.ofVal v))).code L).steps n m = (m', .ret (.ptr p))) :
    p ∈ m'.set ∧ ∃ x, (p, x) ∈ m'.heap ∧ (x == v) = true := by
  obtain ⟨look, mk, al', look2, e, h⟩ := weffect_ret L hr
  cases e
  rcases h with ⟨h, rfl⟩ | ⟨h, rfl, rfl⟩
  · obtain ⟨h1, x, hx, he⟩ := lookOf_some h
    exact ⟨h1, x, hx, by rw [← hl.2.1]; exact he⟩
  · refine ⟨?_, v, List.mem_cons_self, BEq.rfl⟩
    rw [miss_inserts ok g hl h]
    exact List.mem_cons_self

theorem WCanon.leak {L : Lay V} {m : Mem V} (g : WGood L m) (c : WCanon m) {p : Ptr} {v : V} (ok : WGood L (m.leak p v)) :
    WCanon (m.leak p v) := by
  refine List.Pairwise.imp_of_mem (fun {a b} ha hb hab x y hx hy => ?_) c
  obtain ⟨x', hx'⟩ := g.sub a ha
  obtain ⟨y', hy'⟩ := g.sub b hb
  rw [ok.one _ _ _ hx (List.mem_cons_of_mem _ hx'), ok.one _ _ _ hy (List.mem_cons_of_mem _ hy')]
  exact hab x' y' hx' hy'

theorem WCanon.effect {L : Lay V} (ok : L.Ok) {m m' : Mem V} (g : WGood L m) (c : WCanon m) {o : WOp V} (ho : o.Honest) {k}
    (e : WEffect L o m m' k) : WCanon m' := by
  cases e with
  | same _ => exact c
  | leak h _ _ => subst h; exact c.leak g (g.leak ok ho.possible.2.2)
  | @ins k look mk al look2 h hn _ =>
    subst h
    have : ∃ q, look = lookOf q ∧ look2 = lookOf (.ofVal mk) ∧ (Op.intern q mk al).Lawful := by
      cases ho with
      | intern q mk al hl => exact ⟨q, rfl, rfl, hl⟩
    obtain ⟨q, rfl, rfl, hl⟩ := this
    have g1 := g.leak (v := mk) ok hl.2.2
    have c1 := c.leak g g1
    unfold WCanon
    rw [miss_inserts ok g hl hn, List.pairwise_cons]
    refine ⟨fun p' hp' x y hx hy => ?_, c1⟩
    have hx : (newPtr L m.heap mk al, x) ∈ (m.leak (newPtr L m.heap mk al) mk).heap := hx
    have hy : (p', y) ∈ (m.leak (newPtr L m.heap mk al) mk).heap := hy
    rw [g1.one _ _ _ hx List.mem_cons_self]
    obtain ⟨y', hy'⟩ := g.sub p' hp'
    rw [g1.one _ _ _ hy (List.mem_cons_of_mem _ hy')]
    have := miss_unequal g hl hn hp' hy'
    cases e : mk == y' with
    | false => rfl
    | true => rw [BEq.symm e] at this; cases this
  | clear _ _ => exact List.Pairwise.nil

theorem replay_canon {L : Lay V} (ok : L.Ok) {l : List (Entry (Mem V) Ret)} {m m' : Mem V} (r : Replay m l m')
    (hl : ∀ e ∈ l, IsHonest L e.code) (g : WGood L m) (c : WCanon m) : WGood L m' ∧ WCanon m' :=
  replay_keeps (P := WOp.Honest) (I := fun m => WGood L m ∧ WCanon m)
    (fun _ ho _ _ _ h e => ⟨h.1.effect ok ho.possible e, h.2.effect ok h.1 ho e⟩) r hl ⟨g, c⟩

/-- Without clearing, the set only grows. -/
theorem replay_set {L : Lay V} {l : List (Entry (Mem V) Ret)} {m m' : Mem V} (r : Replay m l m')
    (hl : ∀ e ∈ l, IsHonest L e.code) (hc : ∀ e ∈ l, e.code ≠ (WOp.clear : WOp V).code L) : ∀ p ∈ m.set, p ∈ m'.set := by
  refine replay_keeps (L := L) (P := fun o => o ≠ .clear) (I := fun m' => ∀ p ∈ m.set, p ∈ m'.set) (fun o ho m1 m2 k h e p hp => ?_) r
    (fun e he => ?_) fun _ h => h
  · cases e with
    | same _ => exact h p hp
    | leak _ _ _ => exact h p hp
    | ins _ _ _ =>
      simp only [Mem.insert]
      split
      · exact h p hp
      · exact List.mem_cons_of_mem _ (h p hp)
    | clear e _ => exact absurd e ho
  · obtain ⟨o, ho, e1⟩ := hl e he
    exact ⟨o, (by rintro rfl; exact hc e he e1), e1⟩

/-- A handle that is not in the set, and whose value is not zero-sized, does not come back. -/
theorem replay_gone {L : Lay V} (ok : L.Ok) {l : List (Entry (Mem V) Ret)} {m m' : Mem V} (r : Replay m l m')
    (hl : ∀ e ∈ l, IsHonest L e.code) (g : WGood L m) {p : Ptr} {x : V} (hx : (p, x) ∈ m.heap) (hz : L.zst x = false)
    (hp : p ∉ m.set) : p ∉ m'.set := by
  refine (replay_keeps (P := WOp.Possible) (I := fun m => WGood L m ∧ (p, x) ∈ m.heap ∧ p ∉ m.set) (fun o ho m1 m2 k h e => ?_) r
    (fun e he => (hl e he).possible) ⟨g, hx, hp⟩).2.2
  obtain ⟨g, hx, hp⟩ := h
  refine ⟨g.effect ok ho e, weffect_heap e _ hx, ?_⟩
  cases e with
  | same _ => exact hp
  | leak _ _ _ => exact hp
  | ins e _ _ =>
    subst e
    simp only [Mem.insert]
    split
    · exact hp
    · intro h
      rcases List.mem_cons.mp h with rfl | h
      · obtain ⟨rfl, h⟩ := g.fresh ok ho.2.2 hx
        rw [hz] at h
        cases h
      · exact hp h
  | clear _ _ => exact fun h => by cases h

/-- Two finished interning calls, the later one `b`, with `l2` between them. -/
theorem two_calls {L : Lay V} (ok : L.Ok) {l1 l2 l3 : List (Entry (Mem V) Ret)} {a b : Entry (Mem V) Ret} {m : Mem V}
    (r : Replay ⟨[], []⟩ (l1 ++ b :: (l2 ++ a :: l3)) m) (hl : ∀ e ∈ l1 ++ b :: (l2 ++ a :: l3), IsHonest L e.code)
    {v w : V} {p p' : Ptr} (ha : Interned L a v p) (hb : Interned L b w p') :
    ((∀ e ∈ l2, e.code ≠ (WOp.clear : WOp V).code L) → (p = p' ↔ (v == w) = true)) ∧
    ((∀ x, (x == v) = true → L.zst x = false) → (∃ n r, ⟨(WOp.clear : WOp V).code L, n, some r⟩ ∈ l2) → p ≠ p') := by
  obtain ⟨q, al, n, hla, rfl⟩ := ha
  obtain ⟨q', al', n', hlb, rfl⟩ := hb
  have hl1 : ∀ e ∈ l3, IsHonest L e.code := fun e he => hl e (by simp [he])
  have hl2 : ∀ e ∈ l2, IsHonest L e.code := fun e he => hl e (by simp [he])
  obtain ⟨m3, m4, r1, hsb, _⟩ := replay_at r
  obtain ⟨m1, m2, r0, hsa, r1⟩ := replay_at r1
  obtain ⟨g1, c1⟩ := replay_canon ok r0 hl1 (.nil L) .nil
  have ea := weffect L (WOp.intern (lookOf q) v al (lookOf (.ofVal v))) m1 n
  rw [hsa] at ea
  have g2 := g1.effect ok (WOp.Honest.intern q v al hla).possible ea
  have c2 := c1.effect ok g1 (WOp.Honest.intern q v al hla) ea
  obtain ⟨hpa, x, hx, hxv⟩ := interned_effect ok g1 hla hsa
  obtain ⟨g3, c3⟩ := replay_canon ok r1 hl2 g2 c2
  have eb := weffect L (WOp.intern (lookOf q') w al' (lookOf (.ofVal w))) m3 n'
  rw [hsb] at eb
  have g4 := g3.effect ok (WOp.Honest.intern q' w al' hlb).possible eb
  have c4 := c3.effect ok g3 (WOp.Honest.intern q' w al' hlb) eb
  obtain ⟨hpb, y, hy, hyw⟩ := interned_effect ok g3 hlb hsb
  have hx3 := replay_heap r1 (fun e he => (hl2 e he).possible) _ hx
  have hx4 := weffect_heap eb _ hx3
  constructor
  · intro hc
    have hp3 := replay_set r1 hl2 hc _ hpa
    have hp4 : p ∈ m4.set := by
      have : Replay m3 [⟨(WOp.intern (lookOf q') w al' (lookOf (.ofVal w))).code L, n', some (Ret.ptr p')⟩] m4 := .ret .nil hsb
      refine replay_set (L := L) this (fun e he => ?_) (fun e he => ?_) _ hp3
      · rw [List.mem_singleton.mp he]; exact ⟨_, .intern q' w al' hlb, rfl⟩
      · rw [List.mem_singleton.mp he]
        intro e
        simp only [WOp.code] at e
        injection e with e1 e2
        have := congrFun e2 ⟨[], []⟩
        simp only [lookOf, List.find?_nil] at this
        cases this
    constructor
    · rintro rfl
      have := g4.one _ _ _ hx4 hy
      subst this
      exact BEq.trans (BEq.symm hxv) hyw
    · intro e
      have exy : (x == y) = true := BEq.trans hxv (BEq.trans e (BEq.symm hyw))
      apply Classical.byContradiction
      intro hne
      have key : ∀ (l : List Ptr), l.Pairwise (fun p p' => ∀ x y, (p, x) ∈ m4.heap → (p', y) ∈ m4.heap → (x == y) = false) →
          p ∈ l → p' ∈ l → False := by
        intro l
        induction l with
        | nil => intro _ h; cases h
        | cons c l ih =>
          intro hpw h1 h2
          rw [List.pairwise_cons] at hpw
          rcases List.mem_cons.mp h1 with rfl | h1 <;> rcases List.mem_cons.mp h2 with rfl | h2
          · exact hne rfl
          · have := hpw.1 _ h2 x y hx4 hy; rw [exy] at this; cases this
          · have := hpw.1 _ (by assumption) y x hy hx4; rw [BEq.symm exy] at this; cases this
          · exact ih hpw.2 h1 h2
      exact key _ c4 hp4 hpb
  · rintro hz ⟨nc, rc, hcl⟩ rfl
    obtain ⟨la, lb, rfl⟩ := List.append_of_mem hcl
    obtain ⟨d1, d2, rb, hsc, ra⟩ := replay_at r1
    have hlb' : ∀ e ∈ lb, IsHonest L e.code := fun e he => hl2 e (by simp [he])
    have hla' : ∀ e ∈ la, IsHonest L e.code := fun e he => hl2 e (by simp [he])
    obtain ⟨gd1, _⟩ := replay_canon ok rb hlb' g2 c2
    have hd1 := replay_heap rb (fun e he => (hlb' e he).possible) _ hx
    rcases nc with _ | nc
    · cases hsc
    · simp only [WOp.code, Code.steps, wsteps_ret] at hsc
      injection hsc with e1 _
      subst e1
      have g5 := gd1.clear
      refine replay_gone ok (l := ⟨(WOp.intern (lookOf q') w al' (lookOf (.ofVal w))).code L, n', some (Ret.ptr p)⟩ :: la) (.ret ra hsb)
        (fun e he => ?_) g5 hd1 (hz x hxv) (fun h => by cases h) hpb
      rcases List.mem_cons.mp he with rfl | he
      · exact ⟨_, .intern q' w al' hlb, rfl⟩
      · exact hla' e he

theorem weffect_set {L : Lay V} {m m' : Mem V} {o : WOp V} {k} (e : WEffect L o m m' k) {p : Ptr} (h : p ∈ m'.set) :
    p ∈ m.set ∨ ∃ look mk al look2, o = .intern look mk al look2 ∧ (p, mk) ∈ m'.heap := by
  cases e with
  | same _ => exact .inl h
  | leak ho _ _ => exact .inl h
  | ins ho _ _ =>
    simp only [Mem.insert] at h
    split at h
    · exact .inl h
    · rcases List.mem_cons.mp h with rfl | h
      · exact .inr ⟨_, _, _, _, ho, List.mem_cons_self⟩
      · exact .inl h
  | clear _ _ => cases h

/-- Elements of the set that were not there before were supplied by the calls made since. -/
theorem replay_set_origin {L : Lay V} {l : List (Entry (Mem V) Ret)} {m m' : Mem V} (r : Replay m l m')
    (hl : ∀ e ∈ l, IsHonest L e.code) {p : Ptr} (h : p ∈ m'.set) (hm : p ∉ m.set) :
    ∃ x, (p, x) ∈ m'.heap ∧ ∃ e ∈ l, Supplied L e x := by
  induction r with
  | nil => exact absurd h hm
  | @ret l c c' code n r _ hs ih =>
    obtain ⟨o, ho, e⟩ := hl _ List.mem_cons_self
    simp only at e
    subst e
    have ef := weffect L o c n
    rw [hs] at ef
    rcases weffect_set ef h with h | ⟨look, mk, al, look2, rfl, hx⟩
    · obtain ⟨x, hx, e, he, hx'⟩ := ih (fun e he => hl e (List.mem_cons_of_mem _ he)) h
      exact ⟨x, weffect_heap ef _ hx, e, List.mem_cons_of_mem _ he, hx'⟩
    · exact ⟨mk, hx, _, List.mem_cons_self, look, al, look2, rfl⟩
  | @panic l c c' code n k _ hs ih =>
    obtain ⟨o, ho, e⟩ := hl _ List.mem_cons_self
    simp only at e
    subst e
    have ef := weffect L o c n
    rw [hs] at ef
    rcases weffect_set ef h with h | ⟨look, mk, al, look2, rfl, hx⟩
    · obtain ⟨x, hx, e, he, hx'⟩ := ih (fun e he => hl e (List.mem_cons_of_mem _ he)) h
      exact ⟨x, weffect_heap ef _ hx, e, List.mem_cons_of_mem _ he, hx'⟩
    · exact ⟨mk, hx, _, List.mem_cons_self, look, al, look2, rfl⟩

/-- Histories are newest first: the last call of `l3` is a finished clear, or `l3` is empty; no call of `l2` is a clear. -/
def Since (L : Lay V) (l2 l3 : List (Entry (Mem V) Ret)) : Prop :=
  (l3 = [] ∨ ∃ n r rest, l3 = ⟨(WOp.clear : WOp V).code L, n, some r⟩ :: rest) ∧
    ∀ e ∈ l2, e.code ≠ (WOp.clear : WOp V).code L

theorem Since.empty {L : Lay V} {l2 l3 : List (Entry (Mem V) Ret)} (hs : Since L l2 l3) {m : Mem V} (r1 : Replay ⟨[], []⟩ l3 m) :
    m.set = [] := by
  rcases hs.1 with rfl | ⟨n, r, rest, rfl⟩
  · cases r1; rfl
  · cases r1 with
    | ret _ hc =>
      rcases n with _ | n
      · cases hc
      · simp only [WOp.code, Code.steps, wsteps_ret] at hc
        injection hc with e _
        rw [← e]
        rfl

theorem set_values {L : Lay V} {m : Mem V} (g : WGood L m) : ∃ tab : Table V, tab.map (·.1) = m.set ∧ ∀ b ∈ tab, b ∈ m.heap := by
  have : ∀ l : List Ptr, (∀ p ∈ l, ∃ x, (p, x) ∈ m.heap) → ∃ tab : Table V, tab.map (·.1) = l ∧ ∀ b ∈ tab, b ∈ m.heap := by
    intro l
    induction l with
    | nil => exact fun _ => ⟨[], rfl, fun _ h => by cases h⟩
    | cons p l ih =>
      intro h
      obtain ⟨tab, e, ht⟩ := ih fun q hq => h q (List.mem_cons_of_mem _ hq)
      obtain ⟨x, hx⟩ := h p List.mem_cons_self
      refine ⟨(p, x) :: tab, by simp [e], fun b hb => ?_⟩
      rcases List.mem_cons.mp hb with rfl | hb
      · exact hx
      · exact ht b hb
  exact this _ g.sub

/-- The count covers the calls since the last clear. -/
theorem count_since {L : Lay V} (ok : L.Ok) {newer l2 l3 : List (Entry (Mem V) Ret)} {m : Mem V} {n : Nat} {a : Ret}
    (r : Replay ⟨[], []⟩ (newer ++ ⟨(WOp.len : WOp V).code L, n, some a⟩ :: (l2 ++ l3)) m)
    (hl : ∀ e ∈ newer ++ ⟨(WOp.len : WOp V).code L, n, some a⟩ :: (l2 ++ l3), IsHonest L e.code) (hs : Since L l2 l3) :
    ∃ vals : List V, a = .num vals.length ∧ vals.Pairwise (fun x y => (x == y) = false) ∧
      (∀ x ∈ vals, ∃ e ∈ l2, Supplied L e x) ∧ ∀ e ∈ l2, ∀ v p, Interned L e v p → ∃ x ∈ vals, (x == v) = true := by
  have hl2 : ∀ e ∈ l2, IsHonest L e.code := fun e he => hl e (by simp [he])
  have hl3 : ∀ e ∈ l3, IsHonest L e.code := fun e he => hl e (by simp [he])
  obtain ⟨m2, m3, r, hsl, _⟩ := replay_at r
  obtain ⟨m1, r1, r2⟩ := Replay.split r
  obtain ⟨g1, c1⟩ := replay_canon ok r1 hl3 (.nil L) .nil
  obtain ⟨g2, c2⟩ := replay_canon ok r2 hl2 g1 c1
  have e1 := hs.empty r1
  have ea : a = .num m2.set.length := by
    rcases n with _ | n
    · cases hsl
    · simp only [WOp.code, Code.steps, wsteps_ret] at hsl
      injection hsl with _ e
      injection e with e
      exact e.symm
  obtain ⟨tab, et, ht⟩ := set_values g2
  refine ⟨tab.map (·.2), by rw [ea, ← et]; simp, ?_, fun x hx => ?_, fun e he v p hi => ?_⟩
  · rw [List.pairwise_map]
    have : tab.Pairwise fun b b' => ∀ x y, (b.1, x) ∈ m2.heap → (b'.1, y) ∈ m2.heap → (x == y) = false := by
      rw [← List.pairwise_map (f := fun b : Ptr × V => b.1)
        (R := fun p p' => ∀ x y, (p, x) ∈ m2.heap → (p', y) ∈ m2.heap → (x == y) = false), et]
      exact c2
    exact this.imp_of_mem fun {b b'} hb hb' h => h b.2 b'.2 (ht b hb) (ht b' hb')
  · obtain ⟨b, hb, rfl⟩ := List.mem_map.mp hx
    have hp : b.1 ∈ m2.set := by rw [← et]; exact List.mem_map.mpr ⟨b, hb, rfl⟩
    obtain ⟨y, hy, h⟩ := replay_set_origin r2 hl2 hp (by rw [e1]; exact fun h => by cases h)
    rw [g2.one b.1 b.2 y (ht b hb) hy]
    exact h
  · obtain ⟨q, al, k, hq, rfl⟩ := hi
    obtain ⟨la, lb, rfl⟩ := List.append_of_mem he
    obtain ⟨d1, d2, rb, hsd, ra⟩ := replay_at r2
    have hlb : ∀ e ∈ lb, IsHonest L e.code := fun e he => hl2 e (by simp [he])
    have hla : ∀ e ∈ la, IsHonest L e.code := fun e he => hl2 e (by simp [he])
    obtain ⟨gd, _⟩ := replay_canon ok rb hlb g1 c1
    obtain ⟨hp, x, hx, hxv⟩ := interned_effect ok gd hq hsd
    have hp2 := replay_set ra hla (fun e he => hs.2 e (by simp [he])) _ hp
    have hx2 := replay_heap ra (fun e he => (hla e he).possible) _ hx
    rw [← et] at hp2
    obtain ⟨b, hb, rfl⟩ := List.mem_map.mp hp2
    exact ⟨b.2, List.mem_map.mpr ⟨b, hb, rfl⟩, by rw [g2.one _ _ _ (ht b hb) hx2]; exact hxv⟩

/-- A lookup for `v` answers by the calls since the last clear. -/
theorem query_since {L : Lay V} (ok : L.Ok) {newer l2 l3 : List (Entry (Mem V) Ret)} {m : Mem V} {n : Nat} {a : Ret} {q : Query V} {v : V}
    (hh : q.hash = hash v) (he : ∀ x, q.eq x = (x == v))
    (r : Replay ⟨[], []⟩ (newer ++ ⟨(WOp.query (lookOf q)).code L, n, some a⟩ :: (l2 ++ l3)) m)
    (hl : ∀ e ∈ newer ++ ⟨(WOp.query (lookOf q)).code L, n, some a⟩ :: (l2 ++ l3), IsHonest L e.code) (hs : Since L l2 l3) :
    ∃ b, a = .bool b ∧ (b = true → ∃ e ∈ l2, ∃ x, Supplied L e x ∧ (x == v) = true) ∧
      ∀ e ∈ l2, ∀ w p, Interned L e w p → (w == v) = true → b = true := by
  have hl2 : ∀ e ∈ l2, IsHonest L e.code := fun e he => hl e (by simp [he])
  have hl3 : ∀ e ∈ l3, IsHonest L e.code := fun e he => hl e (by simp [he])
  obtain ⟨m2, m3, r, hsl, _⟩ := replay_at r
  obtain ⟨m1, r1, r2⟩ := Replay.split r
  obtain ⟨g1, c1⟩ := replay_canon ok r1 hl3 (.nil L) .nil
  obtain ⟨g2, c2⟩ := replay_canon ok r2 hl2 g1 c1
  have e1 := hs.empty r1
  have ea : a = .bool (lookOf q m2).isSome := by
    rcases n with _ | n
    · cases hsl
    · simp only [WOp.code, Code.steps, wsteps_ret] at hsl
      injection hsl with _ e
      injection e with e
      exact e.symm
  refine ⟨_, ea, fun hb => ?_, fun e hm w p hi hw => ?_⟩
  · obtain ⟨p, hp⟩ := Option.isSome_iff_exists.mp hb
    obtain ⟨h1, x, hx, hq⟩ := lookOf_some hp
    obtain ⟨y, hy, e, hm, h⟩ := replay_set_origin r2 hl2 h1 (by rw [e1]; exact fun h => by cases h)
    rw [g2.one p x y hx hy] at hq
    exact ⟨e, hm, y, h, by rw [← he]; exact hq⟩
  · obtain ⟨q', al, k, hq', rfl⟩ := hi
    obtain ⟨la, lb, rfl⟩ := List.append_of_mem hm
    obtain ⟨d1, d2, rb, hsd, ra⟩ := replay_at r2
    have hlb : ∀ e ∈ lb, IsHonest L e.code := fun e he => hl2 e (by simp [he])
    have hla : ∀ e ∈ la, IsHonest L e.code := fun e he => hl2 e (by simp [he])
    obtain ⟨gd, _⟩ := replay_canon ok rb hlb g1 c1
    obtain ⟨hp, x, hx, hxv⟩ := interned_effect ok gd hq' hsd
    have hp2 := replay_set ra hla (fun e he => hs.2 e (by simp [he])) _ hp
    have hx2 := replay_heap ra (fun e he => (hla e he).possible) _ hx
    cases hk : lookOf q m2 with
    | some _ => rfl
    | none =>
      have := lookOf_none g2 hk hp2 hx2
      have hv : (x == v) = true := BEq.trans hxv hw
      rw [he, hv, hh, LawfulHashable.hash_eq x v hv] at this
      simp at this

/-- The value of the handle that a call for `v` returned. -/
theorem interned_value {L : Lay V} (ok : L.Ok) {l : List (Entry (Mem V) Ret)} {m : Mem V} (r : Replay ⟨[], []⟩ l m)
    (hl : ∀ e ∈ l, IsHonest L e.code) {a : Entry (Mem V) Ret} (hm : a ∈ l) {v : V} {p : Ptr} (ha : Interned L a v p) :
    ∃ x, (p, x) ∈ m.heap ∧ (x == v) = true := by
  obtain ⟨q, al, n, hq, rfl⟩ := ha
  obtain ⟨l1, l2, rfl⟩ := List.append_of_mem hm
  obtain ⟨d1, d2, r1, hs, r2⟩ := replay_at r
  obtain ⟨g, _⟩ := replay_canon ok r1 (fun e he => hl e (by simp [he])) (.nil L) .nil
  obtain ⟨_, x, hx, hv⟩ := interned_effect ok g hq hs
  exact ⟨x, replay_heap r2 (fun e he => (hl e (by simp [he])).possible) _ hx, hv⟩

end Closures
