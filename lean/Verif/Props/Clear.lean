import Verif.Closures.Clear
import Verif.Props.EndToEnd
/-!
C70: arbitrary user code and clearing, for `NewIntern` and, through its type table, for `Intern`.
C71: what exactly clearing does, with lawful user code.

Reading guide. `s.log t`: the finished calls for type `t`, newest first, each with its closure, the number of steps it made and,
if it did not panic, its result. `content s t`: the memory of type `t`: `heap` are the boxes leaked so far, `set` the elements of
the hash set. `WOp.Possible`: the only assumption on user code is that a lookup answers with an element of the set or with
nothing. `WOp.Honest`: lookups go by the `Hash` and `Eq` of the type and the arguments are lawful.
-/
namespace Closures
open TypeMap (Cfg Code Entry Replay Tid)
open Pool (Ptr Query)

/-- The type tables hold the memory of each type. -/
abbrev Types.mcfg (T : Types) : Cfg where
  Ty := T.Ty
  dec := T.dec
  C t := Mem (T.V t)
  dflt _ := ⟨[], []⟩
  R _ := Ret
  writes := T.writes
  w := T.w

/-- Programs with arbitrary user code. -/
abbrev Types.Any (T : Types) (t : T.mcfg.Ty) (code : Code (T.mcfg.C t) (T.mcfg.R t)) : Prop := IsPossible (V := T.V t) (T.lay t) code

/-- Programs with lawful user code. -/
abbrev Types.Lawful (T : Types) (t : T.mcfg.Ty) (code : Code (T.mcfg.C t) (T.mcfg.R t)) : Prop := IsHonest (V := T.V t) (T.lay t) code

section
variable {V : Type} {L : Lay V} {l : List (Entry (Mem V) Ret)} {m : Mem V}

theorem NowAny.wgood (ok : L.Ok) (h : NowAny (IsPossible L) ⟨[], []⟩ l m) (hl : ∀ e ∈ l, IsPossible L e.code) : WGood L m := by
  obtain ⟨m0, r, h⟩ := h
  have g := replay_wgood ok r hl (.nil L)
  rcases h with rfl | ⟨code, n, ⟨o, ho, rfl⟩, rfl⟩
  · exact g
  · exact g.effect ok ho (weffect L o m0 n)

/-- The value of a handle, in the history `l`. -/
theorem handle_value (ok : L.Ok) {m0 : Mem V} (r : Replay ⟨[], []⟩ l m0) (hl : ∀ e ∈ l, IsPossible L e.code)
    {code : Code (Mem V) Ret} {n : Nat} {p : Ptr} (he : ⟨code, n, some (.ptr p)⟩ ∈ l) :
    ∃ x, (p, x) ∈ m0.heap ∧ ∃ e ∈ l, ∃ look al look2, e.code = (WOp.intern look x al look2).code L := by
  obtain ⟨l1, l2, rfl⟩ := List.append_of_mem he
  obtain ⟨m1, m2, r1, hs, r2⟩ := replay_at r
  have hl2 : ∀ e ∈ l2, IsPossible L e.code := fun e he => hl e (by simp [he])
  have hl1 : ∀ e ∈ l1, IsPossible L e.code := fun e he => hl e (by simp [he])
  obtain ⟨o, ho, e⟩ := hl _ he
  simp only at e
  subst e
  obtain ⟨look, mk, al, look2, rfl, h⟩ := weffect_ret L hs
  have : ∃ x, (p, x) ∈ m2.heap := by
    rcases h with ⟨h, rfl⟩ | ⟨_, rfl, rfl⟩
    · exact (replay_wgood ok r1 hl2 (.nil L)).sub p (ho.1 _ _ h)
    · exact ⟨mk, List.mem_cons_self⟩
  obtain ⟨x, hx⟩ := this
  have hx' := replay_heap r2 hl1 _ hx
  exact ⟨x, hx', replay_origin r hl hx'⟩

theorem NowAny.heap (h : NowAny (IsPossible L) ⟨[], []⟩ l m) : ∃ m0, Replay ⟨[], []⟩ l m0 ∧ ∀ b ∈ m0.heap, b ∈ m.heap := by
  obtain ⟨m0, r, h⟩ := h
  refine ⟨m0, r, ?_⟩
  rcases h with rfl | ⟨code, n, ⟨o, ho, rfl⟩, rfl⟩
  · exact fun b h => h
  · exact weffect_heap (weffect L o m0 n)

/-- A handle returned in `l` keeps its value in every later history. -/
theorem live_for_ever (ok : L.Ok) {m0 : Mem V} (r : Replay ⟨[], []⟩ l m0) (hl : ∀ e ∈ l, IsPossible L e.code) {l' newer : List (Entry (Mem V) Ret)} {m' : Mem V}
    (h' : NowAny (IsPossible L) ⟨[], []⟩ l' m') (hl' : ∀ e ∈ l', IsPossible L e.code) (e : l' = newer ++ l) {p : Ptr} {x : V}
    (hx : (p, x) ∈ m0.heap) : deref m'.heap p = some x := by
  have g' := h'.wgood ok hl'
  obtain ⟨m1, r1, hm⟩ := h'.heap
  subst e
  obtain ⟨c, rc, rn⟩ := Replay.split r1
  have : c = m0 := by
    have := (Replay.det rc r rfl).2
    exact this
  subst this
  exact wderef g' (hm _ (replay_heap rn (fun e he => hl' e (by simp [he])) _ hx))

end

theorem NowAny.mono {C R : Type} {P Q : Code C R → Prop} (h : ∀ c, P c → Q c) {d : C} {l : List (Entry C R)} {c : C}
    (n : NowAny P d l c) : NowAny Q d l c := by
  obtain ⟨c0, r, e | ⟨code, k, hp, e⟩⟩ := n
  · exact ⟨c0, r, .inl e⟩
  · exact ⟨c0, r, .inr ⟨code, k, h _ hp, e⟩⟩

/-- **C70, which user code is covered**: a lookup with any `Hash`, `Eq` and `Borrow`, lawful or not, answers with an element of the
set or with nothing, so the calls of a type with any such implementations are possible calls. -/
theorem C70_any_user_code {V : Type} [BEq V] [Hashable V] (q q2 : Query V) (mk : V) (al : List Nat → Nat) (hal : ∀ l, al l ∉ l) :
    (WOp.intern (lookOf q) mk al (lookOf q2)).Possible ∧ (WOp.query (lookOf q)).Possible :=
  ⟨⟨fun _ _ h => List.mem_of_find?_eq_some h, fun _ _ h => List.mem_of_find?_eq_some h, hal⟩,
    fun _ _ h => List.mem_of_find?_eq_some h⟩

/-! ### `NewIntern` -/
namespace NewTablesAny
open TypeArena
variable {T : Types}

/-- **C70, `NewIntern`**: whatever user code does, wherever it panics and whenever the set is cleared, a handle that a call returned
points to a value that some call for the same type supplied, and it points to it for ever after. -/
theorem C70_newintern_handles_live_for_ever (ok : ∀ t, (T.lay t).Ok) {s : State T.mcfg} (h : Reach T.Any s) (t : T.Ty)
    {code : Code (Mem (T.V t)) Ret} {n : Nat} {p : Ptr} (he : ⟨code, n, some (.ptr p)⟩ ∈ s.log t) :
    ∃ x, (∃ e ∈ s.log t, ∃ look al look2, e.code = (WOp.intern look x al look2).code (T.lay t)) ∧
      ∀ s', Steps T.Any s s' → deref (content s' t).heap p = some x := by
  have hl : ∀ e ∈ s.log t, IsPossible (T.lay t) e.code := h.inv.log t
  have hn : NowAny (IsPossible (T.lay t)) ⟨[], []⟩ (s.log t) (content s t) := h.now t
  obtain ⟨m0, r, _⟩ := hn
  obtain ⟨x, hx, ho⟩ := handle_value (ok t) r hl he
  refine ⟨x, ho, fun s' st => ?_⟩
  have h' : Reach T.Any s' := Steps.trans h st
  obtain ⟨newer, e⟩ := (st.inv h.inv).2 t
  exact live_for_ever (ok t) r hl (h'.now t) (h'.inv.log t) e hx

/-- **C70, `NewIntern`**: at every moment, also in the middle of a call, the elements of the set point to live values; lookups
read nothing else. No step reaches `unreachable!()` or a table that is not there. -/
theorem C70_newintern_no_dangling (ok : ∀ t, (T.lay t).Ok) {s : State T.mcfg} (h : Reach T.Any s) (t : T.Ty) :
    (∀ p ∈ (content s t).set, ∃ x, deref (content s t).heap p = some x) ∧ ∀ a, step s a ≠ .bug := by
  have g : WGood (T.lay t) (content s t) := NowAny.wgood (ok t) (h.now t) (h.inv.log t)
  refine ⟨fun p hp => ?_, C46_never_unreachable h.base⟩
  obtain ⟨x, hx⟩ := g.sub p hp
  exact ⟨x, wderef g hx⟩

theorem Reach.any {s : State T.mcfg} (h : Reach T.Lawful s) : Reach T.Any s := by
  have : Steps T.Lawful (TypeArena.init T.mcfg) s := h
  clear h
  induction this with
  | refl => exact .refl
  | @step s1 s2 a _ ha hs ih =>
    refine .step ih ?_ hs
    cases a with
    | call u t code => exact IsHonest.possible (V := T.V t) ha
    | _ => trivial

/-- **C71, `NewIntern`**: two finished calls for the same type, the first interned `v` and returned `p`, the second `w` and `p'`; `l2`
are the calls in between. If none of those is a clear, the handles are equal exactly if the values are; if one is a finished
clear, they differ, unless the value has size zero. -/
theorem C71_newintern_handles (ok : T.Ok) {s : State T.mcfg} (h : Reach T.Lawful s) (t : T.Ty)
    {l1 l2 l3 : List (Entry (Mem (T.V t)) Ret)} {a b : Entry (Mem (T.V t)) Ret} (e : s.log t = l1 ++ b :: (l2 ++ a :: l3))
    {v w : T.V t} {p p' : Ptr} (ha : Interned (T.lay t) a v p) (hb : Interned (T.lay t) b w p') :
    ((∀ e ∈ l2, e.code ≠ WOp.clear.code (T.lay t)) → (p = p' ↔ (v == w) = true)) ∧
    ((∀ x, (x == v) = true → (T.lay t).zst x = false) → (∃ n r, ⟨WOp.clear.code (T.lay t), n, some r⟩ ∈ l2) → p ≠ p') := by
  have := ok.eq t
  have := ok.hash t
  obtain ⟨m0, r, _⟩ : NowAny (IsHonest (T.lay t)) ⟨[], []⟩ (s.log t) (content s t) := h.now t
  have hl : ∀ e ∈ s.log t, IsHonest (T.lay t) e.code := h.inv.log t
  rw [e] at r hl
  exact two_calls (ok.lay t) r hl ha hb

/-- **C71, `NewIntern`**: `num_objects_interned` returns the number of different values interned since the last clear. -/
theorem C71_newintern_count (ok : T.Ok) {s : State T.mcfg} (h : Reach T.Lawful s) (t : T.Ty)
    {newer l2 l3 : List (Entry (Mem (T.V t)) Ret)} {n : Nat} {a : Ret}
    (e : s.log t = newer ++ ⟨WOp.len.code (T.lay t), n, some a⟩ :: (l2 ++ l3)) (hs : Since (T.lay t) l2 l3) :
    ∃ vals : List (T.V t), a = .num vals.length ∧ vals.Pairwise (fun x y => (x == y) = false) ∧
      (∀ x ∈ vals, ∃ e ∈ l2, Supplied (T.lay t) e x) ∧
      ∀ e ∈ l2, ∀ v p, Interned (T.lay t) e v p → ∃ x ∈ vals, (x == v) = true := by
  have := ok.eq t
  have := ok.hash t
  obtain ⟨m0, r, _⟩ : NowAny (IsHonest (T.lay t)) ⟨[], []⟩ (s.log t) (content s t) := h.now t
  have hl : ∀ e ∈ s.log t, IsHonest (T.lay t) e.code := h.inv.log t
  rw [e] at r hl
  exact count_since (ok.lay t) r hl hs

/-- **C71, `NewIntern`**: a handle returned for `v`, before a clear or after, points to a value equal to `v`, for ever. -/
theorem C71_newintern_value (ok : T.Ok) {s s' : State T.mcfg} (h : Reach T.Lawful s) (st : Steps T.Lawful s s') (t : T.Ty)
    {a : Entry (Mem (T.V t)) Ret} (hm : a ∈ s.log t) {v : T.V t} {p : Ptr} (ha : Interned (T.lay t) a v p) :
    ∃ x, (x == v) = true ∧ deref (content s t).heap p = some x ∧ deref (content s' t).heap p = some x := by
  have := ok.eq t
  have := ok.hash t
  have h' : Reach T.Lawful s' := Steps.trans h st
  have hl : ∀ e ∈ s.log t, IsHonest (T.lay t) e.code := h.inv.log t
  obtain ⟨newer, e⟩ := (st.inv h.inv).2 t
  obtain ⟨m0, r, _⟩ : NowAny (IsHonest (T.lay t)) ⟨[], []⟩ (s.log t) (content s t) := h.now t
  obtain ⟨x, hx, hv⟩ := interned_value (ok.lay t) r hl hm ha
  have hl1 : ∀ e ∈ s.log t, IsPossible (T.lay t) e.code := fun e he => (hl e he).possible
  exact ⟨x, hv, live_for_ever (ok.lay t) r hl1 (h.any.now t) hl1 (newer := []) rfl hx,
    live_for_ever (ok.lay t) r hl1 (h'.any.now t) (h'.any.inv.log t) e hx⟩

end NewTablesAny

/-! ### `Intern` -/
namespace ContainerAny
open TypeMap
variable {T : Types}

/-- **C70, `Intern`**: whatever user code does, wherever it panics and whenever the set is cleared, a handle that a call returned
points to a value that some call for the same type supplied, and it points to it for ever after. -/
theorem C70_intern_handles_live_for_ever (ok : ∀ t, (T.lay t).Ok) {s : State T.mcfg} (h : Reach T.Any s) (t : T.Ty)
    {code : Code (Mem (T.V t)) Ret} {n : Nat} {p : Ptr} (he : ⟨code, n, some (.ptr p)⟩ ∈ s.log t) :
    ∃ x, (∃ e ∈ s.log t, ∃ look al look2, e.code = (WOp.intern look x al look2).code (T.lay t)) ∧
      ∀ s', Steps T.Any s s' → deref (content s' t).heap p = some x := by
  have hl : ∀ e ∈ s.log t, IsPossible (T.lay t) e.code := h.inv.log t
  have hn : NowAny (IsPossible (T.lay t)) ⟨[], []⟩ (s.log t) (content s t) := h.now t
  obtain ⟨m0, r, _⟩ := hn
  obtain ⟨x, hx, ho⟩ := handle_value (ok t) r hl he
  refine ⟨x, ho, fun s' st => ?_⟩
  have h' : Reach T.Any s' := Steps.trans h st
  obtain ⟨newer, e⟩ := (st.inv h.inv).2 t
  exact live_for_ever (ok t) r hl (h'.now t) (h'.inv.log t) e hx

/-- **C70, `Intern`**: at every moment, also in the middle of a call, the elements of the set point to live values; lookups
read nothing else. No step panics inside the type table. -/
theorem C70_intern_no_dangling (ok : ∀ t, (T.lay t).Ok) {s : State T.mcfg} (h : Reach T.Any s) (t : T.Ty) :
    (∀ p ∈ (content s t).set, ∃ x, deref (content s t).heap p = some x) ∧ ∀ a, step s a ≠ .bug := by
  have g : WGood (T.lay t) (content s t) := NowAny.wgood (ok t) (h.now t) (h.inv.log t)
  refine ⟨fun p hp => ?_, C28_no_internal_panic h.base⟩
  obtain ⟨x, hx⟩ := g.sub p hp
  exact ⟨x, wderef g hx⟩

theorem Reach.any {s : State T.mcfg} (h : Reach T.Lawful s) : Reach T.Any s := by
  have : Steps T.Lawful (TypeMap.init T.mcfg) s := h
  clear h
  induction this with
  | refl => exact .refl
  | @step s1 s2 a _ ha hs ih =>
    refine .step ih ?_ hs
    cases a with
    | call u t code => exact IsHonest.possible (V := T.V t) ha
    | _ => trivial

/-- **C71, `Intern`**: two finished calls for the same type, the first interned `v` and returned `p`, the second `w` and `p'`; `l2`
are the calls in between. If none of those is a clear, the handles are equal exactly if the values are; if one is a finished
clear, they differ, unless the value has size zero. -/
theorem C71_intern_handles (ok : T.Ok) {s : State T.mcfg} (h : Reach T.Lawful s) (t : T.Ty)
    {l1 l2 l3 : List (Entry (Mem (T.V t)) Ret)} {a b : Entry (Mem (T.V t)) Ret} (e : s.log t = l1 ++ b :: (l2 ++ a :: l3))
    {v w : T.V t} {p p' : Ptr} (ha : Interned (T.lay t) a v p) (hb : Interned (T.lay t) b w p') :
    ((∀ e ∈ l2, e.code ≠ WOp.clear.code (T.lay t)) → (p = p' ↔ (v == w) = true)) ∧
    ((∀ x, (x == v) = true → (T.lay t).zst x = false) → (∃ n r, ⟨WOp.clear.code (T.lay t), n, some r⟩ ∈ l2) → p ≠ p') := by
  have := ok.eq t
  have := ok.hash t
  obtain ⟨m0, r, _⟩ : NowAny (IsHonest (T.lay t)) ⟨[], []⟩ (s.log t) (content s t) := h.now t
  have hl : ∀ e ∈ s.log t, IsHonest (T.lay t) e.code := h.inv.log t
  rw [e] at r hl
  exact two_calls (ok.lay t) r hl ha hb

/-- **C71, `Intern`**: `num_objects_interned` returns the number of different values interned since the last clear. -/
theorem C71_intern_count (ok : T.Ok) {s : State T.mcfg} (h : Reach T.Lawful s) (t : T.Ty)
    {newer l2 l3 : List (Entry (Mem (T.V t)) Ret)} {n : Nat} {a : Ret}
    (e : s.log t = newer ++ ⟨WOp.len.code (T.lay t), n, some a⟩ :: (l2 ++ l3)) (hs : Since (T.lay t) l2 l3) :
    ∃ vals : List (T.V t), a = .num vals.length ∧ vals.Pairwise (fun x y => (x == y) = false) ∧
      (∀ x ∈ vals, ∃ e ∈ l2, Supplied (T.lay t) e x) ∧
      ∀ e ∈ l2, ∀ v p, Interned (T.lay t) e v p → ∃ x ∈ vals, (x == v) = true := by
  have := ok.eq t
  have := ok.hash t
  obtain ⟨m0, r, _⟩ : NowAny (IsHonest (T.lay t)) ⟨[], []⟩ (s.log t) (content s t) := h.now t
  have hl : ∀ e ∈ s.log t, IsHonest (T.lay t) e.code := h.inv.log t
  rw [e] at r hl
  exact count_since (ok.lay t) r hl hs

/-- **C71, `Intern`**: a handle returned for `v`, before a clear or after, points to a value equal to `v`, for ever. -/
theorem C71_intern_value (ok : T.Ok) {s s' : State T.mcfg} (h : Reach T.Lawful s) (st : Steps T.Lawful s s') (t : T.Ty)
    {a : Entry (Mem (T.V t)) Ret} (hm : a ∈ s.log t) {v : T.V t} {p : Ptr} (ha : Interned (T.lay t) a v p) :
    ∃ x, (x == v) = true ∧ deref (content s t).heap p = some x ∧ deref (content s' t).heap p = some x := by
  have := ok.eq t
  have := ok.hash t
  have h' : Reach T.Lawful s' := Steps.trans h st
  have hl : ∀ e ∈ s.log t, IsHonest (T.lay t) e.code := h.inv.log t
  obtain ⟨newer, e⟩ := (st.inv h.inv).2 t
  obtain ⟨m0, r, _⟩ : NowAny (IsHonest (T.lay t)) ⟨[], []⟩ (s.log t) (content s t) := h.now t
  obtain ⟨x, hx, hv⟩ := interned_value (ok.lay t) r hl hm ha
  have hl1 : ∀ e ∈ s.log t, IsPossible (T.lay t) e.code := fun e he => (hl e he).possible
  exact ⟨x, hv, live_for_ever (ok.lay t) r hl1 (h.any.now t) hl1 (newer := []) rfl hx,
    live_for_ever (ok.lay t) r hl1 (h'.any.now t) (h'.any.inv.log t) e hx⟩

/-- **C71, `Intern`**: `is_interned` for a borrowed form `q` of `v` (same hash, same equality) says yes if a value equal to `v` has been
interned since the last clear, and says yes only if a call since then was given one (the call may have panicked late). -/
theorem C71_intern_query (ok : T.Ok) {s : State T.mcfg} (h : Reach T.Lawful s) (t : T.Ty)
    {newer l2 l3 : List (Entry (Mem (T.V t)) Ret)} {n : Nat} {a : Ret} {q : Query (T.V t)} {v : T.V t}
    (hh : q.hash = hash v) (hq : ∀ x, q.eq x = (x == v))
    (e : s.log t = newer ++ ⟨(WOp.query (lookOf q)).code (T.lay t), n, some a⟩ :: (l2 ++ l3)) (hs : Since (T.lay t) l2 l3) :
    ∃ b, a = .bool b ∧ (b = true → ∃ e ∈ l2, ∃ x, Supplied (T.lay t) e x ∧ (x == v) = true) ∧
      ∀ e ∈ l2, ∀ w p, Interned (T.lay t) e w p → (w == v) = true → b = true := by
  have := ok.eq t
  have := ok.hash t
  obtain ⟨m0, r, _⟩ : NowAny (IsHonest (T.lay t)) ⟨[], []⟩ (s.log t) (content s t) := h.now t
  have hl : ∀ e ∈ s.log t, IsHonest (T.lay t) e.code := h.inv.log t
  rw [e] at r hl
  exact query_since (ok.lay t) hh hq r hl hs

end ContainerAny

/-! Concrete executions, with the types of `Demo`. -/
namespace Demo

/-- `new(v)`, with the `Hash` and `Eq` of the type. -/
abbrev wnew (v : Val) : WOp Val := .intern (lookOf (.ofVal v)) v al (lookOf (.ofVal v))

theorem wnew_honest (v : Val) : (wnew v).Honest := .intern _ _ _ (new_ok v)

/-- `new(v)` of a type whose `Eq` is never true. -/
abbrev nan (v : Val) : WOp Val := .intern (lookOf ⟨0, fun _ => false⟩) v al (lookOf ⟨0, fun _ => false⟩)

theorem nan_possible (v : Val) : (nan v).Possible := (C70_any_user_code _ _ v al al_ok).1

/-- Calls of a script. -/
inductive WCall where
  | new (v : Val)
  | nan (v : Val)
  | has (v : Val)
  | len
  | clear

def WCall.op : WCall → WOp Val
  | .new v => wnew v
  | .nan v => Demo.nan v
  | .has v => .query (lookOf (.ofVal v))
  | .len => .len
  | .clear => .clear

theorem WCall.possible (c : WCall) : c.op.Possible := by
  cases c with
  | new v => exact (wnew_honest v).possible
  | nan v => exact nan_possible v
  | has v => exact (WOp.Honest.query _).possible
  | _ => trivial

theorem WCall.honest (c : WCall) (h : ∀ v, c ≠ .nan v) : c.op.Honest := by
  cases c with
  | new v => exact wnew_honest v
  | nan v => exact absurd rfl (h v)
  | has v => exact .query _
  | len => exact .len
  | clear => exact .clear

namespace WN
open TypeArena

inductive Cmd where
  | spawn
  | call (u : Tid) (t : Bool) (c : WCall)
  | run (u : Tid) (n : Nat)
  | panic (u : Tid)

def Cmd.act : Cmd → Act types.mcfg
  | .spawn => .spawn
  | .call u t c => .call u t (c.op.code (types.lay t))
  | .run u n => .run u n
  | .panic u => .panic u

def exec (s : State types.mcfg) : List Cmd → Option (State types.mcfg)
  | [] => some s
  | c :: l => match step s c.act with
    | .ok s' => exec s' l
    | _ => none

theorem exec_any {s0 s s' : State types.mcfg} {l : List Cmd} (h : exec s l = some s') (r : NewTablesAny.Steps types.Any s0 s) :
    NewTablesAny.Steps types.Any s0 s' := by
  induction l generalizing s with
  | nil => cases h; exact r
  | cons c l ih =>
    simp only [exec] at h
    cases hs : step s c.act with
    | ok s1 =>
      rw [hs] at h
      refine ih h (r.step ?_ hs)
      cases c with
      | call u t c => exact ⟨c.op, c.possible, rfl⟩
      | _ => trivial
    | blocked => rw [hs] at h; cases h
    | bug => rw [hs] at h; cases h

theorem exec_lawful {s0 s s' : State types.mcfg} {l : List Cmd} (h : exec s l = some s') (hl : ∀ u t v, Cmd.call u t (.nan v) ∉ l)
    (r : NewTablesAny.Steps types.Lawful s0 s) : NewTablesAny.Steps types.Lawful s0 s' := by
  induction l generalizing s with
  | nil => cases h; exact r
  | cons c l ih =>
    simp only [exec] at h
    cases hs : step s c.act with
    | ok s1 =>
      rw [hs] at h
      refine ih h (fun u t v hm => hl u t v (List.mem_cons_of_mem _ hm)) (r.step ?_ hs)
      cases c with
      | call u t c => exact ⟨c.op, c.honest (fun v e => hl u t v (by subst e; exact List.mem_cons_self)), rfl⟩
      | _ => trivial
    | blocked => rw [hs] at h; cases h
    | bug => rw [hs] at h; cases h

/-- Two threads: 5 is interned twice, the set is cleared by the other thread, 5 is interned again, the values are counted. -/
def lawful : List Cmd :=
  [.spawn, .spawn, .call 0 true (.new ⟨5, 1⟩), .run 0 0, .run 0 0, .run 0 1, .run 0 0, .run 0 0, .run 0 0, .run 0 0, .run 0 0, .run 0 0,
   .call 1 true (.new ⟨5, 2⟩), .run 1 1, .run 1 0, .run 1 0, .run 1 0, .run 1 0,
   .call 1 true .clear, .run 1 1, .run 1 0, .run 1 0, .run 1 0,
   .call 0 true (.new ⟨5, 3⟩), .run 0 1, .run 0 0, .run 0 0, .run 0 0, .run 0 0, .run 0 0, .run 0 0,
   .call 0 true .len, .run 0 1, .run 0 0, .run 0 0, .run 0 0]

/-- The same value twice, with an `Eq` that is never true; then a clear and a panic. -/
def unlawful : List Cmd :=
  [.spawn, .call 0 true (.nan ⟨5, 1⟩), .run 0 0, .run 0 0, .run 0 1, .run 0 0, .run 0 0, .run 0 0, .run 0 0, .run 0 0, .run 0 0,
   .call 0 true (.nan ⟨5, 1⟩), .run 0 1, .run 0 0, .run 0 0, .run 0 0, .run 0 0, .run 0 0, .run 0 0,
   .call 0 true .clear, .run 0 1, .run 0 0, .run 0 0, .run 0 0,
   .call 0 true (.nan ⟨6, 1⟩), .run 0 1, .run 0 0, .run 0 0, .run 0 0, .run 0 0, .panic 0]

/-- **C70 (negative part).** Canonicality is lost with unlawful user code: equal calls return different handles. -/
theorem C70_newintern_duplicates : ∃ s : State types.mcfg, NewTablesAny.Reach types.Any s ∧ ∃ (code : Code (Mem Val) Ret) (n : Nat),
    ⟨code, n, some (.ptr ⟨1000, 0⟩)⟩ ∈ s.log true ∧ ⟨code, n, some (.ptr ⟨2000, 0⟩)⟩ ∈ s.log true :=
  ⟨_, exec_any (l := unlawful) rfl .refl, (nan ⟨5, 1⟩).code (types.lay true), 4, List.mem_of_getElem? (i := 3) rfl,
    List.mem_of_getElem? (i := 2) rfl⟩

/-- The hypotheses of C70 are met, after the clear and the panic the handles still point to their values. -/
example : ∃ s : State types.mcfg, NewTablesAny.Reach types.Any s ∧ (NewTablesAny.content s true).set = [] ∧
    deref (NewTablesAny.content s true).heap ⟨1000, 0⟩ = some (⟨5, 1⟩ : Val) ∧
    deref (NewTablesAny.content s true).heap ⟨2000, 0⟩ = some (⟨5, 1⟩ : Val) :=
  ⟨_, exec_any (l := unlawful) rfl .refl, rfl, rfl, rfl⟩

/-- The hypotheses of C71 are met: without a clear in between the handles are equal, with one they differ, and one value is counted. -/
example : ∃ (s : State types.mcfg) (a b c : Entry (Mem Val) Ret) (n : Nat) (cl : Entry (Mem Val) Ret), NewTablesAny.Reach types.Lawful s ∧
    s.log true = [] ++ ⟨WOp.len.code (types.lay true), n, some (.num 1)⟩ :: ([c] ++ [cl, b, a]) ∧
    Interned (types.lay true) a (⟨5, 1⟩ : Val) ⟨1000, 0⟩ ∧ Interned (types.lay true) b (⟨5, 2⟩ : Val) ⟨1000, 0⟩ ∧
    Interned (types.lay true) c (⟨5, 3⟩ : Val) ⟨2000, 0⟩ ∧ cl = ⟨WOp.clear.code (types.lay true), 1, some (.bool true)⟩ := by
  refine ⟨_, _, _, _, 1, _, exec_lawful (l := lawful) rfl ?_ .refl, rfl, ⟨_, _, _, new_ok _, rfl⟩, ⟨_, _, _, new_ok _, rfl⟩,
    ⟨_, _, _, new_ok _, rfl⟩, rfl⟩
  intro u t v h
  simp [lawful] at h

end WN

namespace WI
open TypeMap

inductive Cmd where
  | spawn
  | call (u : Tid) (t : Bool) (c : WCall)
  | run (u : Tid)
  | panic (u : Tid)

def Cmd.act : Cmd → Act types.mcfg
  | .spawn => .spawn
  | .call u t c => .call u t (c.op.code (types.lay t))
  | .run u => .run u
  | .panic u => .panic u

def exec (s : State types.mcfg) : List Cmd → Option (State types.mcfg)
  | [] => some s
  | c :: l => match step s c.act with
    | .ok s' => exec s' l
    | _ => none

theorem exec_any {s0 s s' : State types.mcfg} {l : List Cmd} (h : exec s l = some s') (r : ContainerAny.Steps types.Any s0 s) :
    ContainerAny.Steps types.Any s0 s' := by
  induction l generalizing s with
  | nil => cases h; exact r
  | cons c l ih =>
    simp only [exec] at h
    cases hs : step s c.act with
    | ok s1 =>
      rw [hs] at h
      refine ih h (r.step ?_ hs)
      cases c with
      | call u t c => exact ⟨c.op, c.possible, rfl⟩
      | _ => trivial
    | blocked => rw [hs] at h; cases h
    | bug => rw [hs] at h; cases h

theorem exec_lawful {s0 s s' : State types.mcfg} {l : List Cmd} (h : exec s l = some s') (hl : ∀ u t v, Cmd.call u t (.nan v) ∉ l)
    (r : ContainerAny.Steps types.Lawful s0 s) : ContainerAny.Steps types.Lawful s0 s' := by
  induction l generalizing s with
  | nil => cases h; exact r
  | cons c l ih =>
    simp only [exec] at h
    cases hs : step s c.act with
    | ok s1 =>
      rw [hs] at h
      refine ih h (fun u t v hm => hl u t v (List.mem_cons_of_mem _ hm)) (r.step ?_ hs)
      cases c with
      | call u t c => exact ⟨c.op, c.honest (fun v e => hl u t v (by subst e; exact List.mem_cons_self)), rfl⟩
      | _ => trivial
    | blocked => rw [hs] at h; cases h
    | bug => rw [hs] at h; cases h

/-- 5 is interned twice, the set is cleared by the other thread, 5 is interned again, after a call that panics while inserting 6, and
the values are counted. -/
def lawful : List Cmd :=
  [.spawn, .spawn, .call 0 true (.new ⟨5, 1⟩), .run 0, .run 0, .run 0, .run 0, .run 0, .run 0,
   .call 1 true (.new ⟨5, 2⟩), .run 1, .run 1, .run 1, .run 1,
   .call 1 true .clear, .run 1, .run 1, .run 1,
   .call 0 true (.new ⟨6, 3⟩), .run 0, .run 0, .run 0, .run 0, .panic 0,
   .call 0 true (.new ⟨5, 3⟩), .run 0, .run 0, .run 0, .run 0, .run 0, .run 0,
   .call 0 true .len, .run 0, .run 0, .run 0]

/-- The same value twice, with an `Eq` that is never true, and a clear. -/
def unlawful : List Cmd :=
  [.spawn, .call 0 true (.nan ⟨5, 1⟩), .run 0, .run 0, .run 0, .run 0, .run 0, .run 0,
   .call 0 true (.nan ⟨5, 1⟩), .run 0, .run 0, .run 0, .run 0, .run 0, .run 0,
   .call 0 true .clear, .run 0, .run 0, .run 0]

/-- The hypotheses of C70 are met. -/
example : ∃ s : State types.mcfg, ContainerAny.Reach types.Any s ∧ (content s true).set = [] ∧
    (∃ code n, ⟨code, n, some (.ptr ⟨1000, 0⟩)⟩ ∈ s.log true ∧ ⟨code, n, some (.ptr ⟨2000, 0⟩)⟩ ∈ s.log true) ∧
    deref (content s true).heap ⟨1000, 0⟩ = some (⟨5, 1⟩ : Val) ∧ deref (content s true).heap ⟨2000, 0⟩ = some (⟨5, 1⟩ : Val) :=
  ⟨_, exec_any (l := unlawful) rfl .refl, rfl, ⟨(nan ⟨5, 1⟩).code (types.lay true), 4, List.mem_of_getElem? (i := 2) rfl,
    List.mem_of_getElem? (i := 1) rfl⟩, rfl, rfl⟩

/-- The hypotheses of C71 are met. -/
example : ∃ (s : State types.mcfg) (a b c d : Entry (Mem Val) Ret) (n : Nat) (cl : Entry (Mem Val) Ret),
    ContainerAny.Reach types.Lawful s ∧
    s.log true = [] ++ ⟨WOp.len.code (types.lay true), n, some (.num 1)⟩ :: ([c, d] ++ [cl, b, a]) ∧
    Interned (types.lay true) a (⟨5, 1⟩ : Val) ⟨1000, 0⟩ ∧ Interned (types.lay true) b (⟨5, 2⟩ : Val) ⟨1000, 0⟩ ∧
    Interned (types.lay true) c (⟨5, 3⟩ : Val) ⟨4000, 0⟩ ∧ d.res = none ∧
    cl = ⟨WOp.clear.code (types.lay true), 1, some (.bool true)⟩ := by
  refine ⟨_, _, _, _, _, 1, _, exec_lawful (l := lawful) rfl ?_ .refl, rfl, ⟨_, _, _, new_ok _, rfl⟩, ⟨_, _, _, new_ok _, rfl⟩,
    ⟨_, _, _, new_ok _, rfl⟩, rfl, rfl⟩
  intro u t v h
  simp [lawful] at h

/-- 5 is interned, the set is cleared, 6 is interned: then 6 is there and 5 is not. -/
def queries : List Cmd :=
  [.spawn, .call 0 true (.new ⟨5, 1⟩), .run 0, .run 0, .run 0, .run 0, .run 0, .run 0,
   .call 0 true .clear, .run 0, .run 0, .run 0,
   .call 0 true (.new ⟨6, 2⟩), .run 0, .run 0, .run 0, .run 0, .run 0, .run 0,
   .call 0 true (.has ⟨6, 3⟩), .run 0, .run 0, .run 0, .call 0 true (.has ⟨5, 1⟩), .run 0, .run 0, .run 0]

/-- The hypotheses of the last part of C71 are met, with both answers. -/
example : ∃ (s : State types.mcfg) (a b : Entry (Mem Val) Ret) (n : Nat) (cl : Entry (Mem Val) Ret),
    ContainerAny.Reach types.Lawful s ∧
    s.log true = ⟨(WOp.query (lookOf (.ofVal (⟨5, 1⟩ : Val)))).code (types.lay true), n, some (.bool false)⟩ ::
      ⟨(WOp.query (lookOf (.ofVal (⟨6, 3⟩ : Val)))).code (types.lay true), n, some (.bool true)⟩ :: ([b] ++ [cl, a]) ∧
    Interned (types.lay true) a (⟨5, 1⟩ : Val) ⟨1000, 0⟩ ∧ Interned (types.lay true) b (⟨6, 2⟩ : Val) ⟨2000, 0⟩ ∧
    cl = ⟨WOp.clear.code (types.lay true), 1, some (.bool true)⟩ := by
  refine ⟨_, _, _, 1, _, exec_lawful (l := queries) rfl ?_ .refl, rfl, ⟨_, _, _, new_ok _, rfl⟩, ⟨_, _, _, new_ok _, rfl⟩, rfl⟩
  intro u t v h
  simp [queries] at h

end WI
end Demo
end Closures
