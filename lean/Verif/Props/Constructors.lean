import Verif.Constructors
import Verif.Props.EndToEnd
import Verif.Props.Arena
/-!
C65: whichever functions are used, the same content gives the same handle, and the handle of a content is never given for another one.
-/
namespace Constructors
open Pool (Ptr Query)

variable {V : Type} [BEq V] [Hashable V] [EquivBEq V] [LawfulHashable V]

/-- The lookup of `x` finds exactly the values equal to `v`, and what is stored otherwise is `v`. -/
def For (x : Args V) (v : V) : Prop := x.2 = v ∧ x.1.hash = hash v ∧ ∀ y, x.1.eq y = (y == v)

omit [EquivBEq V] [LawfulHashable V] in
theorem for_val (v : V) : For (Query.ofVal v, v) v := ⟨rfl, rfl, fun _ => rfl⟩

omit [EquivBEq V] [LawfulHashable V] in
theorem for_key {Q : Type} [BEq Q] [Hashable Q] [EquivBEq Q] [LawfulHashable Q] {borrow : V → Q} (hb : Pool.LawfulBorrow borrow)
    {mk : Q → V} {q : Q} (h : (borrow (mk q) == q) = true) : For (Query.ofBorrow borrow q, mk q) (mk q) := by
  have := Pool.lawful_fromRef (K := Unit) hb () q (mk q) h
  exact ⟨rfl, this.1, this.2⟩

omit [EquivBEq V] [LawfulHashable V] in
theorem intern_for {dflt : V} {a : Src V} (ha : a.Lawful) {x : Args V} (h : intern dflt a = some x) : For x (a.content dflt) := by
  cases a with
  | key Q _ _ borrow mk q => cases h; obtain ⟨_, _, hb, e⟩ := ha; exact for_key hb e
  | owned | boxKey => cases h
  | _ => cases h; exact for_val _

omit [LawfulHashable V] in
theorem arena_for {dflt : V} {a : Src V} (ha : a.Lawful) {x : Args V} (h : arena a = some x) : For x (a.content dflt) := by
  cases a with
  | key Q _ _ borrow mk q => cases h; obtain ⟨_, _, hb, e⟩ := ha; exact for_key hb e
  | boxKey Q _ _ borrow mk q => cases h; obtain ⟨_, _, hb, e⟩ := ha; exact for_key hb e
  | ref v => cases h; exact ⟨rfl, rfl, fun _ => rfl⟩
  | «from» | default | de | array => cases h
  | _ => cases h; exact for_val _

omit [EquivBEq V] [LawfulHashable V] in
theorem newIntern_for {dflt : V} {a : Src V} (ha : a.Lawful) {x : Args V} (h : newIntern dflt a = some x) : For x (a.content dflt) := by
  cases a with
  | key Q _ _ borrow mk q => cases h; obtain ⟨_, _, hb, e⟩ := ha; exact for_key hb e
  | owned | boxKey => cases h
  | _ => cases h; exact for_val _

/-! ### Intern -/

/-- Some call of the constructor with arguments `x` has returned `p`; `al` is what the allocator would answer. -/
def Gave {L : Closures.Lay V} (l : List (TypeMap.Entry (Closures.Table V) Closures.Ret)) (x : Args V) (p : Ptr) : Prop :=
  ∃ al n, (∀ u, al u ∉ u) ∧ ⟨(Closures.Op.intern x.1 x.2 al).code L, n, some (.ptr p)⟩ ∈ l

omit [EquivBEq V] [LawfulHashable V] in
theorem Gave.returned {L : Closures.Lay V} {l : List (TypeMap.Entry (Closures.Table V) Closures.Ret)} {x : Args V} {p : Ptr}
    (g : Gave (L := L) l x p) {v : V} (h : For x v) : Closures.Returned L l v p := by
  obtain ⟨al, n, hal, hm⟩ := g
  obtain ⟨rfl, h1, h2⟩ := h
  exact ⟨x.1, al, n, ⟨h1, h2, hal⟩, hm⟩

section
open Closures
variable {T : Types}

/-- **C65, `Intern`.** Handles that two constructors, of any kind, returned are equal exactly if the contents are; the handle points to
a value equal to the content. -/
theorem C65_intern (ok : T.Ok) {s : TypeMap.State T.cfg} (h : Container.Reach s) (t : T.Ty) (dflt : T.V t) {a b : Src (T.V t)}
    (ha : a.Lawful) (hb : b.Lawful) {x y : Args (T.V t)} (hx : intern dflt a = some x) (hy : intern dflt b = some y) {p q : Ptr}
    (gp : Gave (L := T.lay t) (s.log t) x p) (gq : Gave (L := T.lay t) (s.log t) y q) :
    (p = q ↔ (a.content dflt == b.content dflt) = true) ∧
      ∃ v, deref (TypeMap.content s t) p = some v ∧ (v == a.content dflt) = true := by
  obtain ⟨h1, h2, _⟩ := Container.C24_end_to_end ok h t (gp.returned (intern_for ha hx)) (gq.returned (intern_for hb hy))
  exact ⟨h1, h2⟩

/-- **C65, `NewIntern`.** -/
theorem C65_newintern (ok : T.Ok) {s : TypeArena.State T.cfg} (h : NewTables.Reach s) (t : T.Ty) (dflt : T.V t) {a b : Src (T.V t)}
    (ha : a.Lawful) (hb : b.Lawful) {x y : Args (T.V t)} (hx : newIntern dflt a = some x) (hy : newIntern dflt b = some y) {p q : Ptr}
    (gp : Gave (L := T.lay t) (s.log t) x p) (gq : Gave (L := T.lay t) (s.log t) y q) :
    (p = q ↔ (a.content dflt == b.content dflt) = true) ∧
      ∃ v, deref (NewTables.content s t) p = some v ∧ (v == a.content dflt) = true := by
  obtain ⟨h1, h2, _⟩ := NewTables.C51_pointer_eq_iff_value_eq ok h t (gp.returned (newIntern_for ha hx)) (gq.returned (newIntern_for hb hy))
  exact ⟨h1, h2⟩

end

/-! ### Arena -/

section
open Pool
variable {K : Type} [DecidableEq K]

/-- **C65, `Arena`.** As for `Intern`, for two calls on one arena that has not been dropped. -/
theorem C65_arena {cfg : Cfg K V} (lay : cfg.Layout) {s : State K V} (r : Reach cfg s) {k : K} (hk : k ∉ s.gone) (dflt : V) {a b : Src V}
    (ha : a.Lawful) (hb : b.Lawful) {x y : Args V} (hx : arena a = some x) (hy : arena b = some y) {t u : Tid} {p q : Ptr}
    (gp : ⟨t, .intern k x.1 x.2, .ptr p⟩ ∈ s.done) (gq : ⟨u, .intern k y.1 y.2, .ptr q⟩ ∈ s.done) :
    (p = q ↔ (a.content dflt == b.content dflt) = true) ∧ ∃ v, deref s k p = some v ∧ (v == a.content dflt) = true := by
  have fa := arena_for (dflt := dflt) ha hx
  have fb := arena_for (dflt := dflt) hb hy
  obtain ⟨v, _, h1, _, _, h2⟩ := C35_pointer_eq_iff_value_eq lay r hk ⟨t, _, gp⟩ ⟨u, _, gq⟩
  rw [fa.1, fb.1] at h2
  refine ⟨h2, v, h1, ?_⟩
  obtain ⟨w, e1, _, e2⟩ := C36_valid_until_dropped lay r .refl hk ⟨t, _, gp⟩
  rw [h1] at e1
  cases e1
  rw [← fa.1]
  exact e2

omit [EquivBEq V] [LawfulHashable V] [DecidableEq K] in
/-- All constructors make calls that the theorems about `Intern` and `Arena` allow. -/
theorem For.lawful {x : Args V} {v : V} (h : For x v) (k : K) : (Op.intern k x.1 x.2 : Op K V).Lawful := by
  obtain ⟨rfl, h1, h2⟩ := h
  exact ⟨h1, h2⟩

end

/-! ### The hypotheses are met -/
namespace Demo
open Closures Closures.Demo

/-- Keys: numbers; two values are equal if they have the same number (tags are spellings of the same path), except the number 0. -/
structure Key where
  n : Nat
  tag : Nat

instance : BEq Key := ⟨fun a b => a.n == b.n && (a.n != 0 || a.tag == b.tag)⟩
instance : Hashable Key := ⟨fun a => UInt64.ofNat a.n⟩

/-- `from_ref` with a key that is built with tag 9. -/
def byKey (n : Nat) : Src Val := .key Key inferInstance inferInstance (fun v => ⟨v.n, v.tag⟩) (fun q => ⟨q.n, if q.n = 0 then q.tag else 9⟩) ⟨n, 0⟩

theorem key_beq (a b : Key) : (a == b) = true ↔ ((⟨a.n, a.tag⟩ : Val) == ⟨b.n, b.tag⟩) = true := Iff.rfl

theorem byKey_lawful (n : Nat) : (byKey n).Lawful := by
  have e : EquivBEq (types.V true) := types_ok.eq true
  have l : LawfulHashable (types.V true) := types_ok.hash true
  refine ⟨{ rfl := fun {a} => (key_beq a a).mpr e.rfl, symm := fun {a b} h => (key_beq b a).mpr (e.symm h),
            trans := fun {a b c} h h' => (key_beq a c).mpr (e.trans (b := ⟨b.n, b.tag⟩) h h') }, ⟨fun a b h => ?_⟩, ⟨fun _ _ => rfl, fun _ => rfl⟩, ?_⟩
  · exact l.hash_eq ⟨a.n, a.tag⟩ ⟨b.n, b.tag⟩ h
  · refine (key_beq _ _).mpr ((beq_iff _ _).mpr ⟨rfl, fun h => ?_⟩)
    simp only at h ⊢
    rw [if_pos h]

/-- A constructor call in a demo program. -/
def callOf (x : Args Val) : Op Val := .intern x.1 x.2 al

/-- Thread 0 interns `⟨5, 1⟩` from a box, thread 1 the key 5 with `from_ref`: one handle. -/
example : ∃ (s : TypeMap.State types.cfg) (x y : Args Val), Container.Reach s ∧ intern ⟨0, 0⟩ (.boxed ⟨5, 1⟩) = some x ∧
    intern ⟨0, 0⟩ (byKey 5) = some y ∧ Gave (L := types.lay true) (s.log true) x ⟨1000, 0⟩ ∧
    Gave (L := types.lay true) (s.log true) y ⟨1000, 0⟩ := by
  obtain ⟨x, hx⟩ : ∃ x, intern (V := Val) ⟨0, 0⟩ (.boxed ⟨5, 1⟩) = some x := ⟨_, rfl⟩
  obtain ⟨y, hy⟩ : ∃ y, intern (V := Val) ⟨0, 0⟩ (byKey 5) = some y := ⟨_, rfl⟩
  cases hx; cases hy
  have go : ∀ (l : List (TypeMap.Act types.cfg)) (s s' : TypeMap.State types.cfg), Container.Reach s →
      (∀ a ∈ l, Container.Allowed a) → (l.foldl (fun r a => r.bind fun s => match TypeMap.step s a with
        | .ok s' => some s' | _ => none) (some s)) = some s' → Container.Reach s' := by
    intro l
    induction l with
    | nil => intro s s' r _ h; cases h; exact r
    | cons a l ih =>
      intro s s' r ha h
      simp only [List.foldl_cons, Option.bind_some] at h
      cases hs : TypeMap.step s a with
      | ok s1 => rw [hs] at h; exact ih s1 s' (.step r (ha a (List.mem_cons_self ..)) hs) (fun b hb => ha b (List.mem_cons_of_mem _ hb)) h
      | _ =>
        rw [hs] at h
        have : ∀ (l : List (TypeMap.Act types.cfg)), (l.foldl (fun r a => r.bind fun s => match TypeMap.step s a with
          | .ok s' => some s' | _ => none) (none : Option (TypeMap.State types.cfg))) = none := by
          intro l; induction l with
          | nil => rfl
          | cons b l ih => simpa using ih
        rw [this] at h; cases h
  refine ⟨_, _, _, go [.spawn, .spawn, .call 0 true ((callOf (internBox ⟨5, 1⟩)).code (types.lay true)), .run 0, .run 0, .run 0, .run 0, .run 0,
    .call 1 true ((callOf ((intern ⟨0, 0⟩ (byKey 5)).get rfl)).code (types.lay true)), .run 1, .run 1, .run 1, .run 1] _ _ .refl ?_ rfl, rfl, rfl,
    ⟨al, _, al_ok, List.mem_of_getElem? (i := 1) rfl⟩, ⟨al, _, al_ok, List.mem_of_getElem? (i := 0) rfl⟩⟩
  intro a ha
  have law : ∀ x (v : Val), For x v → (callOf x).Lawful := fun x v h => by
    obtain ⟨rfl, h1, h2⟩ := h
    exact ⟨h1, h2, al_ok⟩
  simp only [List.mem_cons, List.mem_nil_iff, or_false] at ha
  rcases ha with rfl | rfl | rfl | rfl | rfl | rfl | rfl | rfl | rfl | rfl | rfl | rfl | rfl <;> first
    | trivial
    | exact ⟨_, law _ _ (for_val _), rfl⟩
    | exact ⟨_, law _ _ (intern_for (dflt := ⟨0, 0⟩) (byKey_lawful 5) rfl), rfl⟩

/-- A `String` and then an equal `&str` in one arena: one handle. -/
example : ∃ (s : Pool.State Nat Pool.Demo.Val) (x y : Args Pool.Demo.Val), Pool.Reach Pool.Demo.cfg s ∧ (2 ∉ s.gone) ∧
    arena (.owned ⟨5, 1⟩) = some x ∧ arena (.ref ⟨5, 2⟩) = some y ∧ ⟨0, .intern 2 x.1 x.2, .ptr ⟨1000, 0⟩⟩ ∈ s.done ∧
    ⟨1, .intern 2 y.1 y.2, .ptr ⟨1000, 0⟩⟩ ∈ s.done := by
  refine ⟨_, _, _, Pool.exec_reach (cfg := Pool.Demo.cfg) (l := [.spawn, .spawn,
      .call 0 (.intern 2 (arenaInternFromOwned ⟨5, 1⟩).1 (arenaInternFromOwned ⟨5, 1⟩).2), .run 0 0, .run 0 0, .run 0 1000, .run 0 0, .run 0 0,
      .call 1 (.intern 2 (arenaInternRef id id ⟨5, 2⟩).1 (arenaInternRef id id ⟨5, 2⟩).2), .run 1 0, .run 1 0, .run 1 0, .run 1 0]) ?_ rfl,
    ?_, rfl, rfl, List.mem_of_getElem? (i := 1) rfl, List.mem_of_getElem? (i := 0) rfl⟩
  · intro a ha
    simp only [List.mem_cons, List.mem_nil_iff, or_false] at ha
    rcases ha with rfl | rfl | rfl | rfl | rfl | rfl | rfl | rfl | rfl | rfl | rfl | rfl | rfl <;> first
      | exact True.intro
      | exact ⟨rfl, fun _ => rfl⟩
  · intro h; cases h

/-- An array and then a key, with `NewIntern`. -/
example : ∃ (s : TypeArena.State types.cfg) (x y : Args Val), NewTables.Reach s ∧ newIntern ⟨0, 0⟩ (.array ⟨5, 1⟩) = some x ∧
    newIntern ⟨0, 0⟩ (byKey 5) = some y ∧ Gave (L := types.lay true) (s.log true) x ⟨1000, 0⟩ ∧
    Gave (L := types.lay true) (s.log true) y ⟨1000, 0⟩ := by
  have law : ∀ x (v : Val), For x v → (callOf x).Lawful := fun x v h => by
    obtain ⟨rfl, h1, h2⟩ := h
    exact ⟨h1, h2, al_ok⟩
  have r : NewTables.Steps (T := types) (TypeArena.init types.cfg) (TypeArena.init types.cfg) := .refl
  have st := fun {s s' : TypeArena.State types.cfg} (r : NewTables.Steps (T := types) (TypeArena.init types.cfg) s) (u n : Nat)
      (h : TypeArena.step s (.run u n) = .ok s') => NewTables.Steps.step r (a := .run u n) trivial h
  have r := r.step (a := .spawn) trivial rfl
  have r := r.step (a := .spawn) trivial rfl
  have r := r.step (a := .call 0 true ((callOf (newInternNew ⟨5, 1⟩)).code (types.lay true))) ⟨_, law _ _ (for_val _), rfl⟩ rfl
  have r := st (st (st (st (st (st (st (st r 0 0 rfl) 0 0 rfl) 0 1 rfl) 0 0 rfl) 0 0 rfl) 0 0 rfl) 0 0 rfl) 0 0 rfl
  have r := r.step (a := .call 1 true ((callOf ((newIntern ⟨0, 0⟩ (byKey 5)).get rfl)).code (types.lay true)))
    ⟨_, law _ _ (newIntern_for (dflt := ⟨0, 0⟩) (byKey_lawful 5) rfl), rfl⟩ rfl
  have r := st (st (st (st (st r 1 1 rfl) 1 0 rfl) 1 0 rfl) 1 0 rfl) 1 0 rfl
  exact ⟨_, _, _, r, rfl, rfl, ⟨al, _, al_ok, List.mem_of_getElem? (i := 1) rfl⟩, ⟨al, _, al_ok, List.mem_of_getElem? (i := 0) rfl⟩⟩

end Demo
end Constructors
