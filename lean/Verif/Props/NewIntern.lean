import Verif.Props.EndToEnd
import Verif.Props.Traits
import Verif.Props.Serde
import Verif.Props.Fits64
/-
Properties C40, C41 and C44 for `NewIntern` (typearena.rs:353-362, 424-471, 473-505), whose handles are those of the model of
typearena.rs with its lock-free type table.

Reading guide: see `Verif.Props.EndToEnd`.
-/
namespace Closures
open TypeMap (Cfg Code Entry Tid)
open Pool (Ptr Query)
namespace NewTables
open TypeArena
variable {T : Types}

/-- Two handles and the values they point to. -/
theorem handles (ok : T.Ok) {s : State T.cfg} (h : Reach s) (t : T.Ty) {v w : T.V t} {p q : Ptr}
    (hv : Returned (T.lay t) (s.log t) v p) (hw : Returned (T.lay t) (s.log t) w q) :
    ∃ x y, deref (content s t) p = some x ∧ deref (content s t) q = some y ∧ (x == v) = true ∧ (y == w) = true ∧
      (p = q ↔ (x == y) = true) := by
  have := ok.eq t
  obtain ⟨h1, ⟨x, hx, hxv⟩, y, hy, hyw⟩ := C51_pointer_eq_iff_value_eq ok h t hv hw
  refine ⟨x, y, hx, hy, hxv, hyw, h1.trans ⟨fun e => ?_, fun e => ?_⟩⟩
  · exact BEq.trans hxv (BEq.trans e (BEq.symm hyw))
  · exact BEq.trans (BEq.symm hxv) (BEq.trans e hyw)

/-- **C40 for `NewIntern`**: for all handles ever returned for one type, `==`, `hash` and the orderings are lawful and agree with
each other and with the values. -/
theorem C40_newintern (ok : T.Ok) {s : State T.cfg} (h : Reach s) (t : T.Ty) (ph : Ptr → UInt64) (M : Traits.Methods (T.V t)) :
    Traits.Consistent (fun p => ∃ v, Returned (T.lay t) (s.log t) v p) (deref (content s t)) ph M := by
  have := ok.eq t
  refine Traits.consistent ph M fun p q ⟨_, hp⟩ ⟨_, hq⟩ => ?_
  obtain ⟨x, y, hx, hy, _, _, e⟩ := handles ok h t hp hq
  exact ⟨x, y, hx, hy, e⟩

/-- **C41 for `NewIntern<T>`**, `T` sized (typearena.rs:353-362): in every reachable state the codes of two handles are equal exactly
if the values are, and decoding the code of a handle gives the handle back. -/
theorem C41_newintern (ok : T.Ok) {s : State T.cfg} (h : Reach s) (t : T.Ty) {v w : T.V t} {p q : Ptr}
    (hp : Returned (T.lay t) (s.log t) v p) (hq : Returned (T.lay t) (s.log t) w q) (hi : p.info = q.info)
    (heap sz : UInt64) (hs : sz ≠ 0) (ap : p.addr % sz.toNat = 0) (aq : q.addr % sz.toNat = 0) (bp : p.addr < 2 ^ 64)
    (bq : q.addr < 2 ^ 64) :
    (Fits64.toU64 heap sz (.ofNat p.addr) = Fits64.toU64 heap sz (.ofNat q.addr) ↔ (v == w) = true) ∧
      (Fits64.fromU64 heap sz (Fits64.toU64 heap sz (.ofNat p.addr))).map UInt64.toNat = some p.addr := by
  obtain ⟨h51, _⟩ := C51_pointer_eq_iff_value_eq ok h t hp hq
  have tp : (UInt64.ofNat p.addr).toNat = p.addr := by rw [UInt64.toNat_ofNat']; exact Nat.mod_eq_of_lt bp
  have tq : (UInt64.ofNat q.addr).toNat = q.addr := by rw [UInt64.toNat_ofNat']; exact Nat.mod_eq_of_lt bq
  refine ⟨?_, by rw [Fits64.C41_round_trip heap sz _ (by rw [tp]; exact ap) hs, Option.map_some, tp]⟩
  rw [← h51]
  constructor
  · intro e
    have := Fits64.C41_injective heap sz _ _ (by rw [tp]; exact ap) (by rw [tq]; exact aq) hs e
    have : p.addr = q.addr := by rw [← tp, ← tq, this]
    cases p; cases q
    simp only at this hi
    subst this hi
    rfl
  · rintro rfl; rfl

/-- `Deserialize for NewIntern<T>` (typearena.rs:499-505): `T::deserialize(..).map(|x| Self::new(x))`, the call it makes if there is
no error; `al` is what the allocator answers should the value be new. -/
def de {V : Type} [BEq V] [Hashable V] (I : Serde.Impl V) (al : List Nat → Nat) (x : Serde.Data) : Option (Op V) :=
  (I.de x).map fun v => .intern (.ofVal v) v al

/-- **C44, `NewIntern<T>`.** If `T` round-trips: what a handle `p` serialises to deserialises without error to an interning of an
equal value; the handle that any such call returns, at any later time and on any thread, is `p`. -/
theorem C44_newintern (ok : T.Ok) {s : State T.cfg} (h : Reach s) (t : T.Ty) (I : Serde.Impl (T.V t)) (hI : I.RoundTrips)
    {v : T.V t} {p : Ptr} (hp : Returned (T.lay t) (s.log t) v p) (al : List Nat → Nat) (hal : ∀ l, al l ∉ l) :
    ∃ data op, Serde.serialize I.ser (deref (content s t)) p = some data ∧ de I al data = some op ∧ op.Lawful ∧
      ∀ s' n q, Steps s s' → ⟨op.code (T.lay t), n, some (.ptr q)⟩ ∈ s'.log t → q = p := by
  have := ok.eq t
  obtain ⟨x, _, hx, _, hxv, _⟩ := handles ok h t hp hp
  obtain ⟨y, hy, e⟩ := hI x
  have hl : (Op.intern (.ofVal y) y al).Lawful := ⟨rfl, fun _ => rfl, hal⟩
  refine ⟨I.ser x, .intern (.ofVal y) y al, by simp [Serde.serialize, hx], by simp [de, hy], hl, fun s' n q st hd => ?_⟩
  obtain ⟨hp', _⟩ := C51_never_changes ok h st t hp
  exact (C51_pointer_eq_iff_value_eq ok (st.reachable h) t ⟨_, _, _, hl, hd⟩ hp').1.mpr (BEq.trans e hxv)

end NewTables

namespace Demo.N
open TypeArena

/-- A serde implementation of the demo values that round-trips: the tag is lost unless equality looks at it. -/
def serde : Serde.Impl Val where
  ser v := .other v.n [.other (if v.n = 0 then v.tag else 0) []]
  de
    | .other n [.other t []] => some ⟨n, t⟩
    | _ => none

theorem serde_ok : serde.RoundTrips := fun x => ⟨⟨x.n, if x.n = 0 then x.tag else 0⟩, rfl, by
  rw [beq_iff]
  exact ⟨rfl, fun h => by simp only at h ⊢; rw [if_pos h]⟩⟩

/-- The value 5 is interned with tag 1; deserialising its handle interns 5 with tag 0, on another thread. -/
def serdeScript : List Cmd :=
  [.spawn, .spawn, .new 0 true ⟨5, 1⟩, .run 0 0, .run 0 0, .run 0 1, .run 0 0, .run 0 0, .run 0 0, .run 0 0, .run 0 0]

/-- The hypotheses of C40, C41 and C44 are met, and the deserialising call returns the handle. -/
example : ∃ s s' : State types.cfg, NewTables.Reach s ∧ Returned (types.lay true) (s.log true) (⟨5, 1⟩ : Val) ⟨1000, 0⟩ ∧
    Serde.serialize serde.ser (deref (NewTables.content (T := types) s true)) ⟨1000, 0⟩ = some (.other 5 [.other 0 []]) ∧
    NewTables.de serde al (.other 5 [.other 0 []]) = some (Demo.new ⟨5, 0⟩) ∧ NewTables.Steps s s' ∧
    ⟨(Demo.new ⟨5, 0⟩).code (types.lay true), 2, some (.ptr ⟨1000, 0⟩)⟩ ∈ s'.log true :=
  ⟨_, _, exec_steps (l := serdeScript) rfl .refl, ⟨_, _, _, new_ok _, List.mem_of_getElem? (i := 0) rfl⟩, rfl, rfl,
    exec_steps (l := [.new 1 true ⟨5, 0⟩, .run 1 1, .run 1 0, .run 1 0, .run 1 0, .run 1 0]) rfl .refl,
    List.mem_of_getElem? (i := 0) rfl⟩

end Demo.N
end Closures
