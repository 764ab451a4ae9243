import Verif.Serde
import Verif.Props.DstConvert
import Verif.Props.Intern
/-
Properties C44 and C45.
-/
namespace Serde
open Dst

section arc
variable {V : Type} [BEq V] [Hashable V] [EquivBEq V] [LawfulHashable V]

theorem returns_same {cfg : Arc.Cfg V} (hv : cfg.Valid) {s u0 u3 : Arc.State V} (r : Arc.Reach cfg s) {p q : Arc.Addr} {t : Arc.Tid}
    {x y : V} {b : Bool} (hx : Arc.deref s p = some x) (hy : (y == x) = true) (g : Gives cfg (.new t y b) t u0 q u3)
    (alive : Arc.ExecIn cfg (fun s => p ∈ Arc.allHandles cfg s) s u3) : Arc.handleEq q p = true := by
  obtain ⟨r', hq, z, hz, hzy⟩ := g.value hv
  have hst := (Arc.C07_value_stable hv r alive).2
  have hp' : p ∈ Arc.allHandles cfg u3 := by cases alive <;> assumption
  obtain ⟨z', x', e1, e2, h⟩ := Arc.C01_canonical hv r' hq hp'
  rw [hst, hx] at e2
  rw [hz] at e1
  cases e1; cases e2
  exact h.mpr (BEq.trans hzy hy)

/-- **C44, `ArcIntern<T>`.** If `T` round-trips: what a live handle `p` serialises to deserialises without error to a call of `new`, and
if `p` stays alive until that call returns `q`, then `q == p`. -/
theorem C44_arc {cfg : Arc.Cfg V} (hv : cfg.Valid) (I : Impl V) (hI : I.RoundTrips) {s u0 u3 : Arc.State V} (r : Arc.Reach cfg s)
    {p : Arc.Addr} (hp : p ∈ Arc.allHandles cfg s) (t : Arc.Tid) :
    ∃ data act, serialize I.ser (Arc.deref s) p = some data ∧ deArc I t data = some act ∧
      ∀ q, Gives cfg act t u0 q u3 → Arc.ExecIn cfg (fun s => p ∈ Arc.allHandles cfg s) s u3 → Arc.handleEq q p = true := by
  obtain ⟨x, hx⟩ := Option.isSome_iff_exists.mp (Arc.C02_handles_valid hv r hp).1
  obtain ⟨y, hy, e⟩ := hI x
  refine ⟨I.ser x, .new t y false, by simp [serialize, hx], by simp [deArc, hy], fun q g alive => ?_⟩
  exact returns_same hv r hx e g alive
end arc

instance : EquivBEq String := inferInstance

/-- **C44, `ArcIntern<str>`**, for every self-describing format, whichever way it hands the string over. -/
theorem C44_arc_str {cfg : Arc.Cfg String} (hv : cfg.Valid) (m : Mode) {s u0 u3 : Arc.State String} (r : Arc.Reach cfg s)
    {p : Arc.Addr} (hp : p ∈ Arc.allHandles cfg s) (t : Arc.Tid) :
    ∃ data act, serialize serStr (Arc.deref s) p = some data ∧ deArcStr m t data = some act ∧
      ∀ q, Gives cfg act t u0 q u3 → Arc.ExecIn cfg (fun s => p ∈ Arc.allHandles cfg s) s u3 → Arc.handleEq q p = true := by
  obtain ⟨x, hx⟩ := Option.isSome_iff_exists.mp (Arc.C02_handles_valid hv r hp).1
  refine ⟨serStr x, .new t x true, by simp [serialize, hx], ?_, fun q g alive => returns_same hv r hx BEq.rfl g alive⟩
  cases m <;> rfl

/-- **C44, `Intern<T>`.** If `T` round-trips: what a handle `p` serialises to deserialises without error to an interning of an equal value;
the handle that any such call returns, at any later time, is `p`. -/
theorem C44_intern {K V : Type} [DecidableEq K] [BEq V] [Hashable V] [EquivBEq V] [LawfulHashable V] {cfg : Pool.Cfg K V}
    (lay : cfg.Layout) (I : Impl V) (hI : I.RoundTrips) {s : Pool.State K V} (r : Pool.Reach cfg s) {k : K}
    (ho : cfg.owns k = false) {v : V} {p : Pool.Ptr} (hp : Pool.Returned s k v p) :
    ∃ data op, serialize I.ser (Pool.deref s k) p = some data ∧ deIntern I k data = some op ∧
      ∀ s' t q, Pool.Steps cfg s s' → ⟨t, op, .ptr q⟩ ∈ s'.done → q = p := by
  obtain ⟨x, _, hx, _, _, _⟩ := Pool.C24_pointer_eq_iff_value_eq lay r ho hp hp
  obtain ⟨y, hy, e⟩ := hI x
  refine ⟨I.ser x, .intern k (.ofVal y) y, by simp [serialize, hx], by simp [deIntern, hy], fun s' t q st hd => ?_⟩
  have hp' : Pool.Returned s' k v p := by
    obtain ⟨u, w, h⟩ := hp
    obtain ⟨l, e⟩ := st.log.2.1
    exact ⟨u, w, by rw [e]; exact List.mem_append_right _ h⟩
  obtain ⟨a, b, ha, hb, _, h⟩ := Pool.C24_pointer_eq_iff_value_eq lay (st.reach r) ho ⟨t, _, hd⟩ hp'
  refine h.mpr ?_
  obtain ⟨x', h1, _, h3⟩ := Pool.C25_never_freed_or_changed lay r .refl ho hp
  rw [hx] at h1
  cases h1
  exact BEq.trans e h3.1

/-! ### C45 -/

/-- **C45 (negative finding).** No self-describing format can deserialise an `ArcIntern<[u8]>` from what it was serialised to, whatever
the bytes. -/
theorem C45_bytes_rejected (m : Mode) (t : Arc.Tid) (b : List UInt8) : deArcBytes m t (serBytes b) = none := rfl

/-- C45: only byte strings are accepted. -/
theorem C45_only_bytes (m : Mode) (t : Arc.Tid) (x : Data) (a : Arc.Act (List UInt8)) (h : deArcBytes m t x = some a) :
    ∃ b, x = .bytes b ∧ a = .new t b true := by
  cases x with
  | bytes b => cases m <;> (cases h; exact ⟨b, rfl, rfl⟩)
  | _ => cases m <;> cases h

/-- With a `visit_seq` that collects the bytes it would round-trip: the defect is the missing method. -/
def fixedVisitor : Visitor (Dst.Src (List UInt8)) :=
  { bytesVisitor with visitSeq := fun l => (l.mapM fun x => match x with | Data.u8 n => some n | _ => none).map Src.visitOwned }
theorem C45_missing_method (m : Mode) (b : List UInt8) : (serBytes b).visit m fixedVisitor = some (.visitOwned b) := by
  have : (b.map Data.u8).mapM (fun x => match x with | Data.u8 n => some n | _ => none) = some b := by
    induction b with
    | nil => rfl
    | cons x b ih => simp [List.mapM_cons, ih]
  simp only [serBytes, Data.visit, fixedVisitor, this, Option.map_some]

/-- The hypotheses of C44 are met: a string type round-trips. -/
example : (⟨serStr, fun | .str s => some s | _ => none⟩ : Impl String).RoundTrips := fun x => ⟨x, rfl, BEq.rfl⟩

end Serde
