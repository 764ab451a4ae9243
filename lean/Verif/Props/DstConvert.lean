import Verif.Dst.Convert
import Verif.Props.ArcSafety
import Verif.Props.ArcCalls
/-
Property C23: all conversions give the same handle; comparisons with strings and slices compare contents.
-/
namespace Dst
open Arc
variable {C : Type} [BEq C] [Hashable C] [EquivBEq C] [LawfulHashable C]

/-- A call `act` by `t` starts in `s0` and returns the handle `p` in state `s3`; anything may happen in between. -/
structure Gives (cfg : Cfg C) (act : Act C) (t : Tid) (s0 : State C) (p : Addr) (s3 : State C) : Prop where
  reach : Reach cfg s0
  runs : ∃ s1 os s2 a, step cfg s0 act = .ok s1 ∧ Small cfg s1 ∧ RunOps cfg (InCall t) s1 os s2 ∧
    step cfg s2 (.run t a) = .ok s3 ∧ Small cfg s3 ∧ s3.handles = p :: s2.handles

theorem Gives.reach_end {cfg : Cfg C} {act : Act C} {t : Tid} {s0 s3 : State C} {p : Addr} (hsane : act.Sane)
    (g : Gives cfg act t s0 p s3) : Reach cfg s3 := by
  obtain ⟨s1, os, s2, a, h1, h2, h3, h4, h5, _⟩ := g.runs
  exact .step (RunOps.reach (.step g.reach hsane h1 h2) h3) (by simp [Act.Sane]) h4 h5

/-- Every conversion is an interning of the content. -/
theorem Src.call_eq (empty : C) (t : Tid) (src : Src C) : src.call empty t = .new t (src.content empty) true := by
  cases src <;> rfl

theorem Gives.value {cfg : Cfg C} (hv : cfg.Valid) {t : Tid} {v : C} {d : Bool} {s0 s3 : State C} {p : Addr}
    (g : Gives cfg (.new t v d) t s0 p s3) : Reach cfg s3 ∧ p ∈ allHandles cfg s3 ∧ ∃ x, deref s3 p = some x ∧ (x == v) = true := by
  obtain ⟨s1, os, s2, a, h1, h2, h3, h4, h5, h6⟩ := g.runs
  exact ⟨g.reach_end (by simp [Act.Sane]), by simp [allHandles, h6], (C06_new_returns_live_equal hv g.reach h1 h2 h3 h4 h5 h6).1⟩

theorem same_handle {cfg : Cfg C} (hv : cfg.Valid) {t u : Tid} {v w : C} {d d' : Bool} {s0 s3 u0 u3 : State C} {p q : Addr}
    (g : Gives cfg (.new t v d) t s0 p s3) (g' : Gives cfg (.new u w d') u u0 q u3)
    (alive : ExecIn cfg (fun s => p ∈ allHandles cfg s) s3 u3) : handleEq p q = (v == w) := by
  obtain ⟨r, hp, x, hx, hxv⟩ := g.value hv
  obtain ⟨r', hq, y, hy, hyw⟩ := g'.value hv
  have hst := (C07_value_stable hv r alive).2
  have hp' : p ∈ allHandles cfg u3 := by cases alive <;> assumption
  obtain ⟨x', y', e1, e2, h⟩ := C01_canonical hv r' hp' hq
  rw [hst, hx] at e1
  rw [hy] at e2
  cases e1; cases e2
  have : (x == y) = (v == w) := by
    apply Bool.eq_iff_iff.mpr
    constructor
    · intro hxy
      exact BEq.trans (BEq.trans (BEq.symm hxv) hxy) hyw
    · intro hvw
      exact BEq.trans (BEq.trans hxv hvw) (BEq.symm hyw)
  rw [← this]
  exact Bool.eq_iff_iff.mpr h

/-- **C23, conversions.** A conversion of any kind returned `p`; `p` (or a copy of it) stays alive until a conversion of any kind, by
any thread, returns `q`: then the handles are equal exactly if the contents are. -/
theorem C23_same_handle {cfg : Cfg C} (hv : cfg.Valid) (empty : C) {t u : Tid} {a b : Src C} {s0 s3 u0 u3 : State C}
    {p q : Addr} (g : Gives cfg (a.call empty t) t s0 p s3) (g' : Gives cfg (b.call empty u) u u0 q u3)
    (alive : ExecIn cfg (fun s => p ∈ allHandles cfg s) s3 u3) :
    handleEq p q = (a.content empty == b.content empty) := by
  rw [Src.call_eq] at g g'
  exact same_handle hv g g' alive

/-- **C23, comparisons.** Comparing a live handle with a string or slice, in either direction and with either operator, never touches
freed memory and agrees with the content. -/
theorem C23_comparisons {cfg : Cfg C} (hv : cfg.Valid) {s : State C} (r : Reach cfg s) {p : Addr} (hp : p ∈ allHandles cfg s)
    (c : C) : ∃ x, deref s p = some x ∧ eqOther s p c = some (x == c) ∧ otherEq s c p = some (x == c) ∧
      neOther s p c = some (!(x == c)) ∧ otherNe s c p = some (!(x == c)) := by
  have h := (C02_handles_valid hv r hp).1
  obtain ⟨x, hx⟩ := Option.isSome_iff_exists.mp h
  have hc : (c == x) = (x == c) := by
    apply Bool.eq_iff_iff.mpr
    exact ⟨BEq.symm, BEq.symm⟩
  refine ⟨x, hx, ?_, ?_, ?_, ?_⟩ <;> simp [eqOther, otherEq, neOther, otherNe, hx, bne, hc]

/-- C23, both: comparing a handle with an owned or borrowed string gives the same answer as interning that string (by any conversion)
and comparing the handles. -/
theorem C23_compare_like_handles {cfg : Cfg C} (hv : cfg.Valid) (empty : C) {u : Tid} {b : Src C} {u0 u3 : State C} {q : Addr}
    (g : Gives cfg (b.call empty u) u u0 q u3) {p : Addr} (hp : p ∈ allHandles cfg u3) :
    eqOther u3 p (b.content empty) = some (handleEq p q) := by
  rw [Src.call_eq] at g
  obtain ⟨r', hq, y, hy, hyw⟩ := g.value hv
  obtain ⟨x', y', e1, e2, h⟩ := C01_canonical hv r' hp hq
  rw [hy] at e2
  cases e2
  simp only [eqOther, e1, Option.map_some, Option.some.injEq]
  rw [Bool.eq_iff_iff, h]
  constructor
  · intro hh; exact BEq.trans hh (BEq.symm hyw)
  · intro hh; exact BEq.trans hh hyw

/-- Thread 0 converts an owned value, then thread 1 a borrowed one that is equal to it. -/
def convTrace : List (Act Val) :=
  [.spawn, .spawn, (Src.owned ⟨5, 1, []⟩).call ⟨0, 0, []⟩ 0, r 0, r 0 10, r 0, r 0, r 0, r 0,
   (Src.ref ⟨5, 2, []⟩).call ⟨0, 0, []⟩ 1, r 1, r 1, r 1, r 1]

example : ∃ s0 s3 u0 u3 : State Val, Gives demoCfg ((Src.owned ⟨5, 1, []⟩).call ⟨0, 0, []⟩ 0) 0 s0 10 s3 ∧
    Gives demoCfg ((Src.ref ⟨5, 2, []⟩).call ⟨0, 0, []⟩ 1) 1 u0 10 u3 ∧
    ExecIn demoCfg (fun s => 10 ∈ allHandles demoCfg s) s3 u3 := by
  refine ⟨demo (convTrace.take 2), demo (convTrace.take 9), demo (convTrace.take 9), demo convTrace, ⟨demo_reach (by decide), ?_⟩,
    ⟨demo_reach (by decide), ?_⟩, ?_⟩
  · refine ⟨demo (convTrace.take 3), [.intern 0 ⟨5, 1, []⟩ 10], demo (convTrace.take 8), 0, rfl, small_of_length (by decide), ?_, rfl,
      small_of_length (by decide), by decide⟩
    refine checkedOps_ok ((convTrace.drop 3).take 5) (.refl ⟨_, rfl, rfl⟩) ?_
    rfl
  · refine ⟨demo (convTrace.take 10), [.intern 1 ⟨5, 2, []⟩ 10], demo (convTrace.take 13), 0, rfl, small_of_length (by decide), ?_, rfl,
      small_of_length (by decide), by decide⟩
    refine checkedOps_ok ((convTrace.drop 10).take 3) (.refl ⟨_, rfl, rfl⟩) ?_
    rfl
  · refine .step (s' := demo (convTrace.take 13)) (a := r 1) (.step (s' := demo (convTrace.take 12)) (a := r 1)
      (.step (s' := demo (convTrace.take 11)) (a := r 1) (.step (s' := demo (convTrace.take 10)) (a := r 1)
      (.step (s' := demo (convTrace.take 9)) (a := (Src.ref ⟨5, 2, []⟩).call ⟨0, 0, []⟩ 1) (.refl (by decide))
      ?_ rfl ?_ ?_) ?_ rfl ?_ ?_) ?_ rfl ?_ ?_) ?_ rfl ?_ ?_) ?_ rfl ?_ ?_ <;>
      first | exact small_of_length (by decide) | decide | exact True.intro

end Dst
