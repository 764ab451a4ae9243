import Verif.Client.Pool
import Verif.Client.Sim
import Verif.Client.Stack
import Verif.Props.PoolSource
import Verif.Props.NewSource
/-
The interners whose handles are `Copy` satisfy the laws that the proof of C90 uses.
-/
namespace Client
open Pool (Ptr Query)

section
variable {K V : Type} [DecidableEq K] [BEq V] [Hashable V] {cfg : Pool.Cfg K V} {k : K}
open Src.PoolCode

theorem pool_shape {S S' : Src.PoolCode.State K V} {act : Src.PoolCode.Act K V} (e : Src.PoolCode.step cfg S act = .ok S') {u : Nat}
    {cs : List (Running K V)} (hu : S.threads[u]? = some cs) : ∃ cs', S'.threads[u]? = some cs' ∧ Shape Running.call cs cs' := by
  cases act with
  | spawn =>
    cases e
    exact ⟨cs, by rw [List.getElem?_append_left (List.getElem?_eq_some_iff.mp hu).1]; exact hu, .same⟩
  | call t o byRef =>
    simp only [Src.PoolCode.step] at e
    split at e
    · rename_i cs0 f ht _
      split at e
      · cases e; exact shape_set ht (.push _) hu
      · cases e
    · cases e
  | dropArena t k =>
    simp only [Src.PoolCode.step] at e
    split at e
    · rename_i cs0 ht
      split at e
      · cases e; exact shape_set ht (.push _) hu
      · cases e
    · cases e
  | run t a =>
    simp only [Src.PoolCode.step] at e
    split at e
    · rename_i c0 cs0 ht
      split at e
      · cases e; exact shape_set ht (.pop (c := c0) rfl) hu
      · cases e; refine shape_set ht ?_ hu; exact .change rfl rfl
      · cases e
      · cases e
    · cases e
  | panic t =>
    simp only [Src.PoolCode.step] at e
    split at e
    · rename_i c0 cs0 ht
      split at e
      · cases e; refine shape_set ht ?_ hu; exact .change rfl rfl
      · cases e
      · cases e
      · cases e
    · cases e

theorem pool_call_out {S S' : Src.PoolCode.State K V} {t : Nat} {o : Pool.Op K V} {byRef : Bool}
    (e : Src.PoolCode.step cfg S (.call t o byRef) = .ok S') :
    ∃ cs c, S.threads[t]? = some cs ∧ c.call = .op o byRef ∧ S'.threads = S.threads.set t (c :: cs) := by
  simp only [Src.PoolCode.step] at e
  split at e
  · rename_i cs f ht _
    split at e
    · cases e; exact ⟨cs, _, ht, rfl, rfl⟩
    · cases e
  · cases e

theorem pool_run_out {S S' : Src.PoolCode.State K V} {t : Nat} {a : Nat} {c : Running K V} {cs : List (Running K V)}
    (ht : S.threads[t]? = some (c :: cs)) (e : Src.PoolCode.step cfg S (.run t a) = .ok S') {en : Pool.Entry K V}
    (hh : S'.hist = .ret en :: S.hist) :
    (∃ byRef, c.call = .op en.op byRef) ∧ S'.gone = S.gone ∧ ∃ new, S'.threads = S.threads.set t new := by
  simp only [Src.PoolCode.step, ht] at e
  have none : S.hist ≠ .ret en :: S.hist := fun h => by
    have := congrArg List.length h
    simp at this
  split at e
  · rename_i m r hr
    cases e
    refine ⟨?_, rfl, _, rfl⟩
    simp only [ends] at hh
    split at hh
    · exact absurd hh none
    · split at hh
      · rename_i o byRef hc
        cases hx : r.bind toRet with
        | none => rw [hx] at hh; exact absurd hh none
        | some x =>
          rw [hx] at hh
          simp only [Option.toList_some, List.map_cons, List.map_nil, List.cons_append, List.nil_append, List.cons.injEq, Event.ret.injEq, and_true] at hh
          exact ⟨byRef, by rw [hc, ← hh]⟩
      · simp at hh
  · cases e; exact absurd hh none
  · cases e
  · cases e

/-- The outermost call of thread `t` interns `v`. -/
def PoolOuter (k : K) (S : Src.PoolCode.State K V) (t : Tid) (v : V) : Prop :=
  ∃ cs c q byRef, S.threads[t]? = some cs ∧ cs.getLast? = some c ∧ c.call = .op (.intern k q v) byRef

variable [EquivBEq V] [LawfulHashable V]

theorem pool_laws (lay : cfg.Layout) : Laws (pool cfg k) (PoolOuter k) where
  steps h := fun ⟨_, hl, e⟩ => .step h hl e
  calls := by
    rintro S t v S' _ ⟨hi, q, byRef, hl, e⟩
    obtain ⟨cs, c, h1, h2, h3⟩ := pool_call_out e
    rw [hi] at h1; cases h1
    have h4 : S'.threads[t]? = some [c] := by rw [h3]; simp [(List.getElem?_eq_some_iff.mp hi).1]
    refine ⟨⟨.call t (.intern k q v) byRef, hl, e⟩, hi, fun h => ?_, [c], c, q, byRef, h4, rfl, h2⟩
    have h : S'.threads[t]? = some [] := h
    rw [h4] at h; cases h
  returns := by
    rintro S t b S' _ ⟨c, a, q, v, ht, e, hend, hh⟩
    refine ⟨⟨.run t a, trivial, e⟩, fun h => ?_, hend⟩
    have h : S.threads[t]? = some [] := h
    rw [ht] at h; cases h
  clones := by
    rintro S t p S' _ ⟨hi, rfl⟩
    exact ⟨.inr rfl, fun _ => Iff.rfl⟩
  drops := by
    rintro S t p S' _ ⟨hi, rfl⟩
    exact ⟨.inr rfl, hi⟩
  other := by
    rintro S t v S' ⟨hi, q, byRef, hl, e⟩ u hu
    obtain ⟨cs, c, h1, h2, h3⟩ := pool_call_out e
    show S.threads[u]? = some [] ↔ S'.threads[u]? = some []
    rw [h3, set_other hu]
  other' := by
    rintro S t b S' ⟨c, a, q, v, ht, e, hend, hh⟩ u hu
    obtain ⟨_, _, new, h3⟩ := pool_run_out ht e hh
    show S.threads[u]? = some [] ↔ S'.threads[u]? = some []
    rw [h3, set_other hu]
  other'' := by
    rintro S t p S' ⟨hi, rfl⟩ u hu
    exact Iff.rfl
  runs := by
    rintro S t v S' _ ⟨act, _, e⟩ ⟨cs, c, q, byRef, h1, h2, h3⟩ hni
    obtain ⟨cs', h4, h5⟩ := pool_shape e h1
    obtain ⟨c', h6, h7⟩ := h5.outer (by rintro rfl; exact hni h4) h2
    exact ⟨cs', c', q, byRef, h4, h6, h7.trans h3⟩
  less h hl := ⟨h.1, fun p hp => h.2 p (Nat.lt_of_lt_of_le hp (hl p))⟩
  owns_returns := by
    rintro S t b S' n hR ⟨c, a, q, v, ht, e, hend, hh⟩ ⟨ho1, ho2⟩
    obtain ⟨_, h2, _⟩ := pool_run_out ht e hh
    refine ⟨fun h => ho1 (h2 ▸ h), fun p hp => ?_⟩
    by_cases h : p = b
    · subst h
      exact ⟨c.id, q, v, by show _ ∈ S'.hist; rw [hh]; exact List.mem_cons_self⟩
    · obtain ⟨j, q', v', h3⟩ := ho2 p (by simpa [h] using hp)
      exact ⟨j, q', v', by show _ ∈ S'.hist; rw [hh]; exact List.mem_cons_of_mem _ h3⟩
  owns_clones := by
    rintro S t b S' n ⟨hi, rfl⟩ hb ho
    refine ⟨ho.1, fun p hp => ?_⟩
    by_cases h : p = b
    · subst h; exact ho.2 p hb
    · exact ho.2 p (by simpa [h] using hp)
  owns_drops := by
    rintro S t b S' n ⟨hi, rfl⟩ ho
    exact ⟨ho.1, fun p hp => ho.2 p (Nat.lt_of_lt_of_le hp (Nat.le_add_right _ _))⟩
  canonical := by
    intro S n p q hR ho hp hq
    obtain ⟨j, qy, v, h1⟩ := ho.2 p hp
    obtain ⟨j', qy', w, h2⟩ := ho.2 q hq
    obtain ⟨_, x, e1, h3, h4⟩ := C81_handle_valid lay hR h1 ho.1
    obtain ⟨_, y, e2, h5, h6⟩ := C81_handle_valid lay hR h2 ho.1
    cases e1; cases e2
    refine ⟨x, y, h3, h5, ?_⟩
    rw [C81_canonical lay hR h1 h2 ho.1, beq_congr h4 h6]
  stable := by
    rintro S S' n p hR ⟨act, hl, e⟩ ho ho' hp
    obtain ⟨j, qy, v, h1⟩ := ho.2 p hp
    exact C81_handle_stable lay hR (.step (.refl _) hl e) h1 ho.1 ho'.1
  result := by
    rintro S t v b S' n hR ho ⟨cs, c, q, byRef, h1, h2, h3⟩ ⟨c', a, q', v', ht, e, hend, hh⟩
    obtain ⟨⟨byRef', h4⟩, h5, _⟩ := pool_run_out ht e hh
    rw [ht] at h1; cases h1
    simp only [List.getLast?_singleton, Option.some.injEq] at h2
    subst h2
    rw [h4] at h3
    cases h3
    obtain ⟨p, x, e1, h6, h7⟩ := C81_handle_valid lay (.step hR (act := .run t a) trivial e) (r := .ptr b) (q := q) (v := v) (j := c'.id) (k := k)
      (by show _ ∈ S'.hist; rw [hh]; exact List.mem_cons_self) (by rw [h5]; exact ho.1)
    cases e1
    exact ⟨x, h6, h7⟩

end

section
variable {K V : Type} [DecidableEq K] [BEq V] [Hashable V] {cfg : Src.NewCode.Cfg K V} {k : K}
open Src.NewCode

theorem new_unwind_shape {S S' : Src.NewCode.State K V} {t : Nat} {c : Running K V} {l : List (Running K V)} (ht : S.threads[t]? = some (c :: l))
    (e : unwind cfg S t c l = .ok S') {u : Nat} {cs : List (Running K V)} (hu : S.threads[u]? = some cs) :
    ∃ cs', S'.threads[u]? = some cs' ∧ Shape Running.op cs cs' := by
  simp only [unwind] at e
  split at e
  · cases e; refine shape_set ht ?_ hu; exact .change rfl rfl
  · cases e
  · cases e
  · cases e

theorem new_unwind_hist {S S' : Src.NewCode.State K V} {t : Nat} {c : Running K V} {l : List (Running K V)} (e : unwind cfg S t c l = .ok S') :
    S'.hist = S.hist := by
  simp only [unwind] at e
  split at e
  · cases e; rfl
  · cases e
  · cases e
  · cases e

theorem new_shape {S S' : Src.NewCode.State K V} {act : Src.NewCode.Act K V} (e : Src.NewCode.step cfg S act = .ok S') {u : Nat}
    {cs : List (Running K V)} (hu : S.threads[u]? = some cs) : ∃ cs', S'.threads[u]? = some cs' ∧ Shape Running.op cs cs' := by
  cases act with
  | spawn =>
    cases e
    exact ⟨cs, by rw [List.getElem?_append_left (List.getElem?_eq_some_iff.mp hu).1]; exact hu, .same⟩
  | call t o byRef unw =>
    simp only [Src.NewCode.step] at e
    split at e
    · rename_i cs0 f ht _
      split at e
      · cases e; exact shape_set ht (.push _) hu
      · cases e
    · cases e
  | run t a =>
    simp only [Src.NewCode.step] at e
    split at e
    · rename_i c0 cs0 ht
      split at e
      · exact new_unwind_shape ht e hu
      · split at e
        · cases e; exact shape_set ht (.pop (c := c0) rfl) hu
        · cases e; refine shape_set ht ?_ hu; exact .change rfl rfl
        · cases e
        · cases e
    · cases e
  | panic t =>
    simp only [Src.NewCode.step] at e
    split at e
    · rename_i c0 cs0 ht
      split at e
      · exact new_unwind_shape ht e hu
      · cases e
    · cases e

theorem new_call_out {S S' : Src.NewCode.State K V} {t : Nat} {o : Pool.Op K V} {byRef unw : Bool}
    (e : Src.NewCode.step cfg S (.call t o byRef unw) = .ok S') :
    ∃ cs c, S.threads[t]? = some cs ∧ c.op = o ∧ S'.threads = S.threads.set t (c :: cs) := by
  simp only [Src.NewCode.step] at e
  split at e
  · rename_i cs f ht _
    split at e
    · cases e; exact ⟨cs, _, ht, rfl, rfl⟩
    · cases e
  · cases e

theorem new_run_out {S S' : Src.NewCode.State K V} {t : Nat} {a : Nat} {c : Running K V} {cs : List (Running K V)}
    (ht : S.threads[t]? = some (c :: cs)) (e : Src.NewCode.step cfg S (.run t a) = .ok S') {en : Pool.Entry K V}
    (hh : S'.hist = .ret en :: S.hist) :
    c.op = en.op ∧ ∃ new, S'.threads = S.threads.set t new := by
  simp only [Src.NewCode.step, ht] at e
  have none : S.hist ≠ .ret en :: S.hist := fun h => by
    have := congrArg List.length h
    simp at this
  split at e
  · rw [new_unwind_hist e] at hh; exact absurd hh none
  · split at e
    · rename_i m r hr
      cases e
      refine ⟨?_, _, rfl⟩
      simp only [ends] at hh
      split at hh
      · simp at hh
      · cases hx : r.bind toRet with
        | none => rw [hx] at hh; exact absurd hh none
        | some x =>
          rw [hx] at hh
          simp only [Option.toList_some, List.map_cons, List.map_nil, List.cons_append, List.nil_append, List.cons.injEq, Event.ret.injEq, and_true] at hh
          rw [← hh]
    · cases e; exact absurd hh none
    · cases e
    · cases e

/-- The outermost call of thread `t` interns `v`. -/
def NewOuter (k : K) (S : Src.NewCode.State K V) (t : Tid) (v : V) : Prop :=
  ∃ cs c q, S.threads[t]? = some cs ∧ cs.getLast? = some c ∧ c.op = .intern k q v

variable [EquivBEq V] [LawfulHashable V]

theorem new_laws (lay : cfg.Layout) : Laws (newIntern cfg k) (NewOuter k) where
  steps h := fun ⟨_, hl, e⟩ => .step h hl e
  calls := by
    rintro S t v S' _ ⟨hi, q, byRef, unw, hl, e⟩
    obtain ⟨cs, c, h1, h2, h3⟩ := new_call_out e
    rw [hi] at h1; cases h1
    have h4 : S'.threads[t]? = some [c] := by rw [h3]; simp [(List.getElem?_eq_some_iff.mp hi).1]
    refine ⟨⟨.call t (.intern k q v) byRef unw, hl, e⟩, hi, fun h => ?_, [c], c, q, h4, rfl, h2⟩
    have h : S'.threads[t]? = some [] := h
    rw [h4] at h; cases h
  returns := by
    rintro S t b S' _ ⟨c, a, q, v, ht, e, hend, hh⟩
    refine ⟨⟨.run t a, trivial, e⟩, fun h => ?_, hend⟩
    have h : S.threads[t]? = some [] := h
    rw [ht] at h; cases h
  clones := by
    rintro S t p S' _ ⟨hi, rfl⟩
    exact ⟨.inr rfl, fun _ => Iff.rfl⟩
  drops := by
    rintro S t p S' _ ⟨hi, rfl⟩
    exact ⟨.inr rfl, hi⟩
  other := by
    rintro S t v S' ⟨hi, q, byRef, unw, hl, e⟩ u hu
    obtain ⟨cs, c, h1, h2, h3⟩ := new_call_out e
    show S.threads[u]? = some [] ↔ S'.threads[u]? = some []
    rw [h3, set_other hu]
  other' := by
    rintro S t b S' ⟨c, a, q, v, ht, e, hend, hh⟩ u hu
    obtain ⟨_, new, h3⟩ := new_run_out ht e hh
    show S.threads[u]? = some [] ↔ S'.threads[u]? = some []
    rw [h3, set_other hu]
  other'' := by
    rintro S t p S' ⟨hi, rfl⟩ u hu
    exact Iff.rfl
  runs := by
    rintro S t v S' _ ⟨act, _, e⟩ ⟨cs, c, q, h1, h2, h3⟩ hni
    obtain ⟨cs', h4, h5⟩ := new_shape e h1
    obtain ⟨c', h6, h7⟩ := h5.outer (by rintro rfl; exact hni h4) h2
    exact ⟨cs', c', q, h4, h6, h7.trans h3⟩
  less h hl := fun p hp => h p (Nat.lt_of_lt_of_le hp (hl p))
  owns_returns := by
    rintro S t b S' n hR ⟨c, a, q, v, ht, e, hend, hh⟩ ho2 p hp
    by_cases h : p = b
    · subst h
      exact ⟨c.id, q, v, by show _ ∈ S'.hist; rw [hh]; exact List.mem_cons_self⟩
    · obtain ⟨j, q', v', h3⟩ := ho2 p (by simpa [h] using hp)
      exact ⟨j, q', v', by show _ ∈ S'.hist; rw [hh]; exact List.mem_cons_of_mem _ h3⟩
  owns_clones := by
    rintro S t b S' n ⟨hi, rfl⟩ hb ho p hp
    by_cases h : p = b
    · subst h; exact ho p hb
    · exact ho p (by simpa [h] using hp)
  owns_drops := by
    rintro S t b S' n ⟨hi, rfl⟩ ho
    exact fun p hp => ho p (Nat.lt_of_lt_of_le hp (Nat.le_add_right _ _))
  canonical := by
    intro S n p q hR ho hp hq
    obtain ⟨j, qy, v, h1⟩ := ho p hp
    obtain ⟨j', qy', w, h2⟩ := ho q hq
    obtain ⟨_, x, e1, h3, h4⟩ := C86_handle_valid lay hR h1
    obtain ⟨_, y, e2, h5, h6⟩ := C86_handle_valid lay hR h2
    cases e1; cases e2
    refine ⟨x, y, h3, h5, ?_⟩
    rw [C86_canonical lay hR h1 h2, beq_congr h4 h6]
  stable := by
    rintro S S' n p hR ⟨act, hl, e⟩ ho ho' hp
    obtain ⟨j, qy, v, h1⟩ := ho p hp
    exact C86_handle_stable lay hR (.step (.refl _) hl e) h1
  result := by
    rintro S t v b S' n hR ho ⟨cs, c, q, h1, h2, h3⟩ ⟨c', a, q', v', ht, e, hend, hh⟩
    obtain ⟨h4, _⟩ := new_run_out ht e hh
    rw [ht] at h1; cases h1
    simp only [List.getLast?_singleton, Option.some.injEq] at h2
    subst h2
    rw [h4] at h3
    cases h3
    obtain ⟨p, x, e1, h6, h7⟩ := C86_handle_valid lay (.step hR (act := .run t a) trivial e) (r := .ptr b) (q := q) (v := v) (j := c'.id) (k := k)
      (by show _ ∈ S'.hist; rw [hh]; exact List.mem_cons_self)
    cases e1
    exact ⟨x, h6, h7⟩

end
end Client
