import Verif.Client.Arc
import Verif.Client.Sim
import Verif.Client.Stack
import Verif.Props.ArcSourceHeld
/-
`ArcIntern` satisfies the laws that the proof of C90 uses.
-/
namespace Client
open Arc (Cfg Addr)
open Src.ArcNest (Running Few)

section
variable {V : Type} [BEq V] [Hashable V] {cfg : Cfg V}

theorem nest_shape {can : List (Running V) → Bool} {N N' : Src.ArcNest.State V} {act : Src.ArcNest.Act V}
    (e : Src.ArcNest.step cfg N act can = .ok N') {u : Nat} {cs : List (Running V)} (hu : N.threads[u]? = some cs) :
    ∃ cs', N'.threads[u]? = some cs' ∧ Shape Running.call cs cs' := by
  cases act with
  | spawn =>
    cases e
    exact ⟨cs, by rw [List.getElem?_append_left (List.getElem?_eq_some_iff.mp hu).1]; exact hu, .same⟩
  | new t v dst =>
    simp only [Src.ArcNest.step] at e
    split at e
    · rename_i cs0 ht
      split at e
      · cases e; exact shape_set ht (.push _) hu
      · cases e
    · cases e
  | drop t v =>
    simp only [Src.ArcNest.step] at e
    split at e
    · rename_i cs0 ht
      split at e
      · cases e; exact shape_set ht (.push _) hu
      · cases e
    · cases e
  | clone t path =>
    simp only [Src.ArcNest.step] at e
    (repeat' split at e) <;> first | (cases e; done) | (cases e; exact ⟨cs, hu, .same⟩)
  | read t path =>
    simp only [Src.ArcNest.step] at e
    (repeat' split at e) <;> first | (cases e; done) | (cases e; exact ⟨cs, hu, .same⟩)
  | take t p =>
    simp only [Src.ArcNest.step] at e
    split at e
    · rename_i id call f fs cs0 ht
      split at e
      · split at e
        · cases e
          refine shape_set ht ?_ hu; exact .change rfl rfl
        · cases e
      · cases e
    · cases e
  | put t p =>
    simp only [Src.ArcNest.step] at e
    split at e
    · rename_i id call f fs cs0 ht
      split at e
      · split at e
        · cases e
          refine shape_set ht ?_ hu; exact .change rfl rfl
        · cases e
      · cases e
    · cases e
  | run t a =>
    simp only [Src.ArcNest.step] at e
    split at e
    · rename_i c0 cs0 ht
      split at e
      · cases e; exact shape_set ht (.pop (c := c0) rfl) hu
      · cases e; refine shape_set ht ?_ hu; exact .change rfl rfl
      · cases e
      · cases e
    · cases e
  | panic t =>
    simp only [Src.ArcNest.step] at e
    split at e
    · rename_i c0 cs0 ht
      split at e
      · cases e; refine shape_set ht ?_ hu; exact .change rfl rfl
      · cases e
      · cases e
    · cases e

theorem held_shape {X X' : Src.ArcHeld.State V} {act : Src.ArcHeld.Act V} (e : Src.ArcHeld.step cfg X act = .ok X') {u : Nat}
    {cs : List (Running V)} (hu : X.base.threads[u]? = some cs) : ∃ cs', X'.base.threads[u]? = some cs' ∧ Shape Running.call cs cs' := by
  rcases Src.ArcHeld.step_base e with ⟨_, _, _, _, _, rfl⟩ | ⟨_, _, e, _⟩
  · exact ⟨cs, hu, .same⟩
  · exact nest_shape e hu

/-- The outermost call of thread `t` is `new(v)`. -/
def Outer (X : Src.ArcHeld.State V) (t : Tid) (v : V) : Prop :=
  ∃ cs c dst, X.base.threads[t]? = some cs ∧ cs.getLast? = some c ∧ c.call = .new v dst

theorem step_act {X X' : Src.ArcHeld.State V} {a : Src.ArcNest.Act V} (e : Src.ArcHeld.step cfg X (.act a) = .ok X') :
    Src.ArcNest.step cfg X.base a Src.ArcHeld.mayCall = .ok X'.base := by
  rcases Src.ArcHeld.step_base e with ⟨_, _, h, _⟩ | ⟨a', h, e, _⟩
  · cases h
  · cases h; exact e

theorem new_out {N N' : Src.ArcNest.State V} {can : List (Running V) → Bool} {t : Tid} {v : V} {dst : Bool}
    (e : Src.ArcNest.step cfg N (.new t v dst) can = .ok N') :
    ∃ cs c, N.threads[t]? = some cs ∧ c.call = .new v dst ∧ N'.threads = N.threads.set t (c :: cs) := by
  simp only [Src.ArcNest.step] at e
  split at e
  · rename_i cs ht
    split at e
    · cases e; exact ⟨cs, _, ht, rfl, rfl⟩
    · cases e
  · cases e

theorem drop_out {N N' : Src.ArcNest.State V} {can : List (Running V) → Bool} {t : Tid} {p : Addr}
    (e : Src.ArcNest.step cfg N (.drop t p) can = .ok N') :
    ∃ cs c, N.threads[t]? = some cs ∧ p ∈ N.handles ∧ N'.handles = N.handles.erase p ∧ N'.threads = N.threads.set t (c :: cs) := by
  simp only [Src.ArcNest.step] at e
  split at e
  · rename_i cs ht
    split at e
    · rename_i hc
      cases e; exact ⟨cs, _, ht, of_decide_eq_true (Bool.and_eq_true_iff.mp hc).2, rfl, rfl⟩
    · cases e
  · cases e

omit [BEq V] [Hashable V] in
theorem borrow_one {s : Arc.State V} {p q : Addr} (h : Arc.borrow cfg s [p] = .ok q) : q = p := by
  simp only [Arc.borrow] at h
  split at h
  · simp only [Arc.follow] at h
    split at h
    · cases h; rfl
    · cases h
  · cases h

theorem clone_out {N N' : Src.ArcNest.State V} {can : List (Running V) → Bool} {t : Tid} {p : Addr}
    (e : Src.ArcNest.step cfg N (.clone t [p]) can = .ok N') : N'.handles = p :: N.handles ∧ N'.threads = N.threads := by
  simp only [Src.ArcNest.step] at e
  split at e
  · split at e
    · split at e
      · rename_i q hb
        have := borrow_one hb
        subst this
        split at e
        · cases e; exact ⟨rfl, rfl⟩
        · cases e
      · cases e
      · cases e
    · cases e
  · cases e

theorem run_out {N N' : Src.ArcNest.State V} {can : List (Running V) → Bool} {t : Tid} {a : Addr} {c : Running V} {cs : List (Running V)}
    (ht : N.threads[t]? = some (c :: cs)) (e : Src.ArcNest.step cfg N (.run t a) can = .ok N') {b : Addr}
    (hh : N'.hist = .ret c.id (some b) :: N.hist) :
    c.stack.any (·.panicking) = false ∧ (∃ v dst, c.call = .new v dst) ∧ (∃ new, N'.threads = N.threads.set t new) := by
  simp only [Src.ArcNest.step, ht] at e
  split at e
  · rename_i m r hr
    cases e
    refine ⟨?_, ?_, _, rfl⟩
    · cases hp : c.stack.any (·.panicking) with
      | false => rfl
      | true =>
        simp only [Src.ArcNest.ends, hp, if_true, List.nil_append] at hh
        have := congrArg List.length hh
        simp at this
    · cases hc : c.call with
      | new v dst => exact ⟨v, dst, rfl⟩
      | drop p =>
        simp only [Src.ArcNest.ends, hc] at hh
        split at hh
        · have := congrArg List.length hh
          simp at this
        · simp at hh
  · cases e
    have := congrArg List.length hh
    simp at this
  · cases e
  · cases e

variable [EquivBEq V] [LawfulHashable V]

theorem arc_stable (hv : cfg.Valid) {X X' : Src.ArcHeld.State V} (h : Src.ArcHeld.Reach cfg X) {act : Src.ArcHeld.Act V}
    (e : Src.ArcHeld.step cfg X act = .ok X') (hf : Few cfg X'.base) {p : Addr} (hp : p ∈ X.base.handles) (hp' : p ∈ X'.base.handles) :
    Src.ArcNest.deref X'.base p = Src.ArcNest.deref X.base p := by
  obtain ⟨x, h1, h2⟩ := Src.ArcHeld.C88_value_stable (p := p) hv h (.step (.refl hp) e hf hp')
  rw [h1, h2]

theorem arc_result (hv : cfg.Valid) {X X' : Src.ArcHeld.State V} (h : Src.ArcHeld.Reach cfg X) {t : Tid} {b : Addr}
    (hr : (arc cfg).Returns X t b X') : ∃ v dst c, X.base.threads[t]? = some [c] ∧ c.call = .new v dst ∧
      X'.base.handles = b :: X.base.handles ∧ ∃ x, Src.ArcNest.deref X'.base b = some x ∧ (x == v) = true := by
  obtain ⟨c, a, ht, e, hf, hend, hh⟩ := hr
  obtain ⟨h1, ⟨v, dst, h2⟩, _⟩ := run_out ht (step_act e) hh
  obtain ⟨b', x, h3, h4, h5, h6⟩ := Src.ArcHeld.C88_new_returns hv h ht h2 h1 e hend
  rw [hh] at h4
  cases h4
  exact ⟨v, dst, c, ht, h2, h3, x, h5, h6⟩

theorem arc_laws (hv : cfg.Valid) : Laws (arc cfg) Outer where
  steps h := fun ⟨_, e, hf⟩ => .step h e hf
  calls := by
    rintro X t v X' _ ⟨hi, dst, e, hf⟩
    obtain ⟨cs, c, h1, h2, h3⟩ := new_out (step_act e)
    rw [hi] at h1; cases h1
    have h4 : X'.base.threads[t]? = some [c] := by rw [h3]; simp [(List.getElem?_eq_some_iff.mp hi).1]
    refine ⟨⟨_, e, hf⟩, hi, fun h => ?_, [c], c, dst, h4, rfl, h2⟩
    have h : X'.base.threads[t]? = some [] := h
    rw [h4] at h; cases h
  returns := by
    rintro X t b X' _ ⟨c, a, ht, e, hf, hend, hh⟩
    refine ⟨⟨_, e, hf⟩, fun h => ?_, hend⟩
    have h : X.base.threads[t]? = some [] := h
    rw [ht] at h; cases h
  clones := by
    rintro X t p X' _ ⟨hi, e, hf⟩
    refine ⟨.inl ⟨_, e, hf⟩, fun u => ?_⟩
    show X.base.threads[u]? = some [] ↔ X'.base.threads[u]? = some []
    rw [(clone_out (step_act e)).2]
  drops := by
    rintro X t p X' _ ⟨hi, e, hf⟩
    exact ⟨.inl ⟨_, e, hf⟩, hi⟩
  other := by
    rintro X t v X' ⟨hi, dst, e, hf⟩ u hu
    obtain ⟨cs, c, h1, h2, h3⟩ := new_out (step_act e)
    show X.base.threads[u]? = some [] ↔ X'.base.threads[u]? = some []
    rw [h3, set_other hu]
  other' := by
    rintro X t b X' ⟨c, a, ht, e, hf, hend, hh⟩ u hu
    obtain ⟨_, _, new, h3⟩ := run_out ht (step_act e) hh
    show X.base.threads[u]? = some [] ↔ X'.base.threads[u]? = some []
    rw [h3, set_other hu]
  other'' := by
    rintro X t p X' ⟨hi, e, hf⟩ u hu
    obtain ⟨cs, c, h1, h2, _, h3⟩ := drop_out (step_act e)
    show X.base.threads[u]? = some [] ↔ X'.base.threads[u]? = some []
    rw [h3, set_other hu]
  runs := by
    rintro X t v X' _ ⟨act, e, hf⟩ ⟨cs, c, dst, h1, h2, h3⟩ hni
    obtain ⟨cs', h4, h5⟩ := held_shape e h1
    have hne : cs' ≠ [] := by rintro rfl; exact hni h4
    obtain ⟨c', h6, h7⟩ := h5.outer hne h2
    exact ⟨cs', c', dst, h4, h6, h7.trans h3⟩
  less h hl := fun p => Nat.le_trans (hl p) (h p)
  owns_returns := by
    intro X t b X' n hR hr ho p
    obtain ⟨_, _, _, _, _, h1, _⟩ := arc_result hv hR hr
    have h2 := ho p
    show _ ≤ X'.base.handles.count p
    rw [h1, List.count_cons]
    by_cases h : p = b
    · subst h; simpa using h2
    · simpa [h, Ne.symm h] using h2
  owns_clones := by
    rintro X t b X' n ⟨hi, e, hf⟩ _ ho p
    obtain ⟨h1, _⟩ := clone_out (step_act e)
    have h2 := ho p
    show _ ≤ X'.base.handles.count p
    rw [h1, List.count_cons]
    by_cases h : p = b
    · subst h; simpa using h2
    · simpa [h, Ne.symm h] using h2
  owns_drops := by
    rintro X t b X' n ⟨hi, e, hf⟩ ho p
    obtain ⟨cs, c, h1, h2, h4, h3⟩ := drop_out (step_act e)
    have h5 := ho p
    show _ ≤ X'.base.handles.count p
    rw [h4]
    by_cases h : p = b
    · subst h
      rw [List.count_erase_self]
      simp only [if_true] at h5
      exact Nat.le_sub_of_add_le h5
    · rw [List.count_erase_of_ne h]
      simpa [h] using h5
  canonical := by
    intro X n p q hR ho hp hq
    exact (Src.ArcHeld.C88_canonical hv hR (List.count_pos_iff.mp (Nat.lt_of_lt_of_le hp (ho p)))
      (List.count_pos_iff.mp (Nat.lt_of_lt_of_le hq (ho q)))).2
  stable := by
    rintro X X' n p hR ⟨act, e, hf⟩ ho ho' hp
    exact arc_stable hv hR e hf (List.count_pos_iff.mp (Nat.lt_of_lt_of_le hp (ho p))) (List.count_pos_iff.mp (Nat.lt_of_lt_of_le hp (ho' p)))
  result := by
    rintro X t v b X' n hR _ ⟨cs, c, dst, h1, h2, h3⟩ hr
    obtain ⟨v', dst', c', h4, h5, _, h6⟩ := arc_result hv hR hr
    rw [h4] at h1
    cases h1
    simp only [List.getLast?_singleton, Option.some.injEq] at h2
    subst h2
    rw [h5] at h3
    cases h3
    exact h6

end
end Client
