import Verif.Client.Many
import Verif.Client.ArcLaws
import Verif.Client.PoolLaws
/-
The laws that the proof of C90 uses hold for several interners at once.
-/
namespace Client
open Pool (Ptr Query)

section
variable {V W : Type} [BEq V] [BEq W]

theorem inl_beq (x y : V) : ((Sum.inl x : V ⊕ W) == Sum.inl y) = (x == y) := rfl
theorem inr_beq (x y : W) : ((Sum.inr x : V ⊕ W) == Sum.inr y) = (x == y) := rfl

instance [EquivBEq V] [EquivBEq W] : EquivBEq (V ⊕ W) where
  rfl := by
    rintro (x | x)
    · show (x == x) = true; exact BEq.rfl
    · show (x == x) = true; exact BEq.rfl
  symm := by
    rintro (x | x) (y | y) h
    · exact (show (y == x) = true from BEq.symm (show (x == y) = true from h))
    · cases h
    · cases h
    · exact (show (y == x) = true from BEq.symm (show (x == y) = true from h))
  trans := by
    rintro (x | x) (y | y) (z | z) h h'
    · exact (show (x == z) = true from BEq.trans (show (x == y) = true from h) (show (y == z) = true from h'))
    · cases h'
    · cases h
    · cases h
    · cases h
    · cases h
    · cases h'
    · exact (show (x == z) = true from BEq.trans (show (x == y) = true from h) (show (y == z) = true from h'))

/-- The call of the program, in two interners. -/
def BothRun {P Q : Type} (I : Interner V P) (J : Interner W Q) (r : I.State → Tid → V → Prop) (r' : J.State → Tid → W → Prop)
    (s : Both I.State J.State) (t : Tid) : V ⊕ W → Prop
  | .inl v => s.who t = some false ∧ ¬ I.idle s.fst t ∧ r s.fst t v
  | .inr v => s.who t = some true ∧ ¬ J.idle s.snd t ∧ r' s.snd t v

section
variable {P Q : Type} {I : Interner V P} {J : Interner W Q}

omit [BEq V] [BEq W] in
/-- What the other threads do not notice. -/
theorem nested_fst {s s' : Both I.State J.State} (h : Both.Nested I J s) {t : Tid} (h2 : s'.snd = s.snd)
    (ho : ∀ u, u ≠ t → s'.who u = s.who u) (hi : ∀ u, u ≠ t → (I.idle s.fst u ↔ I.idle s'.fst u))
    (hj : J.idle s.snd t) (ht : s'.who t = some true → I.idle s'.fst t) : Both.Nested I J s' := by
  intro u
  by_cases hu : u = t
  · subst hu
    rw [h2]
    exact ⟨fun _ _ => hj, fun e _ => ht e⟩
  · rw [h2, ho u hu, ← hi u hu]
    exact h u

omit [BEq V] [BEq W] in
theorem nested_snd {s s' : Both I.State J.State} (h : Both.Nested I J s) {t : Tid} (h2 : s'.fst = s.fst)
    (ho : ∀ u, u ≠ t → s'.who u = s.who u) (hj : ∀ u, u ≠ t → (J.idle s.snd u ↔ J.idle s'.snd u))
    (hi : I.idle s.fst t) (ht : s'.who t = some false → J.idle s'.snd t) : Both.Nested I J s' := by
  intro u
  by_cases hu : u = t
  · subst hu
    rw [h2]
    exact ⟨fun e _ => ht e, fun _ _ => hi⟩
  · rw [h2, ho u hu, ← hj u hu]
    exact h u

theorem enter_other {S T : Type} {s s' : Both S T} {t u : Tid} {b : Bool} (e : s'.outer = (t, b) :: s.outer) (h : u ≠ t) : s'.who u = s.who u := by
  unfold Both.who
  rw [e, List.lookup_cons, show (u == t) = false by simpa using h]
theorem enter_self {S T : Type} {s s' : Both S T} {t : Tid} {b : Bool} (e : s'.outer = (t, b) :: s.outer) : s'.who t = some b := by
  unfold Both.who
  rw [e, List.lookup_cons, beq_self_eq_true]
theorem who_same {S T : Type} {s s' : Both S T} (e : s'.outer = s.outer) (t : Tid) : s'.who t = s.who t := by
  unfold Both.who
  rw [e]

omit [BEq V] [BEq W] in
theorem enter_outer {s s' : Both I.State J.State} {t : Tid} {b : Bool} (e : s'.outer = (t, b) :: s.outer)
    (hi : I.idle s.fst t ∧ J.idle s.snd t) : ∀ u, ¬ (I.idle s.fst u ∧ J.idle s.snd u) → s'.who u = s.who u := by
  intro u hu
  refine enter_other e ?_
  rintro rfl
  exact hu hi

variable [DecidableEq P] [DecidableEq Q]

theorem prod_laws {r : I.State → Tid → V → Prop} {r' : J.State → Tid → W → Prop} (L : Laws I r) (L' : Laws J r') :
    Laws (prod I J) (BothRun I J r r') where
  steps := by
    rintro s s' ⟨h1, h2, h3⟩ ⟨h, _, hn⟩
    refine ⟨?_, ?_, hn⟩
    · rcases h with ⟨h, _⟩ | ⟨_, h⟩ | ⟨h, _⟩
      · exact L.steps h1 h
      · rw [h]; exact h1
      · rw [h]; exact h1
    · rcases h with ⟨_, h⟩ | ⟨h, _⟩ | ⟨_, h⟩
      · rw [h]; exact h2
      · exact L'.steps h2 h
      · rw [h]; exact h2
  calls := by
    rintro s t (v | v) s' ⟨h1, h2, h3⟩ ⟨hc, hi, he, ho⟩
    · obtain ⟨a1, a2, a3, a4⟩ := L.calls h1 hc
      refine ⟨⟨.inl ⟨a1, he⟩, enter_outer ho ⟨a2, hi⟩, ?_⟩, ⟨a2, hi⟩, fun h => a3 h.1, ?_, a3, a4⟩
      · refine nested_fst h3 he (fun u hu => enter_other ho hu) (L.other hc) hi fun e => ?_
        rw [enter_self ho] at e; cases e
      · exact enter_self ho
    · obtain ⟨a1, a2, a3, a4⟩ := L'.calls h2 hc
      refine ⟨⟨.inr (.inl ⟨a1, he⟩), enter_outer ho ⟨hi, a2⟩, ?_⟩, ⟨hi, a2⟩, fun h => a3 h.2, ?_, a3, a4⟩
      · refine nested_snd h3 he (fun u hu => enter_other ho hu) (L'.other hc) hi fun e => ?_
        rw [enter_self ho] at e; cases e
      · exact enter_self ho
  returns := by
    rintro s t (p | p) s' ⟨h1, h2, h3⟩ ⟨hc, hi, he, hf, ho⟩
    · obtain ⟨a1, a2, a3⟩ := L.returns h1 hc
      refine ⟨⟨.inl ⟨a1, he⟩, fun u _ => who_same ho u, ?_⟩, fun h => a2 h.1, a3, by rw [he]; exact hi⟩
      exact nested_fst h3 he (fun u _ => who_same ho u) (L.other' hc) hi fun _ => a3
    · obtain ⟨a1, a2, a3⟩ := L'.returns h2 hc
      refine ⟨⟨.inr (.inl ⟨a1, he⟩), fun u _ => who_same ho u, ?_⟩, fun h => a2 h.2, by rw [he]; exact hi, a3⟩
      exact nested_snd h3 he (fun u _ => who_same ho u) (L'.other' hc) hi fun _ => a3
  clones := by
    rintro s t (p | p) s' ⟨h1, h2, h3⟩ ⟨hc, hi, he, ho⟩
    · obtain ⟨a1, a2⟩ := L.clones h1 hc
      have hn : Both.Nested I J s' := fun u => by rw [he, who_same ho, ← a2 u]; exact h3 u
      refine ⟨.inl ⟨?_, fun u _ => who_same ho u, hn⟩, fun u => ?_⟩
      · rcases a1 with a1 | a1
        · exact .inl ⟨a1, he⟩
        · exact .inr (.inr ⟨a1, he⟩)
      · show I.idle s.fst u ∧ J.idle s.snd u ↔ I.idle s'.fst u ∧ J.idle s'.snd u
        rw [he, a2 u]
    · obtain ⟨a1, a2⟩ := L'.clones h2 hc
      have hn : Both.Nested I J s' := fun u => by rw [he, who_same ho, ← a2 u]; exact h3 u
      refine ⟨.inl ⟨?_, fun u _ => who_same ho u, hn⟩, fun u => ?_⟩
      · rcases a1 with a1 | a1
        · exact .inr (.inl ⟨a1, he⟩)
        · exact .inr (.inr ⟨he, a1⟩)
      · show I.idle s.fst u ∧ J.idle s.snd u ↔ I.idle s'.fst u ∧ J.idle s'.snd u
        rw [he, a2 u]
  drops := by
    rintro s t (p | p) s' ⟨h1, h2, h3⟩ ⟨hc, hi, he, ho⟩
    · obtain ⟨a1, a2⟩ := L.drops h1 hc
      refine ⟨.inl ⟨?_, enter_outer ho ⟨a2, hi⟩, ?_⟩, a2, hi⟩
      · rcases a1 with a1 | a1
        · exact .inl ⟨a1, he⟩
        · exact .inr (.inr ⟨a1, he⟩)
      · refine nested_fst h3 he (fun u hu => enter_other ho hu) (L.other'' hc) hi fun e => ?_
        rw [enter_self ho] at e; cases e
    · obtain ⟨a1, a2⟩ := L'.drops h2 hc
      refine ⟨.inl ⟨?_, enter_outer ho ⟨hi, a2⟩, ?_⟩, hi, a2⟩
      · rcases a1 with a1 | a1
        · exact .inr (.inl ⟨a1, he⟩)
        · exact .inr (.inr ⟨he, a1⟩)
      · refine nested_snd h3 he (fun u hu => enter_other ho hu) (L'.other'' hc) hi fun e => ?_
        rw [enter_self ho] at e; cases e
  other := by
    rintro s t (v | v) s' ⟨hc, hi, he, ho⟩ u hu
    · show I.idle s.fst u ∧ J.idle s.snd u ↔ I.idle s'.fst u ∧ J.idle s'.snd u
      rw [he, L.other hc u hu]
    · show I.idle s.fst u ∧ J.idle s.snd u ↔ I.idle s'.fst u ∧ J.idle s'.snd u
      rw [he, L'.other hc u hu]
  other' := by
    rintro s t (v | v) s' ⟨hc, hi, he, ho⟩ u hu
    · show I.idle s.fst u ∧ J.idle s.snd u ↔ I.idle s'.fst u ∧ J.idle s'.snd u
      rw [he, L.other' hc u hu]
    · show I.idle s.fst u ∧ J.idle s.snd u ↔ I.idle s'.fst u ∧ J.idle s'.snd u
      rw [he, L'.other' hc u hu]
  other'' := by
    rintro s t (v | v) s' ⟨hc, hi, he, ho⟩ u hu
    · show I.idle s.fst u ∧ J.idle s.snd u ↔ I.idle s'.fst u ∧ J.idle s'.snd u
      rw [he, L.other'' hc u hu]
    · show I.idle s.fst u ∧ J.idle s.snd u ↔ I.idle s'.fst u ∧ J.idle s'.snd u
      rw [he, L'.other'' hc u hu]
  runs := by
    rintro s t (v | v) s' ⟨h1, h2, h3⟩ ⟨hs, hk, hn⟩ ⟨a1, a2, a3⟩ hni
    · have ho : s'.who t = some false := by rw [hk t fun h => a2 h.1]; exact a1
      have hi : ¬ I.idle s'.fst t := fun h => hni ⟨h, (hn t).1 ho h⟩
      refine ⟨ho, hi, ?_⟩
      rcases hs with ⟨h, _⟩ | ⟨_, h⟩ | ⟨h, _⟩
      · exact L.runs h1 h a3 hi
      · rw [h]; exact a3
      · rw [h]; exact a3
    · have ho : s'.who t = some true := by rw [hk t fun h => a2 h.2]; exact a1
      have hi : ¬ J.idle s'.snd t := fun h => hni ⟨(hn t).2 ho h, h⟩
      refine ⟨ho, hi, ?_⟩
      rcases hs with ⟨_, h⟩ | ⟨h, _⟩ | ⟨_, h⟩
      · rw [h]; exact a3
      · exact L'.runs h2 h a3 hi
      · rw [h]; exact a3
  less h hl := ⟨L.less h.1 fun p => hl (.inl p), L'.less h.2 fun p => hl (.inr p)⟩
  owns_returns := by
    rintro s t (b | b) s' n ⟨h1, h2, h3⟩ ⟨hc, hi, he, hf, ho⟩ ⟨o1, o2⟩
    · refine ⟨?_, ?_⟩
      · simpa only [Sum.inl.injEq] using L.owns_returns h1 hc o1
      · rw [he]; simpa using o2
    · refine ⟨?_, ?_⟩
      · rw [he]; simpa using o1
      · simpa only [Sum.inr.injEq] using L'.owns_returns h2 hc o2
  owns_clones := by
    rintro s t (b | b) s' n ⟨hc, hi, he, ho⟩ hb ⟨o1, o2⟩
    · refine ⟨?_, ?_⟩
      · simpa only [Sum.inl.injEq] using L.owns_clones (n := fun p => n (.inl p)) hc hb o1
      · rw [he]; simpa using o2
    · refine ⟨?_, ?_⟩
      · rw [he]; simpa using o1
      · simpa only [Sum.inr.injEq] using L'.owns_clones (n := fun p => n (.inr p)) hc hb o2
  owns_drops := by
    rintro s t (b | b) s' n ⟨hc, hi, he, ho⟩ ⟨o1, o2⟩
    · refine ⟨L.owns_drops hc (by simpa only [Sum.inl.injEq] using o1), ?_⟩
      rw [he]; simpa using o2
    · refine ⟨?_, L'.owns_drops hc (by simpa only [Sum.inr.injEq] using o2)⟩
      rw [he]; simpa using o1
  canonical := by
    rintro s n (p | p) (q | q) ⟨h1, h2, h3⟩ ⟨o1, o2⟩ hp hq
    · obtain ⟨x, y, a1, a2, a3⟩ := L.canonical h1 o1 hp hq
      exact ⟨.inl x, .inl y, by simp only [prod, a1, Option.map_some], by simp only [prod, a2, Option.map_some],
        by rw [inl_beq, ← a3]; exact ⟨Sum.inl.inj, congrArg _⟩⟩
    · obtain ⟨x, _, a1, _⟩ := L.canonical h1 o1 hp hp
      obtain ⟨y, _, a2, _⟩ := L'.canonical h2 o2 hq hq
      exact ⟨.inl x, .inr y, by simp only [prod, a1, Option.map_some], by simp only [prod, a2, Option.map_some],
        (fun h => by cases h), fun h => by cases h⟩
    · obtain ⟨x, _, a1, _⟩ := L'.canonical h2 o2 hp hp
      obtain ⟨y, _, a2, _⟩ := L.canonical h1 o1 hq hq
      exact ⟨.inr x, .inl y, by simp only [prod, a1, Option.map_some], by simp only [prod, a2, Option.map_some],
        (fun h => by cases h), fun h => by cases h⟩
    · obtain ⟨x, y, a1, a2, a3⟩ := L'.canonical h2 o2 hp hq
      exact ⟨.inr x, .inr y, by simp only [prod, a1, Option.map_some], by simp only [prod, a2, Option.map_some],
        by rw [inr_beq, ← a3]; exact ⟨Sum.inr.inj, congrArg _⟩⟩
  stable := by
    rintro s s' n (p | p) ⟨h1, h2, h3⟩ ⟨hs, hk, hn⟩ ⟨o1, o2⟩ ⟨o1', o2'⟩ hp
    · show (I.deref s'.fst p).map Sum.inl = (I.deref s.fst p).map Sum.inl
      rcases hs with ⟨h, _⟩ | ⟨_, h⟩ | ⟨h, _⟩
      · rw [L.stable h1 h o1 o1' hp]
      · rw [h]
      · rw [h]
    · show (J.deref s'.snd p).map Sum.inr = (J.deref s.snd p).map Sum.inr
      rcases hs with ⟨_, h⟩ | ⟨h, _⟩ | ⟨_, h⟩
      · rw [h]
      · rw [L'.stable h2 h o2 o2' hp]
      · rw [h]
  result := by
    rintro s t (v | v) (b | b) s' n ⟨h1, h2, h3⟩ ⟨o1, o2⟩ ⟨a1, a2, a3⟩ ⟨hc, hi, he, hf, ho⟩
    · obtain ⟨x, b1, b2⟩ := L.result h1 o1 a3 hc
      exact ⟨.inl x, by simp only [prod, b1, Option.map_some], b2⟩
    · rw [a1] at hf; cases hf
    · rw [a1] at hf; cases hf
    · obtain ⟨x, b1, b2⟩ := L'.result h2 o2 a3 hc
      exact ⟨.inr x, by simp only [prod, b1, Option.map_some], b2⟩

end
end

/-! ### Several types -/

section
variable {K V : Type} [DecidableEq K] [BEq V] [Hashable V]

omit [Hashable V] in
theorem pair_beq (a b : K) (x y : V) : ((a, x) == (b, y)) = true ↔ a = b ∧ (x == y) = true := by
  show (a == b && x == y) = true ↔ _
  simp

instance [EquivBEq V] : EquivBEq (K × V) where
  rfl := by rintro ⟨a, x⟩; rw [pair_beq]; exact ⟨rfl, BEq.rfl⟩
  symm := by rintro ⟨a, x⟩ ⟨b, y⟩ h; rw [pair_beq] at *; exact ⟨h.1.symm, BEq.symm h.2⟩
  trans := by rintro ⟨a, x⟩ ⟨b, y⟩ ⟨c, z⟩ h h'; rw [pair_beq] at *; exact ⟨h.1.trans h'.1, BEq.trans h.2 h'.2⟩

variable [EquivBEq V] [LawfulHashable V]

omit [EquivBEq V] [LawfulHashable V] in
theorem one_owns {cfg : Pool.Cfg K V} {ks : K → Prop} {S : Src.PoolCode.State K V} {n : K × Ptr → Nat} (h : (pools cfg ks).Owns S n) {k : K} (hk : ks k) :
    (pool cfg k).Owns S fun p => n (k, p) := ⟨h.1 k hk, fun p hp => (h.2 (k, p) hp).2⟩

theorem pools_laws {cfg : Pool.Cfg K V} {ks : K → Prop} (lay : cfg.Layout) :
    Laws (pools cfg ks) fun S t x => ks x.1 ∧ PoolOuter x.1 S t x.2 where
  steps h := fun ⟨_, hl, e⟩ => .step h hl e
  calls := by
    rintro S t ⟨k, v⟩ S' h ⟨hk, hc⟩
    obtain ⟨a1, a2, a3, a4⟩ := (pool_laws lay).calls h hc
    exact ⟨a1, a2, a3, hk, a4⟩
  returns := by
    rintro S t ⟨k, p⟩ S' h ⟨hk, hc⟩
    exact (pool_laws lay).returns h hc
  clones := by
    rintro S t p S' _ ⟨hi, rfl⟩
    exact ⟨.inr rfl, fun _ => Iff.rfl⟩
  drops := by
    rintro S t p S' _ ⟨hi, rfl⟩
    exact ⟨.inr rfl, hi⟩
  other := by
    rintro S t ⟨k, v⟩ S' ⟨hk, hc⟩
    exact (pool_laws lay).other hc
  other' := by
    rintro S t ⟨k, v⟩ S' ⟨hk, hc⟩
    exact (pool_laws lay).other' hc
  other'' := by
    rintro S t p S' ⟨hi, rfl⟩ u hu
    exact Iff.rfl
  runs := by
    rintro S t ⟨k, v⟩ S' h hs ⟨hk, hr⟩ hni
    exact ⟨hk, (pool_laws lay (k := k)).runs h hs hr hni⟩
  less h hl := ⟨h.1, fun p hp => h.2 p (Nat.lt_of_lt_of_le hp (hl p))⟩
  owns_returns := by
    rintro S t ⟨k, b⟩ S' n hR ⟨hk, hc⟩ ⟨ho1, ho2⟩
    obtain ⟨c, a, q, v, ht, e, hend, hh⟩ := hc
    obtain ⟨_, h2, _⟩ := pool_run_out ht e hh
    refine ⟨fun k' hk' h => ho1 k' hk' (h2 ▸ h), fun p hp => ?_⟩
    by_cases h : p = (k, b)
    · subst h
      exact ⟨hk, c.id, q, v, by show _ ∈ S'.hist; rw [hh]; exact List.mem_cons_self⟩
    · obtain ⟨h1, j, q', v', h3⟩ := ho2 p (by simpa [h] using hp)
      exact ⟨h1, j, q', v', by show _ ∈ S'.hist; rw [hh]; exact List.mem_cons_of_mem _ h3⟩
  owns_clones := by
    rintro S t b S' n ⟨hi, rfl⟩ hb ho
    refine ⟨ho.1, fun p hp => ?_⟩
    by_cases h : p = b
    · subst h; exact ho.2 p hb
    · exact ho.2 p (by simpa [h] using hp)
  owns_drops := by
    rintro S t b S' n ⟨hi, rfl⟩ ho
    exact ⟨ho.1, fun p hp => ho.2 p (Nat.lt_of_lt_of_le hp (Nat.le_add_right _ _))⟩
  canonical := by
    rintro S n ⟨k, p⟩ ⟨k', q⟩ hR ho hp hq
    have hk := (ho.2 _ hp).1
    have hk' := (ho.2 _ hq).1
    by_cases h : k = k'
    · subst h
      obtain ⟨x, y, a1, a2, a3⟩ := (pool_laws lay).canonical hR (one_owns ho hk) hp hq
      refine ⟨(k, x), (k, y), ?_, ?_, ?_⟩
      · show (Src.PoolCode.deref S k p).map _ = _
        rw [show Src.PoolCode.deref S k p = some x from a1]; rfl
      · show (Src.PoolCode.deref S k q).map _ = _
        rw [show Src.PoolCode.deref S k q = some y from a2]; rfl
      · rw [pair_beq, ← a3, Prod.mk.injEq]
    · obtain ⟨x, _, a1, _⟩ := (pool_laws lay).canonical hR (one_owns ho hk) hp hp
      obtain ⟨y, _, a2, _⟩ := (pool_laws lay).canonical hR (one_owns ho hk') hq hq
      refine ⟨(k, x), (k', y), ?_, ?_, ?_⟩
      · show (Src.PoolCode.deref S k p).map _ = _
        rw [show Src.PoolCode.deref S k p = some x from a1]; rfl
      · show (Src.PoolCode.deref S k' q).map _ = _
        rw [show Src.PoolCode.deref S k' q = some y from a2]; rfl
      · rw [pair_beq, Prod.mk.injEq]
        exact ⟨fun e => (h e.1).elim, fun e => (h e.1).elim⟩
  stable := by
    rintro S S' n ⟨k, p⟩ hR hs ho ho' hp
    have hk := (ho.2 _ hp).1
    show (Src.PoolCode.deref S' k p).map _ = (Src.PoolCode.deref S k p).map _
    rw [show Src.PoolCode.deref S' k p = Src.PoolCode.deref S k p from
      (pool_laws lay (k := k)).stable hR hs (one_owns ho hk) (one_owns ho' hk) hp]
  result := by
    rintro S t ⟨k, v⟩ ⟨k', b⟩ S' n hR ho ⟨hk, hr⟩ ⟨hk', hc⟩
    obtain rfl : k' = k := by
      obtain ⟨cs, c, q, byRef, h1, h2, h3⟩ := hr
      obtain ⟨c', a, q', v', ht, e, hend, hh⟩ := hc
      obtain ⟨⟨byRef', h4⟩, _⟩ := pool_run_out ht e hh
      rw [ht] at h1; cases h1
      simp only [List.getLast?_singleton, Option.some.injEq] at h2
      subst h2
      rw [h4] at h3
      cases h3; rfl
    obtain ⟨x, a1, a2⟩ := (pool_laws lay).result hR (one_owns ho hk) hr hc
    refine ⟨(k', x), ?_, (pair_beq ..).mpr ⟨rfl, a2⟩⟩
    show (Src.PoolCode.deref S' k' b).map _ = _
    rw [show Src.PoolCode.deref S' k' b = some x from a1]; rfl

theorem newInterns_laws {cfg : Src.NewCode.Cfg K V} (lay : cfg.Layout) :
    Laws (newInterns cfg) fun S t x => NewOuter x.1 S t x.2 where
  steps h := fun ⟨_, hl, e⟩ => .step h hl e
  calls := by
    rintro S t ⟨k, v⟩ S' h hc
    exact (new_laws lay).calls h hc
  returns := by
    rintro S t ⟨k, p⟩ S' h hc
    exact (new_laws lay).returns h hc
  clones := by
    rintro S t p S' _ ⟨hi, rfl⟩
    exact ⟨.inr rfl, fun _ => Iff.rfl⟩
  drops := by
    rintro S t p S' _ ⟨hi, rfl⟩
    exact ⟨.inr rfl, hi⟩
  other := by
    rintro S t ⟨k, v⟩ S' hc
    exact (new_laws lay).other hc
  other' := by
    rintro S t ⟨k, v⟩ S' hc
    exact (new_laws lay).other' hc
  other'' := by
    rintro S t p S' ⟨hi, rfl⟩ u hu
    exact Iff.rfl
  runs := by
    rintro S t ⟨k, v⟩ S' h hs hr hni
    exact (new_laws lay (k := k)).runs h hs hr hni
  less h hl := fun p hp => h p (Nat.lt_of_lt_of_le hp (hl p))
  owns_returns := by
    rintro S t ⟨k, b⟩ S' n hR hc ho2 p hp
    obtain ⟨c, a, q, v, ht, e, hend, hh⟩ := hc
    by_cases h : p = (k, b)
    · subst h
      exact ⟨c.id, q, v, by show _ ∈ S'.hist; rw [hh]; exact List.mem_cons_self⟩
    · obtain ⟨j, q', v', h3⟩ := ho2 p (by simpa [h] using hp)
      exact ⟨j, q', v', by show _ ∈ S'.hist; rw [hh]; exact List.mem_cons_of_mem _ h3⟩
  owns_clones := by
    rintro S t b S' n ⟨hi, rfl⟩ hb ho p hp
    by_cases h : p = b
    · subst h; exact ho p hb
    · exact ho p (by simpa [h] using hp)
  owns_drops := by
    rintro S t b S' n ⟨hi, rfl⟩ ho
    exact fun p hp => ho p (Nat.lt_of_lt_of_le hp (Nat.le_add_right _ _))
  canonical := by
    rintro S n ⟨k, p⟩ ⟨k', q⟩ hR ho hp hq
    have own : ∀ k, (newIntern cfg k).Owns S fun p => n (k, p) := fun k p hp => ho (k, p) hp
    by_cases h : k = k'
    · subst h
      obtain ⟨x, y, a1, a2, a3⟩ := (new_laws lay).canonical hR (own k) hp hq
      refine ⟨(k, x), (k, y), ?_, ?_, ?_⟩
      · show (Src.NewCode.deref S k p).map _ = _
        rw [show Src.NewCode.deref S k p = some x from a1]; rfl
      · show (Src.NewCode.deref S k q).map _ = _
        rw [show Src.NewCode.deref S k q = some y from a2]; rfl
      · rw [pair_beq, ← a3, Prod.mk.injEq]
    · obtain ⟨x, _, a1, _⟩ := (new_laws lay).canonical hR (own k) hp hp
      obtain ⟨y, _, a2, _⟩ := (new_laws lay).canonical hR (own k') hq hq
      refine ⟨(k, x), (k', y), ?_, ?_, ?_⟩
      · show (Src.NewCode.deref S k p).map _ = _
        rw [show Src.NewCode.deref S k p = some x from a1]; rfl
      · show (Src.NewCode.deref S k' q).map _ = _
        rw [show Src.NewCode.deref S k' q = some y from a2]; rfl
      · rw [pair_beq, Prod.mk.injEq]
        exact ⟨fun e => (h e.1).elim, fun e => (h e.1).elim⟩
  stable := by
    rintro S S' n ⟨k, p⟩ hR hs ho ho' hp
    show (Src.NewCode.deref S' k p).map _ = (Src.NewCode.deref S k p).map _
    rw [show Src.NewCode.deref S' k p = Src.NewCode.deref S k p from
      (new_laws lay (k := k)).stable (n := fun p => n (k, p)) hR hs (fun p hp => ho (k, p) hp) (fun p hp => ho' (k, p) hp) hp]
  result := by
    rintro S t ⟨k, v⟩ ⟨k', b⟩ S' n hR ho hr hc
    obtain rfl : k' = k := by
      obtain ⟨cs, c, q, h1, h2, h3⟩ := hr
      obtain ⟨c', a, q', v', ht, e, hend, hh⟩ := hc
      obtain ⟨h4, _⟩ := new_run_out ht e hh
      rw [ht] at h1; cases h1
      simp only [List.getLast?_singleton, Option.some.injEq] at h2
      subst h2
      rw [h4] at h3
      cases h3; rfl
    obtain ⟨x, a1, a2⟩ := (new_laws lay).result (n := fun p => n (k', p)) hR (fun p hp => ho (k', p) hp) hr hc
    refine ⟨(k', x), ?_, (pair_beq ..).mpr ⟨rfl, a2⟩⟩
    show (Src.NewCode.deref S' k' b).map _ = _
    rw [show Src.NewCode.deref S' k' b = some x from a1]; rfl

end
end Client
