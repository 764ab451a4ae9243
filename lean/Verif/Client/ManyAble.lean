import Verif.Client.Able
import Verif.Client.ManyLaws
/-
If calls of two interners can be carried through, so can those of a program that uses both (C92).
-/
namespace Client

section
variable {P Q : Type} [DecidableEq P] [DecidableEq Q]

/-- The handles of the first interner. -/
def lefts {P Q : Type} (l : List (P ⊕ Q)) : List P := l.filterMap Sum.getLeft?

/-- The handles of the second interner. -/
def rights {P Q : Type} (l : List (P ⊕ Q)) : List Q := l.filterMap Sum.getRight?

theorem copies_lefts (l : List (P ⊕ Q)) (p : P) : copies (lefts l) p = copies l (.inl p) := by
  simp only [copies, lefts]
  induction l with
  | nil => rfl
  | cons a l ih =>
    cases a with
    | inl a =>
      rw [List.filterMap_cons_some (by rfl : Sum.getLeft? (Sum.inl a : P ⊕ Q) = some a), count_cons_if, count_cons_if, ih]
      simp only [Sum.inl.injEq]
    | inr a =>
      rw [List.filterMap_cons_none (by rfl), count_cons_if, ih, if_neg (by simp), Nat.add_zero]

theorem copies_rights (l : List (P ⊕ Q)) (q : Q) : copies (rights l) q = copies l (.inr q) := by
  simp only [copies, rights]
  induction l with
  | nil => rfl
  | cons a l ih =>
    cases a with
    | inr a =>
      rw [List.filterMap_cons_some (by rfl : Sum.getRight? (Sum.inr a : P ⊕ Q) = some a), count_cons_if, count_cons_if, ih]
      simp only [Sum.inr.injEq]
    | inl a =>
      rw [List.filterMap_cons_none (by rfl), count_cons_if, ih, if_neg (by simp), Nat.add_zero]

omit [DecidableEq P] [DecidableEq Q] in
theorem lefts_len (l : List (P ⊕ Q)) : (lefts l).length ≤ l.length := List.length_filterMap_le ..

omit [DecidableEq P] [DecidableEq Q] in
theorem rights_len (l : List (P ⊕ Q)) : (rights l).length ≤ l.length := List.length_filterMap_le ..

end

variable {V W P Q : Type} {I : Interner V P} {J : Interner W Q}

/-- A call of the first interner: only thread `t` changes there. -/
theorem nested_fst_able {s s' : Both I.State J.State} (h : Both.Nested I J s) {t : Tid} (ho : ∀ u, u ≠ t → (I.idle s.fst u ↔ I.idle s'.fst u))
    (hs : s'.snd = s.snd) (hw : ∀ u, u ≠ t → s'.who u = s.who u) (ht : s'.who t = some false ∨ I.idle s'.fst t) (hi : J.idle s.snd t) :
    Both.Nested I J s' := by
  intro u
  by_cases hu : u = t
  · subst hu
    rw [hs]
    refine ⟨fun _ _ => hi, fun h1 _ => ?_⟩
    rcases ht with ht | ht
    · rw [ht] at h1; cases h1
    · exact ht
  · rw [hw u hu, hs]
    exact ⟨fun h1 h2 => (h u).1 h1 ((ho u hu).mpr h2), fun h1 h2 => (ho u hu).mp ((h u).2 h1 h2)⟩

theorem nested_snd_able {s s' : Both I.State J.State} (h : Both.Nested I J s) {t : Tid} (ho : ∀ u, u ≠ t → (J.idle s.snd u ↔ J.idle s'.snd u))
    (hs : s'.fst = s.fst) (hw : ∀ u, u ≠ t → s'.who u = s.who u) (ht : s'.who t = some true ∨ J.idle s'.snd t) (hi : I.idle s.fst t) :
    Both.Nested I J s' := by
  intro u
  by_cases hu : u = t
  · subst hu
    rw [hs]
    refine ⟨fun h1 _ => ?_, fun _ _ => hi⟩
    rcases ht with ht | ht
    · rw [ht] at h1; cases h1
    · exact ht
  · rw [hw u hu, hs]
    exact ⟨fun h1 h2 => (ho u hu).mp ((h u).1 h1 h2), fun h1 h2 => (h u).2 h1 ((ho u hu).mpr h2)⟩

theorem who_cons {S T : Type} (x : S) (y : T) (t : Tid) (b : Bool) (o : List (Tid × Bool)) : (⟨x, y, (t, b) :: o⟩ : Both S T).who t = some b := by
  simp [Both.who]

theorem who_other {S T : Type} (x x' : S) (y y' : T) {t u : Tid} (b : Bool) (o : List (Tid × Bool)) (h : u ≠ t) :
    (⟨x, y, (t, b) :: o⟩ : Both S T).who u = (⟨x', y', o⟩ : Both S T).who u := by
  simp only [Both.who, List.lookup_cons, beq_eq_false_iff_ne.mpr h]

theorem path_fst {t : Tid} {busy : Prop} {n : P ⊕ Q → Nat} {x x' : I.State} {y : J.State} {o : List (Tid × Bool)}
    (h : Path I t busy (fun p => n (.inl p)) x x') (hn : Both.Nested I J ⟨x, y, (t, false) :: o⟩) (hi : J.idle y t) (ho : J.Owns y fun q => n (.inr q)) :
    Path (prod I J) t busy n ⟨x, y, (t, false) :: o⟩ ⟨x', y, (t, false) :: o⟩ ∧ Both.Nested I J ⟨x', y, (t, false) :: o⟩ := by
  induction h with
  | refl => exact ⟨.refl, hn⟩
  | @step x1 x2 _ e h1 h2 h3 ih =>
    have hn' : Both.Nested I J ⟨x2, y, (t, false) :: o⟩ := nested_fst_able (s' := ⟨x2, y, (t, false) :: o⟩) ih.2 h1 rfl (fun _ _ => rfl) (.inl (who_cons ..)) hi
    exact ⟨.step ih.1 ⟨.inl ⟨e, rfl⟩, fun _ _ => rfl, hn'⟩ (fun u hu => and_congr_left fun _ => h1 u hu) (fun hb hh => h2 hb hh.1) ⟨h3, ho⟩, hn'⟩

theorem path_snd {t : Tid} {busy : Prop} {n : P ⊕ Q → Nat} {x : I.State} {y y' : J.State} {o : List (Tid × Bool)}
    (h : Path J t busy (fun q => n (.inr q)) y y') (hn : Both.Nested I J ⟨x, y, (t, true) :: o⟩) (hi : I.idle x t) (ho : I.Owns x fun p => n (.inl p)) :
    Path (prod I J) t busy n ⟨x, y, (t, true) :: o⟩ ⟨x, y', (t, true) :: o⟩ ∧ Both.Nested I J ⟨x, y', (t, true) :: o⟩ := by
  induction h with
  | refl => exact ⟨.refl, hn⟩
  | @step y1 y2 _ e h1 h2 h3 ih =>
    have hn' : Both.Nested I J ⟨x, y2, (t, true) :: o⟩ := nested_snd_able (s' := ⟨x, y2, (t, true) :: o⟩) ih.2 h1 rfl (fun _ _ => rfl) (.inl (who_cons ..)) hi
    exact ⟨.step ih.1 ⟨.inr (.inl ⟨e, rfl⟩), fun _ _ => rfl, hn'⟩ (fun u hu => and_congr_right fun _ => h1 u hu) (fun hb hh => h2 hb hh.2) ⟨ho, h3⟩, hn'⟩

variable [DecidableEq P] [DecidableEq Q] [BEq V] [BEq W]

theorem prod_able {rI : I.State → Tid → V → Prop} {rJ : J.State → Tid → W → Prop} (LI : Laws I rI) (LJ : Laws J rJ) {N : Nat} {ok : V → Prop}
    {ok' : W → Prop} {calm : List P → I.State → Prop} {calm' : List Q → J.State → Prop} (A : Able I N ok calm) (B : Able J N ok' calm') :
    Able (prod I J) N (Sum.elim ok ok') fun l s => calm (lefts l) s.fst ∧ calm' (rights l) s.snd where
  perm h hp := ⟨A.perm h.1 (hp.filterMap _), B.perm h.2 (hp.filterMap _)⟩
  news {l s t v} hr hc hl hv ho hi := by
    obtain ⟨x, y, o⟩ := s
    obtain ⟨hr1, hr2, hn⟩ := hr
    have ho1 : I.Owns x (copies (lefts l)) := by rw [show copies (lefts l) = fun p => copies l (.inl p) from funext (copies_lefts l)]; exact ho.1
    have ho2 : J.Owns y (copies (rights l)) := by rw [show copies (rights l) = fun p => copies l (.inr p) from funext (copies_rights l)]; exact ho.2
    have hl1 := lefts_len l
    have hl2 := rights_len l
    cases v with
    | inl v =>
      obtain ⟨s1, s2, p, s3, h1, h2, h3, h4, h5⟩ := A.news hr1 hc.1 (by omega) hv ho1 hi.1
      rw [show copies (lefts l) = fun p => copies l (.inl p) from funext (copies_lefts l)] at h2 h3
      have hn1 : Both.Nested I J ⟨s1, y, (t, false) :: o⟩ :=
        nested_fst_able (s' := ⟨s1, y, (t, false) :: o⟩) hn (LI.other h1) rfl (fun u hu => who_other _ _ _ _ _ _ hu) (.inl (who_cons ..)) hi.2
      exact ⟨⟨s1, y, (t, false) :: o⟩, ⟨s2, y, (t, false) :: o⟩, .inl p, ⟨s3, y, (t, false) :: o⟩, ⟨h1, hi.2, rfl, rfl⟩, ⟨h2, ho.2⟩,
        (path_fst h3 hn1 hi.2 ho.2).1, ⟨h4, hi.2, rfl, who_cons .., rfl⟩, h5, hc.2⟩
    | inr v =>
      obtain ⟨s1, s2, p, s3, h1, h2, h3, h4, h5⟩ := B.news hr2 hc.2 (by omega) hv ho2 hi.2
      rw [show copies (rights l) = fun p => copies l (.inr p) from funext (copies_rights l)] at h2 h3
      have hn1 : Both.Nested I J ⟨x, s1, (t, true) :: o⟩ :=
        nested_snd_able (s' := ⟨x, s1, (t, true) :: o⟩) hn (LJ.other h1) rfl (fun u hu => who_other _ _ _ _ _ _ hu) (.inl (who_cons ..)) hi.1
      exact ⟨⟨x, s1, (t, true) :: o⟩, ⟨x, s2, (t, true) :: o⟩, .inr p, ⟨x, s3, (t, true) :: o⟩, ⟨h1, hi.1, rfl, rfl⟩, ⟨ho.1, h2⟩,
        (path_snd h3 hn1 hi.1 ho.1).1, ⟨h4, hi.1, rfl, who_cons .., rfl⟩, hc.1, h5⟩
  clones {l s t p} hr hc hl hp ho hi := by
    obtain ⟨x, y, o⟩ := s
    obtain ⟨hr1, hr2, hn⟩ := hr
    have ho1 : I.Owns x (copies (lefts l)) := by rw [show copies (lefts l) = fun p => copies l (.inl p) from funext (copies_lefts l)]; exact ho.1
    have ho2 : J.Owns y (copies (rights l)) := by rw [show copies (rights l) = fun p => copies l (.inr p) from funext (copies_rights l)]; exact ho.2
    have hl1 := lefts_len l
    have hl2 := rights_len l
    cases p with
    | inl p =>
      obtain ⟨s1, h1, h2⟩ := A.clones hr1 hc.1 (by omega) (List.mem_filterMap.mpr ⟨_, hp, rfl⟩) ho1 hi.1
      exact ⟨⟨s1, y, o⟩, ⟨h1, hi.2, rfl, rfl⟩, h2, hc.2⟩
    | inr p =>
      obtain ⟨s1, h1, h2⟩ := B.clones hr2 hc.2 (by omega) (List.mem_filterMap.mpr ⟨_, hp, rfl⟩) ho2 hi.2
      exact ⟨⟨x, s1, o⟩, ⟨h1, hi.1, rfl, rfl⟩, hc.1, h2⟩
  drops {l s t p} hr hc ho hi := by
    obtain ⟨x, y, o⟩ := s
    obtain ⟨hr1, hr2, hn⟩ := hr
    cases p with
    | inl p =>
      have ho1 : I.Owns x (copies (p :: lefts l)) := by
        rw [show copies (p :: lefts l) = fun q => copies (.inl p :: l) (.inl q) from funext (copies_lefts (.inl p :: l))]; exact ho.1
      have ho2 : J.Owns y fun q => copies l (.inr q) := by
        rw [← funext (copies_rights l), show copies (rights l) = copies (rights (.inl p :: l)) from rfl, funext (copies_rights (.inl p :: l))]; exact ho.2
      obtain ⟨s1, s2, h1, h2, h3, h4⟩ := A.drops (l := lefts l) hr1 hc.1 ho1 hi.1
      rw [show copies (lefts l) = fun p => copies l (.inl p) from funext (copies_lefts l)] at h2
      have hn1 : Both.Nested I J ⟨s1, y, (t, false) :: o⟩ :=
        nested_fst_able (s' := ⟨s1, y, (t, false) :: o⟩) hn (LI.other'' h1) rfl (fun u hu => who_other _ _ _ _ _ _ hu) (.inl (who_cons ..)) hi.2
      exact ⟨⟨s1, y, (t, false) :: o⟩, ⟨s2, y, (t, false) :: o⟩, ⟨h1, hi.2, rfl, rfl⟩, (path_fst h2 hn1 hi.2 ho2).1, ⟨h3, hi.2⟩, h4, hc.2⟩
    | inr p =>
      have ho1 : J.Owns y (copies (p :: rights l)) := by
        rw [show copies (p :: rights l) = fun q => copies (.inr p :: l) (.inr q) from funext (copies_rights (.inr p :: l))]; exact ho.2
      have ho2 : I.Owns x fun q => copies l (.inl q) := by
        rw [← funext (copies_lefts l), show copies (lefts l) = copies (lefts (.inr p :: l)) from rfl, funext (copies_lefts (.inr p :: l))]; exact ho.1
      obtain ⟨s1, s2, h1, h2, h3, h4⟩ := B.drops (l := rights l) hr2 hc.2 ho1 hi.2
      rw [show copies (rights l) = fun p => copies l (.inr p) from funext (copies_rights l)] at h2
      have hn1 : Both.Nested I J ⟨x, s1, (t, true) :: o⟩ :=
        nested_snd_able (s' := ⟨x, s1, (t, true) :: o⟩) hn (LJ.other'' h1) rfl (fun u hu => who_other _ _ _ _ _ _ hu) (.inl (who_cons ..)) hi.1
      exact ⟨⟨x, s1, (t, true) :: o⟩, ⟨x, s2, (t, true) :: o⟩, ⟨h1, hi.1, rfl, rfl⟩, (path_snd h2 hn1 hi.1 ho2).1, ⟨hi.1, h3⟩, hc.1, h4⟩

end Client
