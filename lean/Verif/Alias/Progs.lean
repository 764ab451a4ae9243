import Verif.Alias.TreeFacts
/-!
The programs under the rules, for C69.
-/
namespace Alias

/-- An invariant of the accepted histories. -/
theorem Hist.holds {P : Prog} {R : Rules} (J : R.St → Ctl → Prop) (h0 : J R.init .start)
    (hs : ∀ {s s' c a new c'}, J s c → P c a = some (new, c') → R.run s new = some s' → J s' c') {ops : List Op} {c : Ctl}
    (h : Hist P ops c) {s : R.St} (hr : R.run R.init ops = some s) : J s c := by
  induction h generalizing s with
  | start => cases hr; exact h0
  | @act ops0 c0 a new c' _ ha ih =>
    rw [R.run_append] at hr
    cases h1 : R.run R.init ops0 with
    | none => rw [h1] at hr; cases hr
    | some s1 => rw [h1] at hr; exact hs (ih h1) ha hr

theorem Rules.run_cons_some {R : Rules} {s s' : R.St} {o : Op} {os : List Op} (h : R.run s (o :: os) = some s') :
    ∃ s1, R.step s o = some s1 ∧ R.run s1 os = some s' := by
  cases h1 : R.step s o with
  | none => rw [R.run_none h1] at h; cases h
  | some s1 => rw [R.run_cons h1] at h; exact ⟨s1, rfl, h⟩

theorem Rules.allowed_of {R : Rules} {ops : List Op} {J : R.St → Prop} (h : ∃ s, R.run R.init ops = some s ∧ J s) : R.Allowed ops := by
  obtain ⟨s, e, _⟩ := h
  unfold Rules.Allowed
  rw [e]; rfl

namespace Tree

theorem go {im : Bool} {s s1 : List Node} {r : Option (List Node)} {o : Op} {os : List Op} (h : step im s o = some s1)
    (h' : (Tree im).run s1 os = r) : (Tree im).run s (o :: os) = r := (Rules.run_cons (R := Tree im) h).trans h'

theorem Calm.init (Q : Perm → Prop) : Calm 1 Q [⟨0, [], fun _ => .active⟩] 1 ∧ Derived 1 [⟨0, [], fun _ => .active⟩] 0 ∧
    IsBox [⟨0, [], fun _ => .active⟩] 0 := by
  refine ⟨⟨?_, ?_, ?_, ?_⟩, ⟨_, rfl, ?_⟩, ⟨_, rfl, ?_⟩⟩
  · intro m hm; rcases List.mem_singleton.1 hm with rfl; exact ⟨Nat.one_pos, fun j hj => by cases hj⟩
  · intro m hm; rcases List.mem_singleton.1 hm with rfl; exact .inr (.inr ⟨rfl, Nat.one_pos⟩)
  · intro m hm _; rcases List.mem_singleton.1 hm with rfl; exact .inr rfl
  · intro m hm hk; rcases List.mem_singleton.1 hm with rfl; exact absurd hk (by decide)
  · intro j hj; exact .inl (Nat.lt_one_iff.1 hj)
  · intro m hm _ _; rcases List.mem_singleton.1 hm with rfl; exact .inr rfl

/-- Moving the box while no other pointer is in use. -/
theorem Calm.trunkMove {Q : Perm → Prop} {s : List Node} {t : Tag} (h : Calm (t + 1) Q s (t + 1)) (hQ : Quiet Q) (hd : Derived (t + 1) s t)
    (hb : IsBox s t) (im : Bool) :
    ∃ s', step im s (.move t (t + 1)) = some s' ∧ Calm (t + 2) Q s' (t + 2) ∧ Derived (t + 2) s' (t + 1) ∧ IsBox s' (t + 1) := by
  obtain ⟨m, hm, hp⟩ := hd
  -- as for any other pointer, with permissions that say nothing
  obtain ⟨c, ⟨m', hm', hp'⟩, _, _, _, _, sb⟩ := (show Calm (t + 1) (fun _ => True) s (t + 1) from ⟨h.lt, h.plain, h.trunk, fun _ _ _ => trivial⟩).push
    (Nat.le_refl _) ⟨m, hm, hp⟩ (f := fun | .plain => .reserved false | .cell => .reserved im) (.inl rfl) trivial hm
  have hbox : ∀ l, ∃ i, (fun | Loc.plain => Perm.reserved false | .cell => .reserved im : Loc → Perm) l = .reserved i := by
    intro l; cases l
    · exact ⟨false, rfl⟩
    · exact ⟨im, rfl⟩
  have c' : Calm (t + 2) Q (⟨t + 1, t :: m.path, fun | .plain => .reserved false | .cell => .reserved im⟩ :: s) (t + 2) := by
    refine ⟨c.lt, ?_, ?_, ?_⟩
    · intro x hx
      rcases c.plain x hx with e | e | ⟨e, hl⟩
      · exact .inl e
      · exact .inr (.inl e)
      · exact .inr (.inr ⟨e, Nat.lt_succ_of_lt hl⟩)
    · intro x hx hl
      rcases List.mem_cons.1 hx with rfl | hx
      · exact .inl ⟨im, rfl⟩
      · exact h.trunk x hx (h.lt x hx).1
    · intro x hx hl
      exact absurd (c.lt x hx).1 (Nat.not_lt.2 hl)
  have d' : Derived (t + 2) (⟨t + 1, t :: m.path, fun | .plain => .reserved false | .cell => .reserved im⟩ :: s) (t + 1) := by
    refine ⟨m', hm', fun j hj => ?_⟩
    rcases Nat.lt_succ_iff_lt_or_eq.1 hj with hj | rfl
    · exact hp' j hj
    · exact .inl rfl
  refine ⟨_, ?_, c', d', sb hbox hb⟩
  simp only [step, hm]
  exact (congrArg (fun o => Option.bind o (access false (t + 1) .cell)) (c'.read hQ d' .plain)).trans (c'.read hQ d' .cell)

/-- As long as there is only the trunk, nothing else can be in the way. -/
theorem Calm.sharedTrunk {k : Tag} {Q : Perm → Prop} {s : List Node} {t : Tag} (h : Calm k Q s k) (hd : Derived k s t) : Shared k s t := by
  obtain ⟨m, hm, _⟩ := hd
  exact ⟨m, hm, fun x hx _ hk => absurd (h.lt x hx).1 (Nat.not_lt.2 hk)⟩

/-- A reference is made from a pointer and read. -/
theorem Calm.peek {k : Tag} {Q : Perm → Prop} {s : List Node} {n old : Tag} (h : Calm k Q s n) (hQ : Quiet Q) (hk : k ≤ n) (hc : Q .cell)
    (hd : Derived k s old) (im : Bool) (l : Loc) :
    ∃ s', (Tree im).run s [.share old n, .read n l] = some s' ∧ Keeps k Q s s' n (n + 1) := by
  obtain ⟨s1, e1, K1, d1, _⟩ := h.share hQ hk hc hd im
  exact ⟨s1, go e1 (go (K1.calm.read hQ d1 l) rfl), K1⟩

/-- A reference is made from a shared reference and used to write. -/
theorem Calm.poke {k : Tag} {Q : Perm → Prop} {s : List Node} {n old : Tag} (h : Calm k Q s n) (hQ : ∀ p, Q p → p = .cell ∨ p = .reserved true)
    (hk : k ≤ n) (hc : Q .cell) (hd : Derived k s old) (hs : Shared k s old) (im : Bool) :
    ∃ s', (Tree im).run s [.share old n, .write n .cell] = some s' ∧ Keeps k Q s s' n (n + 1) := by
  have hQ' : Quiet Q := fun p hp => (hQ p hp).imp id fun e => ⟨true, e⟩
  obtain ⟨s1, e1, K1, d1, sh1⟩ := h.share hQ' hk hc hd im
  obtain ⟨s2, e2, K2⟩ := K1.calm.write hQ d1 (sh1 hs)
  refine ⟨s2, go e1 (go e2 rfl), K2.calm, fun t ht => K2.derived t (K1.derived t ht),
    fun t ht hh => K2.shared t (Nat.lt_succ_of_lt ht) (K1.shared t ht hh), fun t ht hh => K2.box t (Nat.lt_succ_of_lt ht) (K1.box t ht hh)⟩

/-! ### `Intern` -/

def Ref (s : List Node) (n t : Tag) : Prop := Calm 3 (· = .cell) s n ∧ 3 ≤ n ∧ Derived 3 s t ∧ Shared 3 s t

theorem quietCell : Quiet (· = .cell) := fun _ h => .inl h

theorem Ref.share {s : List Node} {n old : Tag} (h : Ref s n old) (im : Bool) :
    ∃ s', step im s (.share old n) = some s' ∧ Ref s' (n + 1) n ∧ ∀ t, Ref s n t → Ref s' (n + 1) t := by
  obtain ⟨hc, hn, hd, hs⟩ := h
  obtain ⟨s1, e1, K1, d1, sh1⟩ := hc.share quietCell hn rfl hd im
  exact ⟨s1, e1, ⟨K1.calm, Nat.le_succ_of_le hn, d1, sh1 hs⟩, fun t ⟨_, _, dt, st⟩ =>
    ⟨K1.calm, Nat.le_succ_of_le hn, K1.derived t dt, K1.shared t (Derived.lt hc dt) st⟩⟩

theorem sharing (im : Bool) : Sharing (Tree im) Ref where
  first := by
    obtain ⟨c0, d0, b0⟩ := Calm.init (· = .cell)
    obtain ⟨s1, e1, c1, d1, b1⟩ := c0.trunkMove quietCell d0 b0 im
    obtain ⟨s2, e2, c2, d2, _⟩ := c1.trunkMove quietCell d1 b1 im
    obtain ⟨s3, e3, r3, _⟩ := Ref.share (n := 3) ⟨c2, Nat.le_refl _, d2, c2.sharedTrunk d2⟩ im
    obtain ⟨s4, e4, r4, k4⟩ := r3.share im
    obtain ⟨s5, e5, r5, k5⟩ := (k4 3 r3).share im
    exact ⟨s5, go e1 (go e2 (go e3 (go e4 (go e5 rfl)))), k5 4 r4, r5⟩
  share h := h.share im
  read {s n t} h := ⟨s, h.1.read quietCell h.2.2.1 .plain, fun _ hu => hu⟩
  write {s n t} h := by
    obtain ⟨hc, hn, hd, hs⟩ := h
    obtain ⟨s', e, K⟩ := hc.write (fun _ h => .inl h) hd hs
    exact ⟨s', e, fun u ⟨_, _, du, su⟩ => ⟨K.calm, hn, K.derived u du, K.shared u (Derived.lt hc du) su⟩⟩

/-! ### `Arena` -/

def Mild (p : Perm) : Prop := p = .cell ∨ ∃ im, p = .reserved im

theorem mildQuiet : Quiet Mild := fun _ h => h

/-- The table has a box, the handles are pointers derived from the trunk. -/
def ArenaInv (s : List Node) (c : Ctl) : Prop :=
  c.gone = true ∨ (c = .start ∧ s = (Tree true).init) ∨
    (c.gone = false ∧ ∃ t, c.table = some t ∧ Calm 2 Mild s c.next ∧ 2 ≤ c.next ∧ Derived 2 s t ∧ IsBox s t ∧ ∀ h ∈ c.handles, Derived 2 s h)

theorem arena {im : Bool} {ops : List Op} {c : Ctl} (h : Hist (arenaProg.only fun _ a => match a with | .set _ => false | _ => true) ops c) :
    (Tree im).Allowed ops := by
  refine Rules.allowed_of (h.allowed (R := Tree im) (J := ArenaInv) (.inr (.inl ⟨rfl, rfl⟩)) ?_)
  intro s c a new c' j ha
  have ha : arenaProg c a = some (new, c') ∧ ∀ h, a ≠ .set h := by
    unfold Prog.only at ha
    split at ha
    · next hok => exact ⟨ha, by rintro h rfl; cases hok⟩
    · cases ha
  obtain ⟨ha, hns⟩ := ha
  unfold arenaProg at ha
  rcases j with hg | ⟨rfl, rfl⟩ | ⟨hg, t, ht, hc, hn, hd, hb, hh⟩
  · rw [if_pos hg] at ha; cases ha
  · cases a with
    | intern =>
      cases ha
      obtain ⟨c0, d0, b0⟩ := Calm.init Mild
      obtain ⟨s1, e1, c1, d1, b1⟩ := c0.trunkMove mildQuiet d0 b0 im
      obtain ⟨s2, e2, K2, d2, _⟩ := c1.share mildQuiet (Nat.le_refl 2) (.inl rfl) d1 im
      obtain ⟨s3, e3, K3, d3, b3⟩ := K2.calm.move mildQuiet (by decide : 2 ≤ 3) (im := im) (.inr ⟨im, rfl⟩) (K2.derived 1 d1)
      have b3 := b3 (K2.box 1 (by decide) b1)
      obtain ⟨s4, e4, K4, d4, _⟩ := K3.calm.share mildQuiet (by decide : 2 ≤ 4) (.inl rfl) (K3.derived 2 d2) im
      refine ⟨s4, go e1 (go e2 (go e3 (go e4 rfl))), .inr (.inr ⟨rfl, 3, rfl, K4.calm, by decide, K4.derived 3 d3, K4.box 3 (by decide) b3, ?_⟩)⟩
      intro u hu
      rcases List.mem_singleton.1 hu with rfl
      exact d4
    | look => cases ha
    | grow => cases ha
    | copy h => cases ha
    | deref h => cases ha
    | set h => cases ha
    | refcount h => cases ha
    | drop h => cases ha
    | dropArena => cases ha
  · rw [if_neg (by rw [hg]; decide)] at ha
    have ltt := Derived.lt hc hd
    cases a with
    | intern =>
      simp only [ht] at ha
      cases ha
      obtain ⟨s1, e1, K1, d1, _⟩ := hc.share mildQuiet hn (.inl rfl) hd im
      have e2 := K1.calm.read mildQuiet d1 .plain
      obtain ⟨s3, e3, K3, d3, _⟩ := K1.calm.share mildQuiet (Nat.le_succ_of_le hn) (.inl rfl) (K1.derived t hd) im
      obtain ⟨s4, e4, K4, d4, _⟩ := K3.calm.share mildQuiet (Nat.le_succ_of_le (Nat.le_succ_of_le hn)) (.inl rfl) d3 im
      refine ⟨s4, go e1 (go e2 (go e3 (go e4 rfl))), .inr (.inr ⟨hg, t, rfl, K4.calm, Nat.le_trans hn (Nat.le_add_right _ 3),
        K4.derived t (K3.derived t (K1.derived t hd)), K4.box t (Nat.lt_succ_of_lt (Nat.lt_succ_of_lt ltt)) (K3.box t (Nat.lt_succ_of_lt ltt) (K1.box t ltt hb)), fun u hu => ?_⟩)⟩
      rcases List.mem_cons.1 hu with rfl | hu
      · exact d4
      · exact K4.derived u (K3.derived u (K1.derived u (hh u hu)))
    | look =>
      simp only [ht, Alias.peek] at ha
      cases ha
      obtain ⟨s', e, K⟩ := hc.peek mildQuiet hn (.inl rfl) hd im .plain
      exact ⟨s', e, .inr (.inr ⟨hg, t, rfl, K.calm, Nat.le_succ_of_le hn, K.derived t hd, K.box t ltt hb, fun u hu => K.derived u (hh u hu)⟩)⟩
    | grow =>
      simp only [ht] at ha
      cases ha
      obtain ⟨s', e, K, d, b⟩ := hc.move mildQuiet hn (im := im) (.inr ⟨im, rfl⟩) hd
      exact ⟨s', go e rfl, .inr (.inr ⟨hg, _, rfl, K.calm, Nat.le_succ_of_le hn, d, b hb, fun u hu => K.derived u (hh u hu)⟩)⟩
    | copy h =>
      simp only [] at ha
      split at ha <;> cases ha
      next hm =>
      obtain ⟨s', e, K, d, _⟩ := hc.share mildQuiet hn (.inl rfl) (hh h hm) im
      refine ⟨s', go e rfl, .inr (.inr ⟨hg, t, ht, K.calm, Nat.le_succ_of_le hn, K.derived t hd, K.box t ltt hb, fun u hu => ?_⟩)⟩
      rcases List.mem_cons.1 hu with rfl | hu
      · exact d
      · exact K.derived u (hh u hu)
    | deref h =>
      simp only [Alias.peek] at ha
      split at ha <;> cases ha
      next hm =>
      obtain ⟨s', e, K⟩ := hc.peek mildQuiet hn (.inl rfl) (hh h (of_decide_eq_true hm)) im .plain
      exact ⟨s', e, .inr (.inr ⟨hg, t, ht, K.calm, Nat.le_succ_of_le hn, K.derived t hd, K.box t ltt hb, fun u hu => K.derived u (hh u hu)⟩)⟩
    | set h => exact (hns h rfl).elim
    | refcount h => cases ha
    | drop h => cases ha
    | dropArena =>
      simp only [ht] at ha
      cases ha
      exact ⟨[], go (hb.free im) rfl, .inl rfl⟩

/-! ### `ArcIntern`, without hits, lenient variant -/

def Lenient (p : Perm) : Prop := p = .cell ∨ p = .reserved true

theorem lenientQuiet : Quiet Lenient := fun _ h => h.imp id fun e => ⟨true, e⟩

/-- The table has a box, the handles are shared references. -/
def ArcInv (s : List Node) (c : Ctl) : Prop :=
  c.gone = true ∨ (c = .start ∧ s = (Tree true).init) ∨
    (c.gone = false ∧ ∃ t, c.table = some t ∧ Calm 3 Lenient s c.next ∧ 3 ≤ c.next ∧ Derived 3 s t ∧ IsBox s t ∧
      ∀ h ∈ c.handles, Derived 3 s h ∧ Shared 3 s h)

theorem arcOnce {ops : List Op} {c : Ctl} (h : Hist (arcProg.only fun c a => match a with | .intern => c.table.isNone | _ => true) ops c) :
    (Tree true).Allowed ops := by
  refine Rules.allowed_of (h.allowed (R := Tree true) (J := ArcInv) (.inr (.inl ⟨rfl, rfl⟩)) ?_)
  intro s c a new c' j ha
  have ha : arcProg c a = some (new, c') ∧ (a = .intern → c.table = none) := by
    unfold Prog.only at ha
    split at ha
    · next hok => exact ⟨ha, by rintro rfl; simpa using hok⟩
    · cases ha
  obtain ⟨ha, hns⟩ := ha
  unfold arcProg at ha
  rcases j with hg | ⟨rfl, rfl⟩ | ⟨hg, t, ht, hc, hn, hd, hb, hh⟩
  · rw [if_pos hg] at ha; cases ha
  · cases a with
    | intern =>
      cases ha
      obtain ⟨c0, d0, b0⟩ := Calm.init Lenient
      obtain ⟨s1, e1, c1, d1, b1⟩ := c0.trunkMove lenientQuiet d0 b0 true
      obtain ⟨s2, e2, c2, d2, b2⟩ := c1.trunkMove lenientQuiet d1 b1 true
      obtain ⟨s3, e3, K3, d3, sh3⟩ := c2.share lenientQuiet (Nat.le_refl 3) (.inl rfl) d2 true
      have sh3 := sh3 (c2.sharedTrunk d2)
      obtain ⟨s4, e4, K4, d4, b4⟩ := K3.calm.move lenientQuiet (by decide : 3 ≤ 4) (im := true) (.inr rfl) (K3.derived 2 d2)
      have b4 := b4 (K3.box 2 (by decide) b2)
      refine ⟨s4, go e1 (go e2 (go e3 (go e4 rfl))), .inr (.inr ⟨rfl, 4, rfl, K4.calm, by decide, d4, b4, ?_⟩)⟩
      intro u hu
      rcases List.mem_singleton.1 hu with rfl
      exact ⟨K4.derived _ d3, K4.shared _ (by decide) sh3⟩
    | look => cases ha
    | grow => cases ha
    | copy h => cases ha
    | deref h => cases ha
    | set h => cases ha
    | refcount h => cases ha
    | drop h => cases ha
    | dropArena => cases ha
  · rw [if_neg (by rw [hg]; decide)] at ha
    have ltt := Derived.lt hc hd
    have keep : ∀ {s' : List Node} {n' : Tag}, Keeps 3 Lenient s s' c.next n' → ∀ u ∈ c.handles, Derived 3 s' u ∧ Shared 3 s' u :=
      fun K u hu => ⟨K.derived u (hh u hu).1, K.shared u (Derived.lt hc (hh u hu).1) (hh u hu).2⟩
    cases a with
    | intern => rw [hns rfl] at ht; cases ht
    | look =>
      simp only [ht, Alias.peek] at ha
      cases ha
      obtain ⟨s', e, K⟩ := hc.peek lenientQuiet hn (.inl rfl) hd true .plain
      exact ⟨s', e, .inr (.inr ⟨hg, t, rfl, K.calm, Nat.le_succ_of_le hn, K.derived t hd, K.box t ltt hb, keep K⟩)⟩
    | grow =>
      simp only [ht] at ha
      cases ha
      obtain ⟨s', e, K, d, b⟩ := hc.move lenientQuiet hn (im := true) (.inr rfl) hd
      exact ⟨s', go e rfl, .inr (.inr ⟨hg, _, rfl, K.calm, Nat.le_succ_of_le hn, d, b hb, keep K⟩)⟩
    | copy h =>
      simp only [] at ha
      split at ha <;> cases ha
      next hm =>
      obtain ⟨s', e, K⟩ := hc.poke (fun _ h => h) hn (.inl rfl) (hh h hm).1 (hh h hm).2 true
      refine ⟨s', e, .inr (.inr ⟨hg, t, ht, K.calm, Nat.le_succ_of_le hn, K.derived t hd, K.box t ltt hb, fun u hu => ?_⟩)⟩
      rcases List.mem_cons.1 hu with rfl | hu
      · exact keep K _ hm
      · exact keep K u hu
    | deref h =>
      simp only [Alias.peek] at ha
      split at ha <;> cases ha
      next hm =>
      obtain ⟨s', e, K⟩ := hc.peek lenientQuiet hn (.inl rfl) (hh h (of_decide_eq_true hm)).1 true .plain
      exact ⟨s', e, .inr (.inr ⟨hg, t, ht, K.calm, Nat.le_succ_of_le hn, K.derived t hd, K.box t ltt hb, keep K⟩)⟩
    | set h => cases ha
    | refcount h =>
      simp only [] at ha
      split at ha <;> cases ha
      next hm =>
      obtain ⟨s', e, K⟩ := hc.peek lenientQuiet hn (.inl rfl) (hh h hm).1 true .cell
      exact ⟨s', e, .inr (.inr ⟨hg, t, ht, K.calm, Nat.le_succ_of_le hn, K.derived t hd, K.box t ltt hb, keep K⟩)⟩
    | drop h =>
      simp only [] at ha
      split at ha
      · next hm =>
        obtain ⟨s1, e1, K1⟩ := hc.poke (fun _ h => h) hn (.inl rfl) (hh h hm).1 (hh h hm).2 true
        split at ha
        · next t' _ ht' =>
          rw [ht] at ht'
          cases ht'
          cases ha
          obtain ⟨s2, e2, K2⟩ := K1.calm.peek lenientQuiet (Nat.le_succ_of_le hn) (.inl rfl) (K1.derived t hd) true .plain
          obtain ⟨s3, e3, K3, d3, b3⟩ := K2.calm.move lenientQuiet (Nat.le_succ_of_le (Nat.le_succ_of_le hn)) (im := true) (.inr rfl)
            (K2.derived t (K1.derived t hd))
          have b3 := b3 (K2.box t (Nat.lt_succ_of_lt ltt) (K1.box t ltt hb))
          refine ⟨[], ?_, .inl rfl⟩
          show (Tree true).run s ([.share h c.next, .write c.next .cell] ++ ([.share t (c.next + 1), .read (c.next + 1) .plain] ++ _)) = _
          rw [Rules.run_append, e1]
          show (Tree true).run s1 _ = _
          rw [Rules.run_append, e2]
          exact go e3 (go (b3.free true) rfl)
        · cases ha
          exact ⟨s1, e1, .inr (.inr ⟨hg, t, ht, K1.calm, Nat.le_succ_of_le hn, K1.derived t hd, K1.box t ltt hb,
            fun u hu => keep K1 u (List.mem_of_mem_erase hu)⟩)⟩
      · cases ha
    | dropArena => cases ha

end Tree
end Alias
