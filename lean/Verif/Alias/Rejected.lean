import Verif.Alias.Progs
/-!
What the rules reject, for C69.
-/
namespace Alias

/-! ### `Arena` -/

theorem arenaNone {R : Rules} (hR : R.run R.init [.move 0 1, .share 1 2, .move 1 3, .share 2 4] = none) {ops : List Op} {c : Ctl}
    (h : Hist arenaProg ops c) : (ops = [] ∧ c = .start) ∨ R.run R.init ops = none := by
  induction h with
  | start => exact .inl ⟨rfl, rfl⟩
  | @act ops0 c0 a new c' _ ha ih =>
    right
    rcases ih with ⟨rfl, rfl⟩ | ih
    · cases a with
      | intern => cases ha; exact hR
      | look => cases ha
      | grow => cases ha
      | copy h => cases ha
      | deref h => cases ha
      | set h => cases ha
      | refcount h => cases ha
      | drop h => cases ha
      | dropArena => cases ha
    · rw [R.run_append, ih]; rfl

/-! ### `ArcIntern` under the rules that know unusable pointers -/

/-- The tag of the pointer an operation makes. -/
def Op.makes : Op → Option Tag
  | .move _ n | .share _ n => some n
  | _ => none

theorem arcProg_next {c : Ctl} {a : Act} {new : List Op} {c' : Ctl} (h : arcProg c a = some (new, c')) :
    c.next < c'.next ∧ ∀ o ∈ new, ∀ n, o.makes = some n → c.next ≤ n := by
  have one : ∀ {l : List Op}, (∀ o ∈ l, ∀ n, o.makes = some n → c.next ≤ n) ↔
      l.all (fun o => match o.makes with | none => true | some n => decide (c.next ≤ n)) = true := by
    intro l
    rw [List.all_eq_true]
    constructor
    · intro h o ho
      cases hm : o.makes with
      | none => rfl
      | some n => simpa using h o ho n hm
    · intro h o ho n hn
      have := h o ho
      rw [hn] at this
      simpa using this
  rw [one]
  unfold arcProg at h
  split at h
  · cases h
  · cases a with
    | intern => simp only at h; split at h <;> cases h <;> simp [Op.makes, List.all] <;> omega
    | look => simp only at h; split at h <;> (try unfold peek at h) <;> cases h <;> simp [Op.makes, List.all]
    | grow => simp only at h; split at h <;> cases h <;> simp [Op.makes, List.all]
    | copy u => simp only at h; split at h <;> cases h <;> simp [Op.makes, List.all]
    | deref u => simp only [peek] at h; split at h <;> cases h <;> simp [Op.makes, List.all]
    | set u => cases h
    | refcount u => simp only at h; split at h <;> cases h <;> simp [Op.makes, List.all]
    | drop u =>
      simp only at h
      split at h
      · split at h <;> cases h <;> simp [Op.makes, List.all] <;> omega
      · cases h
    | dropArena => cases h

/-- Rules under which pointer 3 cannot be used again (`N`). -/
structure Dead (R : Rules) (N : R.St → Prop) : Prop where
  first : ∃ s, R.run R.init [.move 0 1, .move 1 2, .share 2 3, .move 2 4] = some s ∧ N s
  step : ∀ {s s' o}, N s → o.makes ≠ some firstHandle → R.step s o = some s' → N s'
  no : ∀ {s n}, N s → R.step s (.share firstHandle n) = none

theorem Dead.run {R : Rules} {N : R.St → Prop} (H : Dead R N) {s s' : R.St} {os : List Op} (hs : N s)
    (ho : ∀ o ∈ os, o.makes ≠ some firstHandle) (hr : R.run s os = some s') : N s' := by
  induction os generalizing s with
  | nil => cases hr; exact hs
  | cons o os ih =>
    obtain ⟨s1, e, hr⟩ := Rules.run_cons_some hr
    exact ih (H.step hs (ho o List.mem_cons_self) e) (fun p hp => ho p (List.mem_cons_of_mem _ hp)) hr

/-- The actions that use the handle of the call that stored the value. -/
def Act.usesFirst (a : Act) : Prop := a = .copy firstHandle ∨ a = .deref firstHandle ∨ a = .refcount firstHandle ∨ a = .drop firstHandle

theorem Dead.arc {R : Rules} {N : R.St → Prop} (H : Dead R N) {ops new : List Op} {c c' : Ctl} {a : Act} (h : Hist arcProg ops c)
    (ha : arcProg c a = some (new, c')) (hu : a.usesFirst) : ¬ R.Allowed (ops ++ new) := by
  intro hal
  have inv : ∀ {s : R.St}, R.run R.init ops = some s → (s = R.init ∧ c = .start) ∨ (N s ∧ 5 ≤ c.next) := by
    intro s hs
    refine h.holds (R := R) (J := fun s c => (s = R.init ∧ c = .start) ∨ (N s ∧ 5 ≤ c.next)) (.inl ⟨rfl, rfl⟩) ?_ hs
    intro s s' c a new c' j ha hr
    right
    rcases j with ⟨rfl, rfl⟩ | ⟨hN, hn⟩
    · cases a with
      | intern =>
        cases ha
        obtain ⟨s1, e1, n1⟩ := H.first
        have : some s1 = some s' := e1.symm.trans hr
        cases this
        exact ⟨n1, Nat.le_refl 5⟩
      | look => cases ha
      | grow => cases ha
      | copy h => cases ha
      | deref h => cases ha
      | set h => cases ha
      | refcount h => cases ha
      | drop h => cases ha
      | dropArena => cases ha
    · obtain ⟨hlt, hm⟩ := arcProg_next ha
      refine ⟨H.run hN (fun o ho e => ?_) hr, Nat.le_trans hn (Nat.le_of_lt hlt)⟩
      have := Nat.le_trans hn (hm o ho _ e)
      exact absurd this (by decide)
  unfold Rules.Allowed at hal
  rw [R.run_append] at hal
  cases hr : R.run R.init ops with
  | none => rw [hr] at hal; cases hal
  | some s =>
    rw [hr] at hal
    replace hal : (R.run s new).isSome = true := hal
    rcases inv hr with ⟨rfl, rfl⟩ | ⟨hN, _⟩
    · rcases hu with rfl | rfl | rfl | rfl <;> cases ha
    · have key : ∃ n os, new = .share firstHandle n :: os := by
        unfold arcProg at ha
        split at ha
        · cases ha
        · rcases hu with rfl | rfl | rfl | rfl
          · simp only at ha; split at ha <;> cases ha; exact ⟨_, _, rfl⟩
          · simp only [peek] at ha; split at ha <;> cases ha; exact ⟨_, _, rfl⟩
          · simp only at ha; split at ha <;> cases ha; exact ⟨_, _, rfl⟩
          · simp only at ha
            split at ha
            · split at ha <;> cases ha <;> exact ⟨_, _, rfl⟩
            · cases ha
      obtain ⟨n, os, rfl⟩ := key
      rw [R.run_none (H.no hN)] at hal
      cases hal

namespace Documented

def No3 (s : List Pointer) : Prop := ∀ p ∈ s, p.tag = firstHandle → p.live = false

theorem use_some {s s' : List Pointer} {t : Tag} {f : Pointer → List Pointer} (h : use s t f = some s') :
    ∃ p, s' = f p := by
  unfold use at h
  split at h
  · cases h
  · split at h <;> cases h
    exact ⟨_, rfl⟩

theorem dead : Dead Documented No3 where
  first := ⟨_, rfl, by unfold No3; decide⟩
  step {s s' o} hN hm hs := by
    cases o with
    | move old new =>
      obtain ⟨p, rfl⟩ := use_some hs
      intro q hq ht
      rcases List.mem_cons.1 hq with rfl | hq
      · exact absurd (congrArg some ht) hm
      · obtain ⟨r, hr, rfl⟩ := List.mem_map.1 hq
        have ht : r.tag = firstHandle := by
          unfold kill at ht; split at ht <;> exact ht
        have := hN r hr ht
        unfold kill
        split
        · rfl
        · exact this
    | share old new =>
      obtain ⟨p, rfl⟩ := use_some hs
      intro q hq ht
      rcases List.mem_cons.1 hq with rfl | hq
      · exact absurd (congrArg some ht) hm
      · exact hN q hq ht
    | read t l => obtain ⟨p, rfl⟩ := use_some hs; exact hN
    | write t l => obtain ⟨p, rfl⟩ := use_some hs; exact hN
    | free t => obtain ⟨p, rfl⟩ := use_some hs; exact fun q hq => by cases hq
  no {s n} hN := by
    show use s firstHandle _ = none
    unfold use
    split
    · rfl
    · next p hp =>
      have := hN p (List.mem_of_find?_eq_some hp) (by simpa using List.find?_some hp)
      rw [if_neg (by rw [this]; decide)]

end Documented

namespace Stacked

def No3 (s : St) : Prop := ∀ i ∈ s.cell, i.tag ≠ firstHandle

theorem readAt_tags {t : Tag} {s s' : List Item} (h : readAt t s = some s') : ∀ i ∈ s', ∃ j ∈ s, j.tag = i.tag := by
  induction s generalizing s' with
  | nil => cases h
  | cons i s ih =>
    unfold readAt at h
    split at h
    · cases h; exact fun i hi => ⟨i, hi, rfl⟩
    · cases h1 : readAt t s with
      | none => rw [h1] at h; cases h
      | some s1 =>
        rw [h1] at h
        cases h
        intro j hj
        rcases List.mem_cons.1 hj with rfl | hj
        · exact ⟨i, List.mem_cons_self, by unfold Item.disable; split <;> rfl⟩
        · obtain ⟨k, hk, e⟩ := ih h1 j hj
          exact ⟨k, List.mem_cons_of_mem _ hk, e⟩

theorem writeAt_tags {t : Tag} {s s' above : List Item} (h : writeAt t above s = some s') : ∀ i ∈ s', i ∈ above ∨ i ∈ s := by
  induction s generalizing above with
  | nil => cases h
  | cons i s ih =>
    unfold writeAt at h
    split at h
    · cases h
      intro j hj
      rcases List.mem_append.1 hj with hj | hj
      · split at hj
        · exact .inl (List.takeWhile_subset _ (List.mem_reverse.1 hj))
        · cases hj
      · exact .inr hj
    · intro j hj
      rcases ih h j hj with hj | hj
      · rcases List.mem_cons.1 hj with rfl | hj
        · exact .inr List.mem_cons_self
        · exact .inl hj
      · exact .inr (List.mem_cons_of_mem _ hj)

theorem insertRW_tags {t new : Tag} {s s' : List Item} (h : insertRW t new s = some s') : ∀ i ∈ s', i.tag = new ∨ i ∈ s := by
  induction s generalizing s' with
  | nil => cases h
  | cons i s ih =>
    unfold insertRW at h
    split at h
    · cases h
      intro j hj
      rcases List.mem_cons.1 hj with rfl | hj
      · exact .inl rfl
      · exact .inr hj
    · cases h1 : insertRW t new s with
      | none => rw [h1] at h; cases h
      | some s1 =>
        rw [h1] at h
        cases h
        intro j hj
        rcases List.mem_cons.1 hj with rfl | hj
        · exact .inr List.mem_cons_self
        · exact (ih h1 j hj).imp id (List.mem_cons_of_mem _)

theorem insertRW_none {t new : Tag} {s : List Item} (h : ∀ i ∈ s, i.tag ≠ t) : insertRW t new s = none := by
  induction s with
  | nil => rfl
  | cons i s ih =>
    have : i.grants true t = false := by simp [Item.grants, h i List.mem_cons_self]
    simp only [insertRW, this, ih fun j hj => h j (List.mem_cons_of_mem _ hj)]
    rfl

theorem bind_some {α β : Type} {x : Option α} {f : α → Option β} {b : β} (h : x.bind f = some b) : ∃ a, x = some a ∧ f a = some b := by
  cases x with
  | none => cases h
  | some a => exact ⟨a, rfl, h⟩

theorem map_some {α β : Type} {x : Option α} {f : α → β} {b : β} (h : x.map f = some b) : ∃ a, x = some a ∧ f a = b := by
  cases x with
  | none => cases h
  | some a => cases h; exact ⟨a, rfl, rfl⟩

theorem dead : Dead Stacked No3 where
  first := ⟨_, rfl, by unfold No3; decide⟩
  step {s s' o} hN hm hs := by
    have hw : ∀ {t : Tag} {c : List Item}, writeAt t [] s.cell = some c → ∀ i ∈ c, i.tag ≠ firstHandle := by
      intro t c hc i hi
      rcases writeAt_tags hc i hi with h | h
      · cases h
      · exact hN i h
    cases o with
    | move old new =>
      obtain ⟨p, _, hs⟩ := bind_some hs
      obtain ⟨c, hc, rfl⟩ := map_some hs
      intro i hi
      rcases List.mem_cons.1 hi with rfl | hi
      · exact fun e => hm (congrArg some e)
      · exact hw hc i hi
    | share old new =>
      obtain ⟨p, _, hs⟩ := bind_some hs
      obtain ⟨c, hc, rfl⟩ := map_some hs
      intro i hi
      rcases insertRW_tags hc i hi with h | h
      · exact fun e => hm (congrArg some (h.symm.trans e))
      · exact hN i h
    | read t l =>
      cases l with
      | plain => obtain ⟨c, hc, rfl⟩ := map_some hs; exact hN
      | cell =>
        obtain ⟨c, hc, rfl⟩ := map_some hs
        intro i hi
        obtain ⟨j, hj, e⟩ := readAt_tags hc i hi
        rw [← e]; exact hN j hj
    | write t l =>
      cases l with
      | plain => obtain ⟨c, hc, rfl⟩ := map_some hs; exact hN
      | cell => obtain ⟨c, hc, rfl⟩ := map_some hs; exact hw hc
    | free t =>
      obtain ⟨p, _, hs⟩ := bind_some hs
      obtain ⟨c, hc, rfl⟩ := map_some hs
      exact fun i hi => by cases hi
  no {s n} hN := by
    show (readAt firstHandle s.plain).bind _ = none
    cases readAt firstHandle s.plain with
    | none => rfl
    | some p =>
      show (insertRW firstHandle n s.cell).map _ = none
      rw [insertRW_none hN]; rfl

end Stacked

/-! ### `ArcIntern` under Tree Borrows -/
namespace Tree

/-- `m'` is the same pointer as `m`, later. A write through other pointers disables it if it would have before, and it stays disabled. -/
def Later (m m' : Node) : Prop := m'.tag = m.tag ∧ m'.path = m.path ∧
  ((m.perm .cell).foreign true = .disabled → (m'.perm .cell).foreign true = .disabled) ∧ (m.perm .cell = .disabled → m'.perm .cell = .disabled)

theorem Later.refl (m : Node) : Later m m := ⟨rfl, rfl, id, id⟩

theorem Later.trans {a b c : Node} (h : Later a b) (h' : Later b c) : Later a c :=
  ⟨h'.1.trans h.1, h'.2.1.trans h.2.1, fun x => h'.2.2.1 (h.2.2.1 x), fun x => h'.2.2.2 (h.2.2.2 x)⟩

theorem see_later {w : Bool} {l : Loc} {m n n' : Node} (h : Node.see w l m n = some n') : Later n n' := by
  cases ho : on m n with
  | true =>
    cases hc : (n.perm l).child w with
    | none =>
      have h' : (n.tag == m.tag || m.path.contains n.tag) = true := ho
      unfold Node.see at h
      rw [if_pos h', hc] at h
      cases h
    | some q =>
      rw [Node.see_child ho hc] at h
      cases h
      refine ⟨rfl, rfl, ?_, ?_⟩
      · cases l with
        | plain => exact id
        | cell =>
          show _ → q.foreign true = _
          intro hw
          cases hp : n.perm .cell with
          | cell => rw [hp] at hw; cases hw
          | disabled => rw [hp] at hc; cases hc
          | frozen => rw [hp] at hc; cases w <;> cases hc; rfl
          | active => rw [hp] at hc; cases hc; rfl
          | reserved im =>
            rw [hp] at hc hw
            cases w with
            | true => cases hc; rfl
            | false => cases hc; exact hw
      · cases l with
        | plain => exact id
        | cell =>
          intro hd
          rw [hd] at hc; cases hc
  | false =>
    rw [Node.see_foreign ho] at h
    cases h
    refine ⟨rfl, rfl, ?_, ?_⟩
    · cases l with
      | plain => exact id
      | cell =>
        show _ → ((n.perm .cell).foreign w).foreign true = _
        intro hw
        cases hp : n.perm .cell with
        | cell => rw [hp] at hw; cases hw
        | disabled => rfl
        | frozen => cases w <;> rfl
        | active => cases w <;> rfl
        | reserved im =>
          cases im with
          | true => rw [hp] at hw; cases hw
          | false => cases w <;> rfl
    · cases l with
      | plain => exact id
      | cell => intro hd; show (n.perm .cell).foreign w = _; rw [hd]; rfl

theorem mapM_find {g : Node → Option Node} (hg : ∀ {n n'}, g n = some n' → n'.tag = n.tag) {s s' : List Node} (h : s.mapM g = some s')
    {u : Tag} {m : Node} (hm : find s u = some m) : ∃ m', g m = some m' ∧ find s' u = some m' := by
  induction s generalizing s' with
  | nil => cases hm
  | cons x s ih =>
    rw [List.mapM_cons] at h
    cases hx : g x with
    | none => rw [hx] at h; cases h
    | some x' =>
      rw [hx] at h
      cases hs : s.mapM g with
      | none => rw [hs] at h; cases h
      | some s1 =>
        rw [hs] at h
        cases h
        by_cases hu : x.tag = u
        · subst hu
          rw [find_cons_self] at hm
          cases hm
          refine ⟨x', hx, ?_⟩
          rw [← hg hx]
          exact find_cons_self
        · rw [find_cons_ne (fun e => hu e.symm)] at hm
          obtain ⟨m', e1, e2⟩ := ih hs hm
          exact ⟨m', e1, (find_cons_ne (fun e => hu (by rw [hg hx] at e; exact e.symm))).trans e2⟩

theorem access_find {w : Bool} {t : Tag} {l : Loc} {s s' : List Node} (h : access w t l s = some s') {u : Tag} {m : Node}
    (hm : find s u = some m) : ∃ mt m', find s t = some mt ∧ Node.see w l mt m = some m' ∧ find s' u = some m' := by
  unfold access at h
  split at h
  · cases h
  · next mt hmt =>
    obtain ⟨m', e1, e2⟩ := mapM_find (fun hn => (see_later hn).1) h hm
    exact ⟨mt, m', hmt, e1, e2⟩

theorem access_later {w : Bool} {t : Tag} {l : Loc} {s s' : List Node} (h : access w t l s = some s') {u : Tag} {m : Node}
    (hm : find s u = some m) : ∃ m', find s' u = some m' ∧ Later m m' := by
  obtain ⟨_, m', _, e1, e2⟩ := access_find h hm
  exact ⟨m', e2, see_later e1⟩

def Op.isFree : Op → Bool
  | .free _ => true
  | _ => false

theorem step_later {im : Bool} {s s' : List Node} {o : Op} (h : step im s o = some s') (hf : Op.isFree o = false) {u : Tag} {m : Node}
    (hu : o.makes ≠ some u) (hm : find s u = some m) : ∃ m', find s' u = some m' ∧ Later m m' := by
  cases o with
  | move old new =>
    simp only [step] at h
    split at h
    · cases h
    · next p hp =>
      obtain ⟨s1, h1, h2⟩ := Stacked.bind_some h
      obtain ⟨m1, e1, l1⟩ := access_later h1 ((find_cons_ne fun e => hu (congrArg some e.symm)).trans hm)
      obtain ⟨m2, e2, l2⟩ := access_later h2 e1
      exact ⟨m2, e2, l1.trans l2⟩
  | share old new =>
    simp only [step] at h
    split at h
    · cases h
    · exact access_later h ((find_cons_ne fun e => hu (congrArg some e.symm)).trans hm)
  | read t l => exact access_later h hm
  | write t l => exact access_later h hm
  | free t => cases hf

theorem run_later {im : Bool} {s s' : List Node} {os : List Op} (h : (Tree im).run s os = some s') {u : Tag} {m : Node}
    (ho : ∀ o ∈ os, Op.isFree o = false ∧ o.makes ≠ some u) (hm : find s u = some m) : ∃ m', find s' u = some m' ∧ Later m m' := by
  induction os generalizing s m with
  | nil => cases h; exact ⟨m, hm, .refl m⟩
  | cons o os ih =>
    obtain ⟨s1, e, h⟩ := Rules.run_cons_some (R := Tree im) h
    obtain ⟨m1, e1, l1⟩ := step_later e (ho o List.mem_cons_self).1 (ho o List.mem_cons_self).2 hm
    obtain ⟨m2, e2, l2⟩ := ih h (fun p hp => ho p (List.mem_cons_of_mem _ hp)) e1
    exact ⟨m2, e2, l1.trans l2⟩

/-- A pointer derived from `old`. -/
theorem share_new {im : Bool} {s s' : List Node} {old new : Tag} (h : step im s (.share old new) = some s') :
    ∃ mo m', find s old = some mo ∧ find s' new = some m' ∧ m'.path = old :: mo.path := by
  simp only [step] at h
  split at h
  · cases h
  · next mo hmo =>
    obtain ⟨m', e, l⟩ := access_later h (u := new) find_cons_self
    exact ⟨mo, m', hmo, e, l.2.1⟩

theorem move_new {im : Bool} {s s' : List Node} {old new : Tag} (h : step im s (.move old new) = some s') :
    ∃ mo m', find s old = some mo ∧ find s' new = some m' ∧ m'.path = old :: mo.path := by
  simp only [step] at h
  split at h
  · cases h
  · next mo hmo =>
    obtain ⟨s1, h1, h2⟩ := Stacked.bind_some h
    obtain ⟨m1, e1, l1⟩ := access_later h1 (u := new) find_cons_self
    obtain ⟨m2, e2, l2⟩ := access_later h2 e1
    exact ⟨mo, m2, hmo, e2, l2.2.1.trans l1.2.1⟩

/-- Moving a box whose pointer is disabled, or derived from a disabled one, is not allowed. -/
theorem move_disabled {im : Bool} {s : List Node} {old new u : Tag} {mo mu : Node} (ho : find s old = some mo) (hu : find s u = some mu)
    (hd : mu.perm .cell = .disabled) (hp : old = u ∨ u ∈ mo.path) (hn : new ≠ u) : step im s (.move old new) = none := by
  cases h : step im s (.move old new) with
  | none => rfl
  | some s' =>
    exfalso
    simp only [step, ho] at h
    obtain ⟨s1, h1, h2⟩ := Stacked.bind_some h
    obtain ⟨m1, e1, l1⟩ := access_later h1 (u := new) find_cons_self
    obtain ⟨mu1, f1, k1⟩ := access_later h1 ((find_cons_ne fun e => hn e.symm).trans hu)
    obtain ⟨mt, mu2, g, see, _⟩ := access_find h2 f1
    rw [e1] at g
    cases g
    have hon : (mu1.tag == m1.tag || m1.path.contains mu1.tag) = true := by
      have hmem : u ∈ old :: mo.path := by
        rcases hp with rfl | hp
        · exact List.mem_cons_self
        · exact List.mem_cons_of_mem _ hp
      rw [k1.1, (find_mem hu).2, l1.2.1]
      simp only [Bool.or_eq_true, List.contains_iff_mem]
      exact .inr hmem
    unfold Node.see at see
    rw [if_pos hon, k1.2.2.2 hd] at see
    cases see

/-- A write through a pointer that is not derived from `u` disables `u`. -/
theorem write_disables {im : Bool} {s s' : List Node} {t u : Tag} {mt mu : Node} (h : step im s (.write t .cell) = some s')
    (ht : find s t = some mt) (hu : find s u = some mu) (htu : t ≠ u) (hp : u ∉ mt.path) (hw : (mu.perm .cell).foreign true = .disabled) :
    ∃ mu', find s' u = some mu' ∧ Later mu mu' ∧ mu'.perm .cell = .disabled := by
  obtain ⟨mt', mu', e1, see, e2⟩ := access_find h hu
  rw [ht] at e1
  cases e1
  have hoff : on mt mu = false := by
    cases ho : on mt mu with
    | false => rfl
    | true =>
      simp only [on, Bool.or_eq_true, beq_iff_eq, List.contains_iff_mem] at ho
      rw [(find_mem hu).2, (find_mem ht).2] at ho
      rcases ho with e | e
      · exact (htu e.symm).elim
      · exact (hp e).elim
  refine ⟨mu', e2, see_later see, ?_⟩
  rw [Node.see_foreign hoff] at see
  cases see
  exact hw

/-- The table has a box derived from pointer 4. Pointer 4 will be disabled by a write through the first handle, and is if that has
been dropped. -/
structure Doomed (s : List Node) (c : Ctl) : Prop where
  alive : c.gone = false
  next : 5 ≤ c.next
  first : ∃ m, find s 3 = some m ∧ 4 ∉ m.path
  box : ∃ m, find s 4 = some m ∧ (m.perm .cell).foreign true = .disabled ∧ (3 ∈ c.handles ∨ m.perm .cell = .disabled)
  table : ∃ t m, c.table = some t ∧ find s t = some m ∧ (t = 4 ∨ 4 ∈ m.path) ∧ t < c.next

theorem arcGone {s s' : List Node} {c : Ctl} {a : Act} {new : List Op} {c' : Ctl} (j : Doomed s c) (ha : arcProg c a = some (new, c'))
    (hr : (Tree false).run s new = some s') : Doomed s' c' := by
  have hnx := arcProg_next ha
  obtain ⟨hg, hn, ⟨m3, f3, p3⟩, ⟨m4, f4, w4, d4⟩, t, mt, ht, ft, pt, lt⟩ := j
  have ne : ∀ {n u : Tag}, c.next ≤ n → u < c.next → n ≠ u := fun h1 h2 e => absurd (Nat.lt_of_lt_of_le h2 h1) (by rw [e]; exact Nat.lt_irrefl _)
  have l3 : (3 : Tag) < c.next := Nat.lt_of_lt_of_le (by decide) hn
  have l4 : (4 : Tag) < c.next := Nat.lt_of_lt_of_le (by decide) hn
  -- what does not free keeps everything
  have keep : ∀ {u : Tag} {m : Node} {os os' : List Op} {s1 : List Node}, new = os ++ os' → (∀ o ∈ os, Op.isFree o = false) →
      (Tree false).run s os = some s1 → find s u = some m → u < c.next → ∃ m', find s1 u = some m' ∧ Later m m' := by
    intro u m os os' s1 e hf hr hm hl
    refine run_later hr (fun o ho => ⟨hf o ho, fun e' => ?_⟩) hm
    exact ne (hnx.2 o (by rw [e]; exact List.mem_append_left _ ho) u e') hl rfl
  have stay : (∀ o ∈ new, Op.isFree o = false) → c'.gone = false → c'.table = some t → (3 ∈ c.handles → 3 ∈ c'.handles) → Doomed s' c' := by
    intro hf hg' ht' hh'
    have keep := fun {u : Tag} {m : Node} => keep (u := u) (m := m) (List.append_nil new).symm hf hr
    obtain ⟨m3', g3, k3⟩ := keep f3 l3
    obtain ⟨m4', g4, k4⟩ := keep f4 l4
    obtain ⟨mt', gt, kt⟩ := keep ft lt
    exact ⟨hg', Nat.le_trans hn (Nat.le_of_lt hnx.1), ⟨m3', g3, by rw [k3.2.1]; exact p3⟩, ⟨m4', g4, k4.2.2.1 w4, d4.imp hh' k4.2.2.2⟩,
      t, mt', ht', gt, by rw [kt.2.1]; exact pt, Nat.lt_trans lt hnx.1⟩
  unfold arcProg at ha
  rw [if_neg (by rw [hg]; decide)] at ha
  cases a with
  | intern =>
    simp only [ht] at ha
    cases ha
    exact stay (by simp [Op.isFree]) hg rfl (List.mem_cons_of_mem _)
  | look =>
    simp only [ht, Alias.peek] at ha
    cases ha
    exact stay (by simp [Op.isFree]) hg rfl id
  | grow =>
    simp only [ht] at ha
    cases ha
    obtain ⟨s1, e1, e2⟩ := Rules.run_cons_some (R := Tree false) hr
    cases e2
    have keep := fun {u : Tag} {m : Node} => keep (u := u) (m := m) (List.append_nil _).symm (by simp [Op.isFree]) hr
    obtain ⟨m3', g3, k3⟩ := keep f3 l3
    obtain ⟨m4', g4, k4⟩ := keep f4 l4
    obtain ⟨mo, mn, fo, fn, pn⟩ := move_new (im := false) e1
    rw [ft] at fo
    cases fo
    refine ⟨hg, Nat.le_succ_of_le hn, ⟨m3', g3, by rw [k3.2.1]; exact p3⟩, ⟨m4', g4, k4.2.2.1 w4, d4.imp id k4.2.2.2⟩,
      c.next, mn, rfl, fn, .inr ?_, Nat.lt_succ_self _⟩
    rw [pn]
    rcases pt with rfl | pt
    · exact List.mem_cons_self
    · exact List.mem_cons_of_mem _ pt
  | copy h =>
    simp only [] at ha
    split at ha <;> cases ha
    exact stay (by simp [Op.isFree]) hg ht (List.mem_cons_of_mem _)
  | deref h =>
    simp only [Alias.peek] at ha
    split at ha <;> cases ha
    exact stay (by simp [Op.isFree]) hg ht id
  | set h => cases ha
  | refcount h =>
    simp only [] at ha
    split at ha <;> cases ha
    exact stay (by simp [Op.isFree]) hg ht id
  | drop h =>
    simp only [] at ha
    split at ha
    · next hm =>
      -- after the decrement pointer 4 is disabled unless the first handle is left
      have dec : ∀ {s2 : List Node} {os' : List Op}, new = [.share h c.next, .write c.next .cell] ++ os' →
          (Tree false).run s [.share h c.next, .write c.next .cell] = some s2 →
          (∃ m, find s2 4 = some m ∧ (m.perm .cell).foreign true = .disabled ∧ (3 ∈ c.handles.erase h ∨ m.perm .cell = .disabled)) ∧
          (∃ m, find s2 3 = some m ∧ 4 ∉ m.path) ∧ ∃ m, find s2 t = some m ∧ (t = 4 ∨ 4 ∈ m.path) := by
        intro s2 os' e hr
        have keep := fun {u : Tag} {m : Node} => keep (u := u) (m := m) e (by simp [Op.isFree]) hr
        obtain ⟨m3', g3, k3⟩ := keep f3 l3
        obtain ⟨m4', g4, k4⟩ := keep f4 l4
        obtain ⟨mt', gt, kt⟩ := keep ft lt
        refine ⟨⟨m4', g4, k4.2.2.1 w4, ?_⟩, ⟨m3', g3, by rw [k3.2.1]; exact p3⟩, mt', gt, by rw [kt.2.1]; exact pt⟩
        rcases d4 with d4 | d4
        · by_cases hh : (3 : Tag) = h
          · right
            subst hh
            obtain ⟨s1, e1, hr⟩ := Rules.run_cons_some (R := Tree false) hr
            obtain ⟨s2', e2, hr⟩ := Rules.run_cons_some (R := Tree false) hr
            cases hr
            obtain ⟨mo, mn, fo, fn, pn⟩ := share_new (im := false) e1
            rw [f3] at fo
            cases fo
            replace e1 : step false s (.share 3 c.next) = some s1 := e1
            obtain ⟨m41, f41, k41⟩ := step_later e1 rfl (fun e => ne (Nat.le_refl _) l4 (Option.some.inj e)) f4
            obtain ⟨m42, f42, _, d42⟩ := write_disables (im := false) e2 fn f41 (ne (Nat.le_refl _) l4)
              (by rw [pn]; intro hc; rcases List.mem_cons.1 hc with e | e
                  · exact absurd e (by decide)
                  · exact p3 e) (k41.2.2.1 w4)
            have : some m42 = some m4' := f42.symm.trans g4
            cases this
            exact d42
          · left
            exact (List.mem_erase_of_ne hh).2 d4
        · exact .inr (k4.2.2.2 d4)
      split at ha
      · next t' he ht' =>
        rw [ht] at ht'
        cases ht'
        cases ha
        exfalso
        obtain ⟨s1, e1, hr⟩ := Rules.run_cons_some (R := Tree false) hr
        obtain ⟨s2, e2, hr⟩ := Rules.run_cons_some (R := Tree false) hr
        obtain ⟨⟨n4, f4, _, d4⟩, _, nt, ft, pt⟩ := dec (s2 := s2) (os' := [.share t (c.next + 1), .read (c.next + 1) .plain,
          .move t (c.next + 2), .free (c.next + 2)]) rfl (go e1 (go e2 rfl))
        have d4 : n4.perm .cell = .disabled := by
          rcases d4 with d4 | d4
          · rw [he] at d4; cases d4
          · exact d4
        obtain ⟨s3, e3, hr⟩ := Rules.run_cons_some (R := Tree false) hr
        obtain ⟨s4, e4, hr⟩ := Rules.run_cons_some (R := Tree false) hr
        obtain ⟨s5, e5, hr⟩ := Rules.run_cons_some (R := Tree false) hr
        have nm : ∀ {k u : Tag}, u < c.next → (some (c.next + k) : Option Tag) ≠ some u := fun hl e => ne (Nat.le_add_right _ _) hl (Option.some.inj e)
        replace e3 : step false s2 (.share t (c.next + 1)) = some s3 := e3
        replace e4 : step false s3 (.read (c.next + 1) .plain) = some s4 := e4
        obtain ⟨n4', f4', k4'⟩ := step_later e3 rfl (nm l4) f4
        obtain ⟨nt', ft', kt'⟩ := step_later e3 rfl (nm lt) ft
        obtain ⟨n4'', f4'', k4''⟩ := step_later e4 rfl (by simp [Op.makes]) f4'
        obtain ⟨nt'', ft'', kt''⟩ := step_later e4 rfl (by simp [Op.makes]) ft'
        have := move_disabled (im := false) (new := c.next + 2) ft'' f4'' (k4''.2.2.2 (k4'.2.2.2 d4)) (by rw [kt''.2.1, kt'.2.1]; exact pt)
          (ne (Nat.le_add_right _ _) l4)
        have e5 : step false s4 (.move t (c.next + 2)) = some s5 := e5
        rw [this] at e5
        cases e5
      · cases ha
        obtain ⟨b4, b3, nt, ft, pt⟩ := dec (os' := []) (List.append_nil _).symm hr
        exact ⟨hg, Nat.le_succ_of_le hn, b3, b4, t, nt, ht, ft, pt, Nat.lt_succ_of_lt lt⟩
    · cases ha
  | dropArena => cases ha

theorem arcDoomed {ops : List Op} {c : Ctl} (h : Hist arcProg ops c) (hg : c.gone = true) : ¬ (Tree false).Allowed ops := by
  intro hal
  cases hr : (Tree false).run (Tree false).init ops with
  | none => unfold Rules.Allowed at hal; rw [hr] at hal; cases hal
  | some s =>
    have := h.holds (R := Tree false) (J := fun s c => (s = (Tree false).init ∧ c = .start) ∨ Doomed s c) (.inl ⟨rfl, rfl⟩) ?_ hr
    · rcases this with ⟨_, rfl⟩ | j
      · cases hg
      · rw [j.alive] at hg; cases hg
    · intro s s' c a new c' j ha hr
      right
      rcases j with ⟨rfl, rfl⟩ | j
      · cases a with
        | intern =>
          cases ha
          cases hr
          refine ⟨rfl, Nat.le_refl 5, ⟨_, rfl, by decide⟩, ⟨_, rfl, rfl, .inl List.mem_cons_self⟩, 4, _, rfl, rfl, .inl rfl, by decide⟩
        | look => cases ha
        | grow => cases ha
        | copy h => cases ha
        | deref h => cases ha
        | set h => cases ha
        | refcount h => cases ha
        | drop h => cases ha
        | dropArena => cases ha
      · exact arcGone j ha hr

end Tree
end Alias
