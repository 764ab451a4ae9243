import Verif.Alias.Model
/-!
Lemmas for C69.
-/
namespace Alias

theorem Rules.run_append (R : Rules) (s : R.St) (a b : List Op) : R.run s (a ++ b) = (R.run s a).bind fun s' => R.run s' b := by
  induction a generalizing s with
  | nil => rfl
  | cons o a ih =>
    show (R.step s o).bind (fun s' => R.run s' (a ++ b)) = ((R.step s o).bind fun s' => R.run s' a).bind _
    cases h : R.step s o with
    | none => rfl
    | some s' => exact ih s'

theorem Rules.run_cons {R : Rules} {s s' : R.St} {o : Op} {os : List Op} (h : R.step s o = some s') : R.run s (o :: os) = R.run s' os := by
  show (R.step s o).bind _ = _
  rw [h]; rfl

theorem Rules.run_none {R : Rules} {s : R.St} {o : Op} {os : List Op} (h : R.step s o = none) : R.run s (o :: os) = none := by
  show (R.step s o).bind _ = _
  rw [h]; rfl

/-- An invariant that relates the state of the rules to the pointers of the program. -/
theorem Hist.allowed {P : Prog} {R : Rules} (J : R.St → Ctl → Prop) (h0 : J R.init .start)
    (hs : ∀ {s c a new c'}, J s c → P c a = some (new, c') → ∃ s', R.run s new = some s' ∧ J s' c') {ops : List Op} {c : Ctl}
    (h : Hist P ops c) : ∃ s, R.run R.init ops = some s ∧ J s c := by
  induction h with
  | start => exact ⟨_, rfl, h0⟩
  | act _ ha ih =>
    obtain ⟨s, e, j⟩ := ih
    obtain ⟨s', e', j'⟩ := hs j ha
    exact ⟨s', by rw [R.run_append, e]; exact e', j'⟩

theorem exec_hist {P : Prog} {ops0 : List Op} {c : Ctl} (h : Hist P ops0 c) {as : List Act} {ops : List Op} (e : exec P c as = some ops) :
    ∃ c', Hist P (ops0 ++ ops) c' := by
  induction as generalizing ops0 c ops with
  | nil => cases e; exact ⟨c, by rw [List.append_nil]; exact h⟩
  | cons a as ih =>
    simp only [exec] at e
    split at e
    · cases e
    · next ops1 c1 ha =>
      cases h1 : exec P c1 as with
      | none => rw [h1] at e; cases e
      | some ops2 =>
        rw [h1] at e
        cases e
        obtain ⟨c', hc⟩ := ih (h.act ha) h1
        exact ⟨c', by rw [← List.append_assoc]; exact hc⟩

/-! ### What `Intern` needs of the rules -/

/-- Shared references to a leaked box: they can be copied, read, and used to change what is in an `UnsafeCell`, without harm to the
others. -/
structure Sharing (R : Rules) (L : R.St → Tag → Tag → Prop) : Prop where
  first : ∃ s, R.run R.init [.move 0 1, .move 1 2, .share 2 3, .share 3 4, .share 3 5] = some s ∧ L s 6 4 ∧ L s 6 5
  share : ∀ {s n old}, L s n old → ∃ s', R.step s (.share old n) = some s' ∧ L s' (n + 1) n ∧ ∀ t, L s n t → L s' (n + 1) t
  read : ∀ {s n t}, L s n t → ∃ s', R.step s (.read t .plain) = some s' ∧ ∀ u, L s n u → L s' n u
  write : ∀ {s n t}, L s n t → ∃ s', R.step s (.write t .cell) = some s' ∧ ∀ u, L s n u → L s' n u

theorem Sharing.intern {R : Rules} {L : R.St → Tag → Tag → Prop} (H : Sharing R L) {ops : List Op} {c : Ctl} (h : Hist internProg ops c) :
    R.Allowed ops := by
  suffices hh : ∃ s, R.run R.init ops = some s ∧ ((s = R.init ∧ c = .start) ∨
      ((∃ t, c.table = some t) ∧ (∀ t, c.table = some t → L s c.next t) ∧ ∀ t ∈ c.handles, L s c.next t)) by
    obtain ⟨s, e, _⟩ := hh
    unfold Rules.Allowed
    rw [e]; rfl
  refine h.allowed (R := R) (J := fun s c => (s = R.init ∧ c = .start) ∨
      ((∃ t, c.table = some t) ∧ (∀ t, c.table = some t → L s c.next t) ∧ ∀ t ∈ c.handles, L s c.next t)) (.inl ⟨rfl, rfl⟩) ?_
  intro s c a new c' j ha
  rcases j with ⟨rfl, rfl⟩ | ⟨⟨t, ht⟩, j1, j2⟩
  · cases a with
    | intern =>
      cases ha
      obtain ⟨s', e, l1, l2⟩ := H.first
      exact ⟨s', e, .inr ⟨⟨_, rfl⟩, fun t ht => by cases ht; exact l1, fun t ht => by
        rcases List.mem_singleton.1 ht with rfl; exact l2⟩⟩
    | look => cases ha
    | grow => cases ha
    | copy h => cases ha
    | deref h => cases ha
    | set h => cases ha
    | refcount h => cases ha
    | drop h => cases ha
    | dropArena => cases ha
  · -- a reference is made and used
    have peekOk : ∀ {t : Tag}, L s c.next t → ∃ s', R.run s [.share t c.next, .read c.next .plain] = some s' ∧ ∀ u, L s c.next u → L s' (c.next + 1) u := by
      intro t hl
      obtain ⟨s1, e1, n1, k1⟩ := H.share hl
      obtain ⟨s2, e2, k2⟩ := H.read n1
      exact ⟨s2, by rw [R.run_cons e1, R.run_cons e2]; rfl, fun u hu => k2 u (k1 u hu)⟩
    cases a with
    | intern =>
      simp only [internProg, ht] at ha
      cases ha
      obtain ⟨s1, e1, n1, k1⟩ := H.share (j1 t ht)
      obtain ⟨s2, e2, k2⟩ := H.read n1
      obtain ⟨s3, e3, n3, k3⟩ := H.share (k2 t (k1 t (j1 t ht)))
      refine ⟨s3, by rw [R.run_cons e1, R.run_cons e2, R.run_cons e3]; rfl, .inr ⟨⟨t, rfl⟩, fun u hu => ?_, fun u hu => ?_⟩⟩
      · cases hu; exact k3 t (k2 t (k1 t (j1 t ht)))
      · rcases List.mem_cons.1 hu with rfl | hu
        · exact n3
        · exact k3 u (k2 u (k1 u (j2 u hu)))
    | look =>
      simp only [internProg, ht, peek] at ha
      cases ha
      obtain ⟨s', e, k⟩ := peekOk (j1 t ht)
      exact ⟨s', e, .inr ⟨⟨t, rfl⟩, fun u hu => by cases hu; exact k t (j1 t ht), fun u hu => k u (j2 u hu)⟩⟩
    | grow =>
      simp only [internProg, ht] at ha
      cases ha
      obtain ⟨s1, e1, n1, k1⟩ := H.share (j1 t ht)
      exact ⟨s1, by rw [R.run_cons e1]; rfl, .inr ⟨⟨_, rfl⟩, fun u hu => by cases hu; exact n1, fun u hu => k1 u (j2 u hu)⟩⟩
    | copy h =>
      simp only [internProg] at ha
      split at ha <;> cases ha
      next hm =>
      obtain ⟨s1, e1, n1, k1⟩ := H.share (j2 h hm)
      refine ⟨s1, by rw [R.run_cons e1]; rfl, .inr ⟨⟨t, ht⟩, fun u hu => k1 u (j1 u hu), fun u hu => ?_⟩⟩
      rcases List.mem_cons.1 hu with rfl | hu
      · exact n1
      · exact k1 u (j2 u hu)
    | deref h =>
      simp only [internProg, peek] at ha
      split at ha <;> cases ha
      next hm =>
      obtain ⟨s', e, k⟩ := peekOk (j2 h (of_decide_eq_true hm))
      exact ⟨s', e, .inr ⟨⟨t, ht⟩, fun u hu => k u (j1 u hu), fun u hu => k u (j2 u hu)⟩⟩
    | set h =>
      simp only [internProg] at ha
      split at ha <;> cases ha
      next hm =>
      obtain ⟨s1, e1, n1, k1⟩ := H.share (j2 h hm)
      obtain ⟨s2, e2, k2⟩ := H.write n1
      exact ⟨s2, by rw [R.run_cons e1, R.run_cons e2]; rfl,
        .inr ⟨⟨t, ht⟩, fun u hu => k2 u (k1 u (j1 u hu)), fun u hu => k2 u (k1 u (j2 u hu))⟩⟩
    | refcount h => cases ha
    | drop h => cases ha
    | dropArena => cases ha

/-! ### `Documented` -/
namespace Documented

/-- Pointer `t` may be used; `n` is fresh. -/
def Live (s : List Pointer) (n t : Tag) : Prop := (∃ p, find s t = some p ∧ p.live = true) ∧ t < n ∧ ∀ p ∈ s, p.tag < n

theorem find_cons_ne {s : List Pointer} {p : Pointer} {t : Tag} (h : t ≠ p.tag) : find (p :: s) t = find s t := by
  have : (p.tag == t) = false := by simpa using fun e : p.tag = t => h e.symm
  simp [find, this]

theorem find_cons_self {s : List Pointer} {p : Pointer} : find (p :: s) p.tag = some p := by
  simp [find]

theorem use_live {s : List Pointer} {n t : Tag} (h : Live s n t) (f : Pointer → List Pointer) : ∃ p, use s t f = some (f p) := by
  obtain ⟨⟨p, hp, hl⟩, _⟩ := h
  exact ⟨p, by simp [use, hp, hl]⟩

theorem sharing : Sharing Documented Live where
  first := ⟨_, rfl, ⟨⟨_, rfl, rfl⟩, by decide, by decide⟩, ⟨⟨_, rfl, rfl⟩, by decide, by decide⟩⟩
  share {s n old} h := by
    obtain ⟨p, hp⟩ := use_live h fun p => ⟨n, old :: p.path, true⟩ :: s
    have hb : ∀ q ∈ (⟨n, old :: p.path, true⟩ :: s : List Pointer), q.tag < n + 1 := by
      intro q hq
      rcases List.mem_cons.1 hq with rfl | hq
      · exact Nat.lt_succ_self _
      · exact Nat.lt_succ_of_lt (h.2.2 q hq)
    refine ⟨_, hp, ⟨⟨_, find_cons_self, rfl⟩, Nat.lt_succ_self _, hb⟩, fun t ht => ⟨?_, Nat.lt_succ_of_lt ht.2.1, hb⟩⟩
    obtain ⟨q, hq, hl⟩ := ht.1
    exact ⟨q, (find_cons_ne (Nat.ne_of_lt ht.2.1)).trans hq, hl⟩
  read {s n t} h := by
    obtain ⟨p, hp⟩ := use_live h fun _ => s
    exact ⟨s, hp, fun _ hu => hu⟩
  write {s n t} h := by
    obtain ⟨p, hp⟩ := use_live h fun _ => s
    exact ⟨s, hp, fun _ hu => hu⟩

end Documented

/-! ### `Stacked` -/
namespace Stacked

/-- Pointer `t` has an item in the block of items with permission `q` on top of the stack. -/
def Top (q : Perm) (s : List Item) (t : Tag) : Prop := ∃ i ∈ s.takeWhile (fun i => decide (i.perm = q)), i.tag = t

theorem Top.cons {q : Perm} {s : List Item} {t : Tag} {i : Item} (hi : i.perm = q) (h : Top q s t) : Top q (i :: s) t := by
  obtain ⟨j, hj, e⟩ := h
  refine ⟨j, ?_, e⟩
  rw [List.takeWhile_cons, if_pos (by simpa using hi)]
  exact List.mem_cons_of_mem _ hj

theorem Top.head {q : Perm} {s : List Item} {i : Item} (hi : i.perm = q) : Top q (i :: s) i.tag :=
  ⟨i, by rw [List.takeWhile_cons, if_pos (by simpa using hi)]; exact List.mem_cons_self, rfl⟩

theorem Top.split {q : Perm} {i : Item} {s : List Item} {t : Tag} (h : Top q (i :: s) t) : i.perm = q ∧ (i.tag = t ∨ Top q s t) := by
  obtain ⟨j, hj, e⟩ := h
  rw [List.takeWhile_cons] at hj
  split at hj
  · next hq =>
    refine ⟨by simpa using hq, ?_⟩
    rcases List.mem_cons.1 hj with rfl | hj
    · exact .inl e
    · exact .inr ⟨j, hj, e⟩
  · cases hj

theorem Top.nil {q : Perm} {t : Tag} (h : Top q [] t) : False := by
  obtain ⟨j, hj, _⟩ := h
  cases hj

/-- Reading through a shared pointer on top changes nothing. -/
theorem readAt_top {s : List Item} {t : Tag} (h : Top .sharedRO s t) : readAt t s = some s := by
  induction s with
  | nil => exact h.nil.elim
  | cons i s ih =>
    obtain ⟨hq, h⟩ := h.split
    by_cases ht : i.tag = t
    · simp [readAt, Item.grants, ht, hq]
    · have hn : Top .sharedRO s t := h.resolve_left ht
      have : i.grants false t = false := by simp [Item.grants, ht]
      simp only [readAt, this, ih hn]
      simp [Item.disable, hq]

theorem insertRW_top {s : List Item} {t : Tag} (new : Tag) (h : Top .sharedRW s t) :
    ∃ s', insertRW t new s = some s' ∧ Top .sharedRW s' new ∧ ∀ u, Top .sharedRW s u → Top .sharedRW s' u := by
  induction s with
  | nil => exact h.nil.elim
  | cons i s ih =>
    obtain ⟨hq, h⟩ := h.split
    by_cases ht : i.tag = t
    · refine ⟨⟨new, .sharedRW⟩ :: i :: s, ?_, Top.head (i := ⟨new, .sharedRW⟩) rfl, fun u hu => hu.cons rfl⟩
      simp [insertRW, Item.grants, ht, hq]
    · obtain ⟨s', e, h1, h2⟩ := ih (h.resolve_left ht)
      have hg : i.grants true t = false := by simp [Item.grants, ht]
      refine ⟨i :: s', by simp [insertRW, hg, e], h1.cons hq, fun u hu => ?_⟩
      obtain ⟨_, hu⟩ := hu.split
      rcases hu with rfl | hu
      · exact Top.head hq
      · exact (h2 u hu).cons hq

/-- Writing through a pointer in the block of shared read-write pointers changes nothing. -/
theorem writeAt_top {s above : List Item} {t : Tag} (ha : ∀ i ∈ above, i.perm = .sharedRW) (h : Top .sharedRW s t) :
    writeAt t above s = some (above.reverse ++ s) := by
  induction s generalizing above with
  | nil => exact h.nil.elim
  | cons i s ih =>
    obtain ⟨hq, h⟩ := h.split
    by_cases ht : i.tag = t
    · have hg : i.grants true t = true := by simp [Item.grants, ht, hq]
      have hw : above.takeWhile (fun j => decide (j.perm = .sharedRW)) = above := by
        clear hg hq ht h ih
        induction above with
        | nil => rfl
        | cons j l ih =>
          rw [List.takeWhile_cons, if_pos (by simpa using ha j List.mem_cons_self), ih fun i hi => ha i (List.mem_cons_of_mem _ hi)]
      simp only [writeAt, hg, hq, hw, if_true]
    · have hg : i.grants true t = false := by simp [Item.grants, ht]
      simp only [writeAt, hg]
      rw [if_neg (by simp), ih (fun j hj => by
        rcases List.mem_cons.1 hj with rfl | hj
        · exact hq
        · exact ha j hj) (h.resolve_left ht)]
      simp

def Usable (s : St) (_ t : Tag) : Prop := Top .sharedRO s.plain t ∧ Top .sharedRW s.cell t

theorem sharing : Sharing Stacked Usable where
  first := ⟨_, rfl, ⟨⟨⟨4, .sharedRO⟩, by decide, rfl⟩, ⟨⟨4, .sharedRW⟩, by decide, rfl⟩⟩,
    ⟨⟨⟨5, .sharedRO⟩, by decide, rfl⟩, ⟨⟨5, .sharedRW⟩, by decide, rfl⟩⟩⟩
  share {s n old} h := by
    obtain ⟨c, e, h1, h2⟩ := insertRW_top n h.2
    refine ⟨⟨⟨n, .sharedRO⟩ :: s.plain, c⟩, ?_, ⟨Top.head (i := ⟨n, .sharedRO⟩) rfl, h1⟩, fun t ht => ⟨ht.1.cons rfl, h2 t ht.2⟩⟩
    show (readAt old s.plain).bind _ = _
    rw [readAt_top h.1]
    show (insertRW old n s.cell).map _ = _
    rw [e]; rfl
  read {s n t} h := by
    refine ⟨s, ?_, fun _ hu => hu⟩
    show (readAt t s.plain).map _ = _
    rw [readAt_top h.1]; rfl
  write {s n t} h := by
    refine ⟨s, ?_, fun _ hu => hu⟩
    show (writeAt t [] s.cell).map _ = _
    rw [writeAt_top (by simp) h.2]; rfl

end Stacked
end Alias
