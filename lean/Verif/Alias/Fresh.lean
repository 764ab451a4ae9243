import Verif.Alias.Model
/-! Pointers are told apart in the histories of `Verif/Alias/Model.lean`: every operation that makes a pointer gives it a tag of its own, every
operation uses a pointer made before, and so do the handles and the table. (So what the rules reject is never rejected because a
pointer is unknown or mistaken for another one.) -/
namespace Alias

/-- The pointer an operation makes. -/
def Op.made : Op → List Tag
  | .move _ t | .share _ t => [t]
  | _ => []

/-- The pointer an operation uses. -/
def Op.used : Op → Tag
  | .move t _ | .share t _ | .read t _ | .write t _ | .free t => t

/-- The pointers made by `ops` have different tags, all in `lo ..< hi`, and each operation uses a pointer in `known` or one made
before. -/
def Tidy (lo hi : Tag) (known : List Tag) : List Op → Prop
  | [] => lo ≤ hi
  | o :: ops => o.used ∈ known ∧ match o.made with
    | [] => Tidy lo hi known ops
    | t :: _ => lo ≤ t ∧ Tidy (t + 1) hi (t :: known) ops

/-- The pointers that exist after `ops`. -/
def exist (ops : List Op) : List Tag := 0 :: ops.flatMap Op.made

theorem Tidy.le {ops : List Op} : ∀ {lo hi : Tag} {known : List Tag}, Tidy lo hi known ops → lo ≤ hi := by
  induction ops with
  | nil => intro lo hi known h; exact h
  | cons o ops ih =>
    intro lo hi known h
    obtain ⟨_, h⟩ := h
    revert h
    cases o.made with
    | nil => exact ih
    | cons t l => exact fun h => Nat.le_trans h.1 (Nat.le_trans (Nat.le_succ t) (ih h.2))

theorem made_cases (o : Op) : o.made = [] ∨ ∃ t, o.made = [t] := by cases o <;> simp [Op.made]

theorem Tidy.append {ops new : List Op} : ∀ {lo mid hi : Tag} {known : List Tag}, Tidy lo mid known ops →
    (∀ k', (∀ t ∈ known, t ∈ k') → (∀ t ∈ ops.flatMap Op.made, t ∈ k') → Tidy mid hi k' new) → Tidy lo hi known (ops ++ new) := by
  induction ops with
  | nil =>
    intro lo mid hi known h hn
    have hlm : lo ≤ mid := h
    have := hn known (fun _ h => h) (fun _ h => by cases h)
    show Tidy lo hi known new
    clear hn
    induction new generalizing lo known mid with
    | nil => exact Nat.le_trans hlm this
    | cons o new ih =>
      obtain ⟨h1, h2⟩ := this
      refine ⟨h1, ?_⟩
      revert h2
      cases o.made with
      | nil => exact fun h2 => ih hlm hlm h2
      | cons t l => exact fun h2 => ⟨Nat.le_trans hlm h2.1, h2.2⟩
  | cons o ops ih =>
    intro lo mid hi known h hn
    obtain ⟨h1, h2⟩ := h
    refine ⟨h1, ?_⟩
    rcases made_cases o with e | ⟨t, e⟩ <;> rw [e] at h2 ⊢
    · exact ih h2 fun k' ha hb => hn k' ha (fun t ht => hb t (by simpa [List.flatMap_cons, e] using ht))
    · refine ⟨h2.1, ih h2.2 fun k' ha hb => hn k' (fun u hu => ha u (List.mem_cons_of_mem _ hu)) (fun u hu => ?_)⟩
      rw [List.flatMap_cons, e] at hu
      rcases List.mem_append.mp hu with hu | hu
      · exact ha u (by simpa using Or.inl (List.mem_singleton.mp hu))
      · exact hb u hu

/-- Tidy operations make pointers with different tags. -/
theorem Tidy.nodup {ops : List Op} : ∀ {lo hi : Tag} {known : List Tag}, Tidy lo hi known ops →
    (ops.flatMap Op.made).Pairwise (· ≠ ·) ∧ ∀ t ∈ ops.flatMap Op.made, lo ≤ t ∧ t < hi := by
  induction ops with
  | nil => intro lo hi known _; exact ⟨.nil, fun t ht => by cases ht⟩
  | cons o ops ih =>
    intro lo hi known h
    obtain ⟨_, h⟩ := h
    rw [List.flatMap_cons]
    rcases made_cases o with e | ⟨t, e⟩ <;> rw [e] at h ⊢
    · exact ih h
    · obtain ⟨i1, i2⟩ := ih h.2
      have hle := h.2.le
      refine ⟨.cons (fun u hu c => ?_) i1, fun u hu => ?_⟩
      · have := (i2 u hu).1
        rw [c] at this
        exact Nat.lt_irrefl _ this
      · rcases List.mem_cons.mp hu with rfl | hu
        · exact ⟨h.1, hle⟩
        · have := i2 u hu
          exact ⟨Nat.le_trans h.1 (Nat.le_of_lt this.1), this.2⟩

/-- Every operation uses a known pointer or one made earlier. -/
theorem Tidy.used {ops : List Op} : ∀ {lo hi : Tag} {known : List Tag}, Tidy lo hi known ops →
    ∀ before o after, ops = before ++ o :: after → o.used ∈ known ∨ o.used ∈ before.flatMap Op.made := by
  induction ops with
  | nil => intro lo hi known _ before o after e; simp at e
  | cons o' ops ih =>
    intro lo hi known h before o after e
    obtain ⟨h1, h⟩ := h
    cases before with
    | nil =>
      simp only [List.nil_append, List.cons.injEq] at e
      exact .inl (e.1 ▸ h1)
    | cons b before =>
      simp only [List.cons_append, List.cons.injEq] at e
      obtain ⟨rfl, e⟩ := e
      rw [List.flatMap_cons]
      rcases made_cases o' with e' | ⟨t, e'⟩ <;> rw [e'] at h ⊢
      · exact ih h before o after e
      · rcases ih h.2 before o after e with hh | hh
        · rcases List.mem_cons.mp hh with hh | hh
          · exact .inr (by rw [hh]; exact List.mem_append_left _ List.mem_cons_self)
          · exact .inl hh
        · exact .inr (List.mem_append_right _ hh)

/-- The invariant of a history. -/
structure Sound (ops : List Op) (c : Ctl) : Prop where
  tidy : Tidy 1 c.next [0] ops
  table : ∀ t, c.table = some t → t ∈ exist ops
  handles : ∀ h ∈ c.handles, h ∈ exist ops

/-- What an action has to satisfy. -/
structure Step (c : Ctl) (new : List Op) (c' : Ctl) : Prop where
  tidy : ∀ known, 0 ∈ known → (∀ t, c.table = some t → t ∈ known) → (∀ h ∈ c.handles, h ∈ known) → Tidy c.next c'.next known new
  table : ∀ t, c'.table = some t → c.table = some t ∨ t ∈ new.flatMap Op.made
  handles : ∀ h ∈ c'.handles, h ∈ c.handles ∨ h ∈ new.flatMap Op.made

theorem Sound.step {ops new : List Op} {c c' : Ctl} (s : Sound ops c) (h : Step c new c') : Sound (ops ++ new) c' where
  tidy := s.tidy.append fun k' ha hb => by
    have all : ∀ t, t ∈ exist ops → t ∈ k' := fun t ht =>
      (List.mem_cons.mp ht).elim (fun e => ha t (by rw [e]; exact List.mem_cons_self)) (hb t)
    exact h.tidy k' (ha 0 List.mem_cons_self) (fun t ht => all t (s.table t ht)) (fun t ht => all t (s.handles t ht))
  table t ht := by
    unfold exist
    rw [List.flatMap_append]
    rcases h.table t ht with h | h
    · exact (List.mem_cons.mp (s.table t h)).elim (fun e => e ▸ List.mem_cons_self) fun h =>
        List.mem_cons_of_mem _ (List.mem_append_left _ h)
    · exact List.mem_cons_of_mem _ (List.mem_append_right _ h)
  handles t ht := by
    unfold exist
    rw [List.flatMap_append]
    rcases h.handles t ht with h | h
    · exact (List.mem_cons.mp (s.handles t h)).elim (fun e => e ▸ List.mem_cons_self) fun h =>
        List.mem_cons_of_mem _ (List.mem_append_left _ h)
    · exact List.mem_cons_of_mem _ (List.mem_append_right _ h)

theorem Sound.hist {P : Prog} (hP : ∀ c a new c', P c a = some (new, c') → Step c new c') {ops : List Op} {c : Ctl}
    (h : Hist P ops c) : Sound ops c := by
  induction h with
  | start => exact ⟨Nat.le_refl 1, fun t h => (by cases h), fun t h => (by cases h)⟩
  | act _ hs ih => exact ih.step (hP _ _ _ _ hs)

theorem peek_step {c : Ctl} {t : Tag} {b : Bool} {new : List Op} {c' : Ctl} (h : peek c t b = some (new, c'))
    (ht : b = true → c.table = some t ∨ t ∈ c.handles) : Step c new c' := by
  unfold peek at h
  split at h
  · rename_i hb
    cases h
    refine ⟨fun k h0 h1 h2 => ?_, fun t h => .inl h, fun t h => .inl h⟩
    have : t ∈ k := (ht hb).elim (h1 t) (h2 t)
    simp [Tidy, Op.used, Op.made, this]
  · cases h

theorem internProg_step (c : Ctl) (a : Act) (new : List Op) (c' : Ctl) (h : internProg c a = some (new, c')) : Step c new c' := by
  cases a with
  | intern =>
    simp only [internProg] at h
    split at h
    · cases h
      refine ⟨fun k h0 _ _ => ?_, fun t h => .inr ?_, fun t h => .inr ?_⟩
      · simp [Tidy, Op.used, Op.made, h0]
      · simp only [Option.some.injEq] at h; subst h; simp [Op.made]
      · simp only [List.mem_singleton] at h; subst h; simp [Op.made]
    · rename_i t ht
      cases h
      refine ⟨fun k h0 h1 _ => ?_, fun t h => .inl h, fun t h => ?_⟩
      · have := h1 t ht
        simp [Tidy, Op.used, Op.made, this]
      · exact (List.mem_cons.mp h).elim (fun e => .inr (by subst e; simp [Op.made])) .inl
  | look =>
    simp only [internProg] at h
    split at h
    · cases h
    · rename_i t ht
      exact peek_step h fun _ => .inl ht
  | grow =>
    simp only [internProg] at h
    split at h
    · cases h
    · rename_i t ht
      cases h
      refine ⟨fun k h0 h1 _ => ?_, fun t h => .inr ?_, fun t h => .inl h⟩
      · have := h1 t ht
        simp [Tidy, Op.used, Op.made, this]
      · simp only [Option.some.injEq] at h; subst h; simp [Op.made]
  | copy p =>
    simp only [internProg] at h
    split at h
    · rename_i hp
      cases h
      refine ⟨fun k h0 _ h2 => ?_, fun t h => .inl h, fun t h => ?_⟩
      · have := h2 p hp
        simp [Tidy, Op.used, Op.made, this]
      · exact (List.mem_cons.mp h).elim (fun e => .inr (by subst e; simp [Op.made])) .inl
    · cases h
  | deref p => exact peek_step h fun hb => .inr (by simpa using hb)
  | set p =>
    simp only [internProg] at h
    split at h
    · rename_i hp
      cases h
      refine ⟨fun k h0 _ h2 => ?_, fun t h => .inl h, fun t h => .inl h⟩
      have := h2 p hp
      simp [Tidy, Op.used, Op.made, this]
    · cases h
  | refcount p => cases h
  | drop p => cases h
  | dropArena => cases h

theorem arenaProg_step (c : Ctl) (a : Act) (new : List Op) (c' : Ctl) (h : arenaProg c a = some (new, c')) : Step c new c' := by
  unfold arenaProg at h
  split at h
  · cases h
  cases a with
  | intern =>
    simp only at h
    split at h
    · cases h
      refine ⟨fun k h0 _ _ => ?_, fun t h => .inr ?_, fun t h => .inr ?_⟩
      · simp [Tidy, Op.used, Op.made, h0]
      · simp only [Option.some.injEq] at h; subst h; simp [Op.made]
      · simp only [List.mem_singleton] at h; subst h; simp [Op.made]
    · rename_i t ht
      cases h
      refine ⟨fun k h0 h1 _ => ?_, fun t h => .inl h, fun t h => ?_⟩
      · have := h1 t ht
        simp [Tidy, Op.used, Op.made, this]
      · exact (List.mem_cons.mp h).elim (fun e => .inr (by subst e; simp [Op.made])) .inl
  | look =>
    simp only at h
    split at h
    · cases h
    · rename_i t ht
      exact peek_step h fun _ => .inl ht
  | grow =>
    simp only at h
    split at h
    · cases h
    · rename_i t ht
      cases h
      refine ⟨fun k h0 h1 _ => ?_, fun t h => .inr ?_, fun t h => .inl h⟩
      · have := h1 t ht
        simp [Tidy, Op.used, Op.made, this]
      · simp only [Option.some.injEq] at h; subst h; simp [Op.made]
  | copy p =>
    simp only at h
    split at h
    · rename_i hp
      cases h
      refine ⟨fun k h0 _ h2 => ?_, fun t h => .inl h, fun t h => ?_⟩
      · have := h2 p hp
        simp [Tidy, Op.used, Op.made, this]
      · exact (List.mem_cons.mp h).elim (fun e => .inr (by subst e; simp [Op.made])) .inl
    · cases h
  | deref p => exact peek_step h fun hb => .inr (by simpa using hb)
  | set p =>
    simp only at h
    split at h
    · rename_i hp
      cases h
      refine ⟨fun k h0 _ h2 => ?_, fun t h => .inl h, fun t h => .inl h⟩
      have := h2 p hp
      simp [Tidy, Op.used, Op.made, this]
    · cases h
  | refcount p => cases h
  | drop p => cases h
  | dropArena =>
    simp only at h
    split at h
    · cases h
    · rename_i t ht
      cases h
      refine ⟨fun k h0 h1 _ => ?_, fun t h => (by cases h), fun t h => (by cases h)⟩
      have := h1 t ht
      simp [Tidy, Op.used, Op.made, this]

theorem arcProg_step (c : Ctl) (a : Act) (new : List Op) (c' : Ctl) (h : arcProg c a = some (new, c')) : Step c new c' := by
  unfold arcProg at h
  split at h
  · cases h
  cases a with
  | intern =>
    simp only at h
    split at h
    · cases h
      refine ⟨fun k h0 _ _ => ?_, fun t h => .inr ?_, fun t h => .inr ?_⟩
      · simp [Tidy, Op.used, Op.made, h0]
      · simp only [Option.some.injEq] at h; subst h; simp [Op.made]
      · simp only [List.mem_singleton] at h; subst h; simp [Op.made]
    · rename_i t ht
      cases h
      refine ⟨fun k h0 h1 _ => ?_, fun t h => .inl h, fun t h => ?_⟩
      · have := h1 t ht
        simp [Tidy, Op.used, Op.made, this]
      · exact (List.mem_cons.mp h).elim (fun e => .inr (by subst e; simp [Op.made])) .inl
  | look =>
    simp only at h
    split at h
    · cases h
    · rename_i t ht
      exact peek_step h fun _ => .inl ht
  | grow =>
    simp only at h
    split at h
    · cases h
    · rename_i t ht
      cases h
      refine ⟨fun k h0 h1 _ => ?_, fun t h => .inr ?_, fun t h => .inl h⟩
      · have := h1 t ht
        simp [Tidy, Op.used, Op.made, this]
      · simp only [Option.some.injEq] at h; subst h; simp [Op.made]
  | copy p =>
    simp only at h
    split at h
    · rename_i hp
      cases h
      refine ⟨fun k h0 _ h2 => ?_, fun t h => .inl h, fun t h => ?_⟩
      · have := h2 p hp
        simp [Tidy, Op.used, Op.made, this]
      · exact .inl ((List.mem_cons.mp h).elim (fun e => e ▸ hp) id)
    · cases h
  | deref p => exact peek_step h fun hb => .inr (by simpa using hb)
  | set p => cases h
  | refcount p =>
    simp only at h
    split at h
    · rename_i hp
      cases h
      refine ⟨fun k h0 _ h2 => ?_, fun t h => .inl h, fun t h => .inl h⟩
      have := h2 p hp
      simp [Tidy, Op.used, Op.made, this]
    · cases h
  | drop p =>
    simp only at h
    split at h
    · rename_i hp
      split at h
      · rename_i t _ ht
        cases h
        refine ⟨fun k h0 h1 h2 => ?_, fun t h => (by cases h), fun t h => (by cases h)⟩
        have a1 := h2 p hp
        have a2 := h1 t ht
        simp [Tidy, Op.used, Op.made, a1, a2]
      · cases h
        refine ⟨fun k h0 _ h2 => ?_, fun t h => .inl h, fun t h => .inl (List.mem_of_mem_erase h)⟩
        have := h2 p hp
        simp [Tidy, Op.used, Op.made, this]
    · cases h
  | dropArena => cases h

end Alias
