import Verif.Pool.Late
import Verif.Props.Arena
namespace Pool
variable {K V : Type} [DecidableEq K] [BEq V] [Hashable V]

/-- Threads are never removed, and only dropping an arena makes it gone. -/
theorem step_frame {cfg : Cfg K V} {s s' : State K V} {a : Act K V} (h : step cfg s a = .ok s') :
    s.threads.length ≤ s'.threads.length ∧ ∀ k ∈ s'.gone, k ∈ s.gone ∨ a = .dropArena k := by
  have same : s'.threads.length = s.threads.length → s'.gone = s.gone →
      s.threads.length ≤ s'.threads.length ∧ ∀ k ∈ s'.gone, k ∈ s.gone ∨ a = .dropArena k := fun h1 h2 =>
    ⟨Nat.le_of_eq h1.symm, fun k hk => .inl (h2 ▸ hk)⟩
  have set : ∀ (t : Nat) (pc : Pc K V), (s.threads.set t pc).length = s.threads.length := fun t pc => List.length_set
  cases a with
  | spawn => cases h; exact ⟨by simp, fun k hk => .inl hk⟩
  | call t o =>
    simp only [step] at h
    split at h
    · split at h <;> cases h
      exact same (set _ _) rfl
    · cases h
  | run t a =>
    simp only [step] at h
    split at h
    · rename_i pc ht
      cases pc with
      | idle => cases h
      | want o =>
        simp only [run] at h
        split at h <;> cases h
        exact same (set _ _) rfl
      | inside o =>
        simp only [run] at h
        split at h
        · cases o with
          | intern k q mk => simp only at h; split at h <;> cases h <;> exact same (set _ _) rfl
          | query k q => cases h; exact same (set _ _) rfl
          | len k => cases h; exact same (set _ _) rfl
          | clear k =>
            simp only at h
            split at h <;> cases h
            exact same (set _ _) rfl
        · cases h
      | build k q mk =>
        simp only [run] at h
        split at h <;> cases h
        exact same (set _ _) rfl
      | insert k q mk p =>
        simp only [run] at h
        split at h
        · split at h
          · split at h <;> cases h <;> exact same (set _ _) rfl
          · cases h; exact same (set _ _) rfl
        · cases h
      | dropArg k q mk p => cases h; exact same (set _ _) rfl
      | leave o r => cases h; exact same (set _ _) rfl
    · cases h
  | panic t =>
    simp only [step] at h
    split at h
    · rename_i pc ht
      cases pc <;> cases h <;> exact same (set _ _) rfl
    · cases h
  | dropArena k =>
    simp only [step] at h
    split at h
    · cases h
      exact ⟨Nat.le_refl _, fun j hj => (List.mem_cons.mp hj).elim (fun e => .inr (e ▸ rfl)) .inl⟩
    · cases h
  | read k p =>
    simp only [step] at h
    split at h <;> cases h
    exact same rfl rfl

/-- The thread of a call that is dropping its argument exists and its arena has not been dropped. -/
theorem LateReach.late_ok [EquivBEq V] [LawfulHashable V] {cfg : Cfg K V} (lay : cfg.Layout) {x : LateState K V} (h : LateReach cfg x) :
    ∀ e ∈ x.late, e.tid < x.base.threads.length ∧ e.op.pool ∉ x.base.gone := by
  induction h with
  | init => intro e he; cases he
  | @step x x' a r hl hs ih =>
    have lift : ∀ {r}, r = Pool.step cfg x.base a → (∀ e ∈ x.late, a ≠ .dropArena e.op.pool) → x.lift r = .ok x' →
        ∀ e ∈ x'.late, e.tid < x'.base.threads.length ∧ e.op.pool ∉ x'.base.gone := by
      rintro r rfl hn h e he
      obtain ⟨s, h1, rfl⟩ := lift_ok h
      obtain ⟨f1, f2⟩ := step_frame h1
      obtain ⟨i1, i2⟩ := ih e he
      exact ⟨Nat.lt_of_lt_of_le i1 f1, fun hk => (f2 _ hk).elim i2 (hn e he)⟩
    cases a with
    | spawn => exact lift rfl (by intros; simp) hs
    | call t o => exact lift rfl (by intros; simp) hs
    | read k p => exact lift rfl (by intros; simp) hs
    | dropArena k =>
      simp only [lateStep] at hs
      split at hs
      · cases hs
      · rename_i hc
        refine lift rfl (fun e he c => hc ?_) hs
        cases c
        exact List.any_eq_true.mpr ⟨e, he, by simp⟩
    | panic t =>
      simp only [lateStep] at hs
      split at hs
      · split at hs
        · cases hs
          exact fun e he => ih e (List.mem_of_mem_eraseP he)
        · cases hs
      · split at hs
        · cases hs
        · exact lift rfl (by intros; simp) hs
      · exact lift rfl (by intros; simp) hs
    | run t a =>
      simp only [lateStep] at hs
      split at hs
      · split at hs
        · cases hs
          exact fun e he => ih e (List.mem_of_mem_eraseP he)
        · cases hs
      · rename_i k q mk p ht
        split at hs
        · cases hs
          intro e he
          show e.tid < (x.base.threads.set _ _).length ∧ _
          rw [List.length_set]
          rcases List.mem_cons.mp he with rfl | he
          · refine ⟨(List.getElem?_eq_some_iff.mp ht).1, ?_⟩
            obtain ⟨b, rb, c⟩ := r.covered
            have hb : b.threads[t]? = some (.dropArg k q mk p) := by rw [c.same]; exact ht
            have hg : ∀ j, j ∈ x.base.gone → j ∈ b.gone := fun j hj => by rw [c.same]; exact hj
            intro hk
            exact (rb.inv lay).alive t _ k hb rfl (hg _ hk)
          · exact ih e he
        · exact lift rfl (by intros; simp) hs
      · exact lift rfl (by intros; simp) hs

/-- A step of the covering state is a step of the covered one, up to the list of returned calls. -/
theorem Covers.back {cfg : Cfg K V} {b b' : State K V} {x : LateState K V} (c : Covers b x) {a : Act K V}
    (h : Pool.step cfg b a = .ok b') :
    ∃ l, b'.done = l ++ b.done ∧ Pool.step cfg x.base a = .ok (b'.withDone (l ++ x.base.done)) := by
  obtain ⟨l, h1, h2⟩ := step_done h x.base.done
  have e : b.withDone x.base.done = x.base := by rw [c.same]; rfl
  exact ⟨l, h1, e ▸ h2⟩

omit [DecidableEq K] [BEq V] [Hashable V] in
theorem find_late_head (e : Entry K V) (l : List (Entry K V)) :
    (e :: l).find? (fun e' => decide (e'.tid = e.tid)) = some e ∧ (e :: l).eraseP (fun e' => decide (e'.tid = e.tid)) = l := by
  simp

/-- The next step of a thread that holds a mutex. -/
theorem late_next [EquivBEq V] [LawfulHashable V] {cfg : Cfg K V} (lay : cfg.Layout) {x : LateState K V}
    (r : LateReach cfg x) {t : Tid} {pc : Pc K V} {o : Op K V} (ht : x.base.threads[t]? = some pc) {i : Nat}
    (hi : pc.holds cfg = some i) (ho : pc.op? = some o) :
    ∃ a x', lateStep cfg x (.run t a) = .ok x' ∧
      ((∃ pc', x'.base.threads[t]? = some pc' ∧ pc'.holds cfg = some i ∧ pc'.op? = some o ∧ pc'.rank < pc.rank ∧
          x'.base.done = x.base.done ∧ x'.late = x.late) ∨
       (∃ v, pc.rank = 1 ∧ x'.base.threads[t]? = some .idle ∧ x'.base.done = ⟨t, o, v⟩ :: x.base.done ∧ x'.late = x.late) ∨
       (∃ v, pc.rank = 2 ∧ x'.base.threads[t]? = some .idle ∧ x'.base.done = x.base.done ∧ x'.late = ⟨t, o, v⟩ :: x.late)) := by
  obtain ⟨b, rb, c⟩ := r.covered
  have hb : b.threads[t]? = some pc := by rw [c.same]; exact ht
  by_cases hd : ∃ k q mk p, pc = .dropArg k q mk p ∧ cfg.owns k = true
  · obtain ⟨k, q, mk, p, rfl, hw⟩ := hd
    cases ho
    refine ⟨0, ?_⟩
    simp only [lateStep, ht, hw, if_true]
    exact ⟨_, rfl, .inr (.inr ⟨.ptr p, rfl, getElem?_set_self' ht, rfl, rfl⟩)⟩
  · obtain ⟨a, b', hs, h⟩ := holder_next lay rb hb hi ho
    obtain ⟨l, hl, hx⟩ := c.back hs
    have hlift : lateStep cfg x (.run t a) = .ok { x with base := b'.withDone (l ++ x.base.done) } := by
      have : lateStep cfg x (.run t a) = x.lift (step cfg x.base (.run t a)) := by
        simp only [lateStep, ht]
        cases pc with
        | idle => cases hi
        | dropArg k q mk p =>
          simp only
          rw [if_neg (fun hw => hd ⟨k, q, mk, p, rfl, hw⟩)]
        | _ => rfl
      rw [this, hx]; rfl
    refine ⟨a, _, hlift, ?_⟩
    rcases h with ⟨pc', h1, h2, h3, h4, h5⟩ | ⟨v, h0, h1, h2, _⟩
    · have : l = [] := by
        have := congrArg List.length (h5.symm.trans hl)
        simp only [List.length_append] at this
        exact List.length_eq_zero_iff.mp (by omega)
      subst this
      exact .inl ⟨pc', h1, h2, h3, h4, rfl, rfl⟩
    · subst h0
      have hl' : l = [⟨t, o, v⟩] := by
        have := hl.symm.trans h2
        exact List.append_cancel_right (this.trans (List.singleton_append).symm)
      subst hl'
      exact .inr (.inl ⟨v, rfl, h1, rfl, rfl⟩)

/-- A thread that holds a mutex and is left alone returns within `rank` steps. -/
theorem late_finishes [EquivBEq V] [LawfulHashable V] {cfg : Cfg K V} (lay : cfg.Layout) {t : Tid} {o : Op K V} (m : Nat) :
    ∀ {x : LateState K V} {pc : Pc K V}, LateReach cfg x → x.base.threads[t]? = some pc → ∀ {i : Nat},
      pc.holds cfg = some i → pc.op? = some o → pc.rank ≤ m →
      ∃ n x' v, n ≤ m ∧ LateSolo cfg t n x x' ∧ x'.base.threads[t]? = some .idle ∧
        x'.base.done = ⟨t, o, v⟩ :: x.base.done ∧ x'.late = x.late := by
  induction m with
  | zero =>
    intro x pc _ _ i hi _ hm
    cases pc with
    | idle => cases hi
    | _ => exact absurd hm (by simp [Pc.rank])
  | succ m ih =>
    intro x pc r ht i hi ho hm
    obtain ⟨a, x', hs, h | ⟨v, _, h1, h2, h3⟩ | ⟨v, hr, h1, h2, h3⟩⟩ := late_next lay r ht hi ho
    · obtain ⟨pc', h1, h2, h3, h4, h5, h6⟩ := h
      obtain ⟨n, x'', v, hn, hsolo, hidle, hd, hlate⟩ := ih (r.step (a := .run t a) True.intro hs) h1 h2 h3 (by omega)
      exact ⟨n + 1, x'', v, by omega, .head hs hsolo, hidle, by rw [hd, h5], by rw [hlate, h6]⟩
    · exact ⟨1, x', v, by omega, .head hs .refl, h1, h2, h3⟩
    · obtain ⟨f1, f2⟩ := find_late_head ⟨t, o, v⟩ x.late
      have hs2 : lateStep cfg x' (.run t 0) = .ok { base := { x'.base with done := ⟨t, o, v⟩ :: x'.base.done }, late := x.late } := by
        simp only [lateStep, h1, h3]
        simp only [f1, f2]
      exact ⟨2, _, v, by omega, .head hs (.head hs2 .refl), h1, by rw [← h2], rfl⟩

/-- Run a list of actions. -/
def lateExec (cfg : Cfg K V) (x : LateState K V) : List (Act K V) → Res (LateState K V)
  | [] => .ok x
  | a :: l => match lateStep cfg x a with
    | .ok x' => lateExec cfg x' l
    | .blocked => .blocked
    | .ub => .ub

theorem lateExec_steps {cfg : Cfg K V} {x0 x x' : LateState K V} {l : List (Act K V)} (hl : ∀ a ∈ l, Act.Lawful a)
    (h : lateExec cfg x l = .ok x') (h0 : LateSteps cfg x0 x) : LateSteps cfg x0 x' := by
  induction l generalizing x with
  | nil => cases h; exact h0
  | cons a l ih =>
    simp only [lateExec] at h
    cases hs : lateStep cfg x a with
    | ok s1 =>
      rw [hs] at h
      exact ih (fun a ha => hl a (List.mem_cons_of_mem _ ha)) h (h0.tail (hl a List.mem_cons_self) hs)
    | blocked => rw [hs] at h; cases h
    | ub => rw [hs] at h; cases h

theorem LateSteps.reach {cfg : Cfg K V} {x x' : LateState K V} (h : LateSteps cfg x x') (r : LateReach cfg x) :
    LateReach cfg x' := by
  induction h with
  | refl => exact r
  | tail _ hl hs ih => exact ih.step hl hs

/-- Reachability of a scripted state satisfying a computable condition. -/
theorem lateScripted (l : List Demo.Cmd) (f : LateState Nat Demo.Val → Bool)
    (h : ((lateExec Demo.cfg lateInit (l.map Demo.Cmd.act)).get?.map f) = some true) :
    ∃ x, LateReach Demo.cfg x ∧ f x = true := by
  cases he : lateExec Demo.cfg lateInit (l.map Demo.Cmd.act) with
  | ok x =>
    rw [he] at h
    exact ⟨x, (lateExec_steps (Demo.lawful l) he .refl).reach .init, by simpa [Res.get?] using h⟩
  | blocked => rw [he] at h; cases h
  | ub => rw [he] at h; cases h

end Pool
