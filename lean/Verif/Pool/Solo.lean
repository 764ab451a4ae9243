import Verif.Pool.Order
namespace Pool
variable {K V : Type} [DecidableEq K] [BEq V] [Hashable V]

/-- Executions in which only thread `t` runs (and nobody panics), with the number of steps. -/
inductive Solo (cfg : Cfg K V) (t : Tid) : Nat → State K V → State K V → Prop where
  | refl {s} : Solo cfg t 0 s s
  | head {s s' s'' a n} : Pool.step cfg s (.run t a) = .ok s' → Solo cfg t n s' s'' → Solo cfg t (n + 1) s s''

theorem Solo.steps {cfg : Cfg K V} {t : Tid} {n : Nat} {s0 s s' : State K V} (h : Solo cfg t n s s') (h0 : Steps cfg s0 s) :
    Steps cfg s0 s' := by
  induction h with
  | refl => exact h0
  | head hs _ ih => exact ih (h0.tail (a := .run t _) True.intro hs)

/-- The call a thread is executing. -/
def Pc.op? : Pc K V → Option (Op K V)
  | .idle => none
  | .want o | .inside o | .leave o _ => some o
  | .build k q v | .insert k q v _ | .dropArg k q v _ => some (.intern k q v)

/-- Steps left before the call returns, at most. -/
def Pc.rank : Pc K V → Nat
  | .idle => 0
  | .want _ => 5
  | .inside _ => 4
  | .build _ _ _ => 3
  | .insert _ _ _ _ => 2
  | .dropArg _ _ _ _ => 2
  | .leave _ _ => 1

/-- A lock holder's next step. -/
theorem holder_next [EquivBEq V] [LawfulHashable V] {cfg : Cfg K V} (lay : cfg.Layout) {s : State K V} (r : Reach cfg s)
    {t : Tid} {pc : Pc K V} {o : Op K V} (ht : s.threads[t]? = some pc) {i : Nat} (hi : pc.holds cfg = some i)
    (ho : pc.op? = some o) :
    ∃ a s', step cfg s (.run t a) = .ok s' ∧
      ((∃ pc', s'.threads[t]? = some pc' ∧ pc'.holds cfg = some i ∧ pc'.op? = some o ∧ pc'.rank < pc.rank ∧
          s'.done = s.done) ∨
       (∃ x, pc = .leave o x ∧ s'.threads[t]? = some .idle ∧ s'.done = ⟨t, o, x⟩ :: s.done ∧ s'.log = s.log)) := by
  have I := r.inv lay
  have hok := I.pcs t pc ht
  have next : ∀ {s' : State K V} {pc' : Pc K V}, s'.threads = s.threads.set t pc' → pc'.holds cfg = some i →
      pc'.op? = some o → pc'.rank < pc.rank → s'.done = s.done →
      ((∃ pc', s'.threads[t]? = some pc' ∧ pc'.holds cfg = some i ∧ pc'.op? = some o ∧ pc'.rank < pc.rank ∧
          s'.done = s.done) ∨
       (∃ x, pc = .leave o x ∧ s'.threads[t]? = some .idle ∧ s'.done = ⟨t, o, x⟩ :: s.done ∧ s'.log = s.log)) :=
    fun h1 h2 h3 h4 h5 => .inl ⟨_, by rw [h1]; exact getElem?_set_self' ht, h2, h3, h4, h5⟩
  simp only [step, ht]
  cases pc with
  | idle => cases hi
  | want o => cases hi
  | inside o' =>
    cases ho
    simp only [run, I.tableOk, if_true]
    refine ⟨0, ?_⟩
    cases o with
    | intern k q v =>
      simp only
      cases hf : find s k q with
      | some p => exact ⟨_, rfl, next rfl hi rfl (by decide : 2 < 4) rfl⟩
      | none => exact ⟨_, rfl, next rfl hi rfl (by decide : 3 < 4) rfl⟩
    | query k q => exact ⟨_, rfl, next rfl hi rfl (by decide : 1 < 4) rfl⟩
    | len k => exact ⟨_, rfl, next rfl hi rfl (by decide : 1 < 4) rfl⟩
    | clear k => exact hok.elim
  | build k q v =>
    cases ho
    obtain ⟨a, addr, h⟩ := exists_fresh cfg s k v
    refine ⟨a, ?_⟩
    simp only [run, h]
    exact ⟨_, rfl, next rfl hi rfl (by decide : 2 < 3) rfl⟩
  | insert k q v p =>
    cases ho
    simp only [run, I.tableOk, if_true]
    refine ⟨0, ?_⟩
    cases hf : find s k (.ofVal v) with
    | some p' =>
      by_cases hw : cfg.owns k = true
      · simp only [hw, if_true]
        exact ⟨_, rfl, next rfl hi rfl (by decide : 1 < 2) rfl⟩
      · simp only [hw]
        exact ⟨_, rfl, next rfl hi rfl (by decide : 1 < 2) rfl⟩
    | none => exact ⟨_, rfl, next rfl hi rfl (by decide : 1 < 2) rfl⟩
  | dropArg k q v p =>
    cases ho
    exact ⟨0, _, rfl, next rfl hi rfl (by decide : 1 < 2) rfl⟩
  | leave o' x =>
    cases ho
    exact ⟨0, _, rfl, .inr ⟨x, rfl, getElem?_set_self' ht, rfl, rfl⟩⟩

/-- A lock holder that is left alone returns within `rank` steps. -/
theorem holder_finishes [EquivBEq V] [LawfulHashable V] {cfg : Cfg K V} (lay : cfg.Layout) {t : Tid} {o : Op K V} (m : Nat) :
    ∀ {s : State K V} {pc : Pc K V}, Reach cfg s → s.threads[t]? = some pc → ∀ {i : Nat}, pc.holds cfg = some i →
      pc.op? = some o → pc.rank ≤ m →
      ∃ n s' x, n ≤ m ∧ Solo cfg t n s s' ∧ s'.threads[t]? = some .idle ∧ s'.done = ⟨t, o, x⟩ :: s.done := by
  induction m with
  | zero =>
    intro s pc _ _ i hi _ hm
    cases pc with
    | idle => cases hi
    | _ => exact absurd hm (by simp [Pc.rank])
  | succ m ih =>
    intro s pc r ht i hi ho hm
    obtain ⟨a, s', hs, h | ⟨x, _, h1, h2, _⟩⟩ := holder_next lay r ht hi ho
    · obtain ⟨pc', h1, h2, h3, h4, h5⟩ := h
      obtain ⟨n, s'', x, hn, hsolo, hidle, hd⟩ := ih (r.step (a := .run t a) True.intro hs) h1 h2 h3 (by omega)
      exact ⟨n + 1, s'', x, by omega, .head hs hsolo, hidle, by rw [hd, h5]⟩
    · exact ⟨1, s', x, by omega, .head hs .refl, h1, h2⟩

/-- A call on a pool whose lock is free completes within 5 steps of its thread. -/
theorem call_finishes [EquivBEq V] [LawfulHashable V] {cfg : Cfg K V} (lay : cfg.Layout) {s : State K V} (r : Reach cfg s)
    {t : Tid} (ht : s.threads[t]? = some .idle) {o : Op K V} (hl : o.Lawful) (hg : o.pool ∉ s.gone)
    (hlock : s.lock (cfg.lockOf o.pool) = none) :
    ∃ s1 n s' x, step cfg s (.call t o) = .ok s1 ∧ n ≤ 5 ∧ Solo cfg t n s1 s' ∧ s'.threads[t]? = some .idle ∧
      s'.done = ⟨t, o, x⟩ :: s.done := by
  have h1 : step cfg s (.call t o) = .ok (s.at t (.want o)) := by simp only [step, ht]; rw [if_neg hg]
  have ht1 : (s.at t (.want o)).threads[t]? = some (.want o) := getElem?_set_self' ht
  have h2 : ∃ s2, step cfg (s.at t (.want o)) (.run t 0) = .ok s2 ∧ s2.threads[t]? = some (.inside o) ∧ s2.done = s.done := by
    simp only [step, ht1, run]
    rw [if_neg (by show ¬ (s.lock _).isSome = true; rw [hlock]; simp)]
    exact ⟨_, rfl, getElem?_set_self' ht1, rfl⟩
  obtain ⟨s2, h2, ht2, hd2⟩ := h2
  have r1 : Reach cfg (s.at t (.want o)) := r.step (a := .call t o) hl h1
  have r2 := r1.step (a := .run t 0) True.intro h2
  obtain ⟨n, s', x, hn, hsolo, hidle, hd⟩ := holder_finishes lay 4 r2 ht2 rfl rfl (Nat.le_refl 4)
  exact ⟨_, n + 1, s', x, h1, by omega, .head h2 hsolo, hidle, by rw [hd, hd2]⟩

end Pool
