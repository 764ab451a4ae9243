import Verif.Props.Intern
import Verif.Pool.Solo
/-!
C55: `Intern` and `Arena` calls are starvation free when scheduler and locks are fair, also with infinitely many calls.
-/
namespace Pool
variable {K V : Type} [DecidableEq K] [BEq V] [Hashable V]

/-- An infinite execution from the start of the process: at every instant some action happens, or nothing does. -/
def Execution (cfg : Cfg K V) (σ : Nat → State K V) (α : Nat → Option (Act K V)) : Prop :=
  σ 0 = init ∧ ∀ i, match α i with
    | none => σ (i + 1) = σ i
    | some a => a.Lawful ∧ step cfg (σ i) a = .ok (σ (i + 1))

/-- Thread `t` can take a step of its running call. -/
def Enabled (cfg : Cfg K V) (t : Tid) (s : State K V) : Prop := ∃ a s', step cfg s (.run t a) = .ok s'

/-- Thread `t` takes a step of its running call at instant `i`, or panics in it. -/
def MovesAt (α : Nat → Option (Act K V)) (t : Tid) (i : Nat) : Prop := (∃ a, α i = some (.run t a)) ∨ α i = some (.panic t)

/-- A thread that can step again and again does step again and again. -/
def StronglyFair (cfg : Cfg K V) (σ : Nat → State K V) (α : Nat → Option (Act K V)) : Prop :=
  ∀ t, (∀ i, ∃ j, i ≤ j ∧ Enabled cfg t (σ j)) → ∀ i, ∃ j, i ≤ j ∧ MovesAt α t j

/-- Thread `t` is executing the call `o`. -/
def Executing (s : State K V) (t : Tid) (o : Op K V) : Prop := ∃ pc, s.threads[t]? = some pc ∧ pc.op? = some o

theorem own_run {cfg : Cfg K V} {s s' : State K V} {t : Tid} {a : Nat} {pc : Pc K V} {o : Op K V}
    (ht : s.threads[t]? = some pc) (ho : pc.op? = some o) (h : step cfg s (.run t a) = .ok s') :
    (∃ pc', s'.threads[t]? = some pc' ∧ pc'.op? = some o ∧ pc'.rank < pc.rank) ∨
    (s'.threads[t]? = some .idle ∧ (∃ r, s'.done = ⟨t, o, r⟩ :: s.done) ∧ s'.lock (cfg.lockOf o.pool) = none) := by
  have next : ∀ {s1 : State K V} {pc' : Pc K V}, s1.threads = s.threads.set t pc' → s1 = s' → pc'.op? = some o →
      pc'.rank < pc.rank → (∃ pc', s'.threads[t]? = some pc' ∧ pc'.op? = some o ∧ pc'.rank < pc.rank) ∨
        (s'.threads[t]? = some .idle ∧ (∃ r, s'.done = ⟨t, o, r⟩ :: s.done) ∧ s'.lock (cfg.lockOf o.pool) = none) := by
    rintro s1 pc' h1 rfl h2 h3
    exact .inl ⟨pc', by rw [h1]; exact getElem?_set_self' ht, h2, h3⟩
  simp only [step, ht] at h
  cases pc with
  | idle => cases ho
  | want o' =>
    cases ho
    simp only [run] at h
    split at h
    · cases h
    · exact next rfl (Res.ok.inj h) rfl (by simp [Pc.rank])
  | inside o' =>
    cases ho
    simp only [run] at h
    split at h
    · cases o with
      | intern k q v =>
        simp only at h
        split at h
        · exact next rfl (Res.ok.inj h) rfl (by simp [Pc.rank])
        · exact next rfl (Res.ok.inj h) rfl (by simp [Pc.rank])
      | query k q => exact next rfl (Res.ok.inj h) rfl (by simp [Pc.rank])
      | len k => exact next rfl (Res.ok.inj h) rfl (by simp [Pc.rank])
      | clear k =>
        simp only at h
        split at h
        · cases h
        · exact next rfl (Res.ok.inj h) rfl (by simp [Pc.rank])
    · cases h
  | build k q v =>
    cases ho
    simp only [run] at h
    split at h
    · cases h
    · exact next rfl (Res.ok.inj h) rfl (by simp [Pc.rank])
  | insert k q v p =>
    cases ho
    simp only [run] at h
    split at h
    · split at h
      · refine next ?_ (Res.ok.inj h) (pc' := .leave (.intern k q v) (.ptr p)) rfl (by simp [Pc.rank])
        simp only [State.commit]
        split <;> rfl
      · exact next rfl (Res.ok.inj h) rfl (by simp [Pc.rank])
    · cases h
  | dropArg k q v p =>
    cases ho
    exact next rfl (Res.ok.inj h) rfl (by simp [Pc.rank])
  | leave o' r =>
    cases ho
    cases h
    exact .inr ⟨getElem?_set_self' ht, ⟨r, rfl⟩, by simp [State.at, State.unlock]⟩

theorem own_panic {cfg : Cfg K V} {s s' : State K V} {t : Tid} {pc : Pc K V} {o : Op K V}
    (ht : s.threads[t]? = some pc) (ho : pc.op? = some o) (h : step cfg s (.panic t) = .ok s') :
    s'.threads[t]? = some .idle ∧ s'.lock (cfg.lockOf o.pool) = none := by
  simp only [step, ht] at h
  cases pc <;> simp only [runPanic] at h <;> cases h <;> cases ho <;>
    exact ⟨getElem?_set_self' ht, by simp [State.at, State.unlock, Op.pool]⟩

theorem other_step {cfg : Cfg K V} {s s' : State K V} {t : Tid} {pc : Pc K V} {x : Act K V}
    (ht : s.threads[t]? = some pc) (hne : pc ≠ .idle) (h : step cfg s x = .ok s')
    (h1 : ∀ a, x ≠ .run t a) (h2 : x ≠ .panic t) : s'.threads[t]? = some pc := by
  have set : ∀ (u : Tid) (y : Pc K V), u ≠ t → (s.threads.set u y)[t]? = some pc := by
    intro u y hu
    rw [List.getElem?_set_ne hu]; exact ht
  cases x with
  | spawn =>
    cases h
    exact (List.getElem?_append_left (List.getElem?_eq_some_iff.mp ht).1).trans ht
  | call u o =>
    simp only [step] at h
    split at h
    · rename_i hu
      split at h
      · cases h
      · cases h
        refine set u _ ?_
        rintro rfl
        rw [ht] at hu; cases hu; exact hne rfl
    · cases h
  | run u a =>
    have hu : u ≠ t := by rintro rfl; exact h1 a rfl
    simp only [step] at h
    split at h
    · rename_i pcu hpu
      cases pcu with
      | idle => cases h
      | want o' => simp only [run] at h; split at h <;> cases h; exact set u _ hu
      | inside o' =>
        simp only [run] at h
        split at h
        · cases o' with
          | intern k q v => simp only at h; split at h <;> cases h <;> exact set u _ hu
          | query k q => cases h; exact set u _ hu
          | len k => cases h; exact set u _ hu
          | clear k => simp only at h; split at h <;> cases h; exact set u _ hu
        · cases h
      | build k q v => simp only [run] at h; split at h <;> cases h; exact set u _ hu
      | insert k q v p =>
        simp only [run] at h
        split at h
        · split at h
          · cases h
            simp only [State.commit]
            split <;> exact set u _ hu
          · cases h; exact set u _ hu
        · cases h
      | dropArg k q v p => cases h; exact set u _ hu
      | leave o r => cases h; exact set u _ hu
    · cases h
  | panic u =>
    have hu : u ≠ t := by rintro rfl; exact h2 rfl
    simp only [step] at h
    split at h
    · rename_i pcu hpu
      cases pcu <;> simp only [runPanic] at h <;> cases h <;> exact set u _ hu
    · cases h
  | dropArena k => simp only [step] at h; split at h <;> cases h; exact ht
  | read k p => simp only [step] at h; split at h <;> cases h; exact ht

theorem Execution.reach {cfg : Cfg K V} {σ : Nat → State K V} {α : Nat → Option (Act K V)} (h : Execution cfg σ α) :
    ∀ i, Reach cfg (σ i) := by
  intro i
  induction i with
  | zero => rw [h.1]; exact .init
  | succ i ih =>
    have := h.2 i
    cases ha : α i with
    | none => rw [ha] at this; simp only at this; rw [this]; exact ih
    | some a => rw [ha] at this; exact .step ih this.1 this.2

/-- How a call that thread `t` is executing at instant `i` ends: at some later instant `j`, until which `t` keeps executing
it, it panics or returns a result. -/
def Ends (σ : Nat → State K V) (α : Nat → Option (Act K V)) (t : Tid) (o : Op K V) (i : Nat) : Prop :=
  ∃ j, i ≤ j ∧ (∀ m, i ≤ m → m ≤ j → Executing (σ m) t o) ∧ (σ (j + 1)).threads[t]? = some .idle ∧
    (α j = some (.panic t) ∨ ∃ r, (σ (j + 1)).done = ⟨t, o, r⟩ :: (σ j).done)

section
variable {cfg : Cfg K V} {σ : Nat → State K V} {α : Nat → Option (Act K V)}

theorem op_ne_idle {pc : Pc K V} {o : Op K V} (h : pc.op? = some o) : pc ≠ .idle := by rintro rfl; cases h

/-- A thread does not change state until it moves. -/
theorem Execution.wait (h : Execution cfg σ α) {i : Nat} {t : Tid} {pc : Pc K V} (hne : pc ≠ .idle)
    (ht : (σ i).threads[t]? = some pc) : ∀ j, i ≤ j → (∀ m, i ≤ m → m < j → ¬ MovesAt α t m) → (σ j).threads[t]? = some pc := by
  intro j hj
  induction hj with
  | refl => intro _; exact ht
  | @step j hj ih =>
    replace hj : i ≤ j := hj
    intro hm
    have h1 := ih (fun m a b => hm m a (Nat.lt_succ_of_lt b))
    have h2 := h.2 j
    have h3 := hm j hj (Nat.lt_succ_self j)
    cases ha : α j with
    | none => rw [ha] at h2; simp only at h2; show (σ (j + 1)).threads[t]? = _; rw [h2]; exact h1
    | some x =>
      rw [ha] at h2
      exact other_step h1 hne h2.2 (fun a e => h3 (.inl ⟨a, by rw [ha, e]⟩)) (fun e => h3 (.inr (by rw [ha, e])))

/-- If a thread inside a call moves at all, it moves for the first time in the state it is in. -/
theorem Execution.first (h : Execution cfg σ α) {i : Nat} {t : Tid} {pc : Pc K V} (hne : pc ≠ .idle)
    (ht : (σ i).threads[t]? = some pc) (hm : ∃ j, i ≤ j ∧ MovesAt α t j) :
    ∃ j, i ≤ j ∧ MovesAt α t j ∧ ∀ m, i ≤ m → m ≤ j → (σ m).threads[t]? = some pc := by
  obtain ⟨j, hj, hmv, hmin⟩ : ∃ j, i ≤ j ∧ MovesAt α t j ∧ ∀ m, i ≤ m → m < j → ¬ MovesAt α t m := by
    obtain ⟨j, hj, hmv⟩ := hm
    induction j using Nat.strongRecOn with
    | _ j ih =>
      by_cases hx : ∀ m, i ≤ m → m < j → ¬ MovesAt α t m
      · exact ⟨j, hj, hmv, hx⟩
      · simp only [Classical.not_forall, Classical.not_not] at hx
        obtain ⟨m, h1, h2, h3⟩ := hx
        exact ih m h2 h1 h3
  exact ⟨j, hj, hmv, fun m h1 h2 => h.wait hne ht m h1 (fun m' a b => hmin m' a (Nat.lt_of_lt_of_le b h2))⟩

/-- One move closer to the end of the call. -/
theorem Execution.advance (h : Execution cfg σ α) {i : Nat} {t : Tid} {pc : Pc K V} {o : Op K V} (ho : pc.op? = some o)
    (ht : (σ i).threads[t]? = some pc) (hm : ∃ j, i ≤ j ∧ MovesAt α t j) :
    (Ends σ α t o i ∧ ∃ j, i ≤ j ∧ (σ j).lock (cfg.lockOf o.pool) = none) ∨ ∃ j pc', i ≤ j ∧ (∀ m, i ≤ m → m ≤ j → Executing (σ m) t o) ∧ (σ j).threads[t]? = some pc' ∧
      pc'.op? = some o ∧ pc'.rank < pc.rank := by
  obtain ⟨j, hj, hmv, hc⟩ := h.first (op_ne_idle ho) ht hm
  have h2 := h.2 j
  have hE : ∀ m, i ≤ m → m ≤ j → Executing (σ m) t o := fun m h1 h2 => ⟨pc, hc m h1 h2, ho⟩
  rcases hmv with ⟨a, ha⟩ | ha
  · rw [ha] at h2
    rcases own_run (hc j hj (Nat.le_refl _)) ho h2.2 with ⟨pc', g1, g2, g3⟩ | ⟨g1, g2, g4⟩
    · refine .inr ⟨j + 1, pc', by omega, fun m h1 h2 => ?_, g1, g2, g3⟩
      by_cases hmj : m = j + 1
      · subst hmj; exact ⟨pc', g1, g2⟩
      · exact hE m h1 (by omega)
    · exact .inl ⟨⟨j, hj, hE, g1, .inr g2⟩, j + 1, by omega, g4⟩
  · rw [ha] at h2
    have := own_panic (hc j hj (Nat.le_refl _)) ho h2.2
    exact .inl ⟨⟨j, hj, hE, this.1, .inl ha⟩, j + 1, by omega, this.2⟩

theorem Ends.earlier {t : Tid} {o : Op K V} {i j : Nat} (hij : i ≤ j) (hE : ∀ m, i ≤ m → m ≤ j → Executing (σ m) t o)
    (h : Ends σ α t o j) : Ends σ α t o i := by
  obtain ⟨n, h1, h2, h3⟩ := h
  refine ⟨n, by omega, fun m a b => ?_, h3⟩
  by_cases hm : m ≤ j
  · exact hE m a hm
  · exact h2 m (by omega) b

variable [EquivBEq V] [LawfulHashable V]

theorem Execution.holder_ends (lay : cfg.Layout) (h : Execution cfg σ α) (hf : StronglyFair cfg σ α) {t : Tid} {o : Op K V} :
    ∀ n i pc, (σ i).threads[t]? = some pc → pc.op? = some o → pc.rank ≤ n → (pc.holds cfg).isSome = true →
      Ends σ α t o i ∧ ∃ j, i ≤ j ∧ (σ j).lock (cfg.lockOf o.pool) = none := by
  intro n
  induction n with
  | zero => intro i pc ht ho hn hh; cases pc <;> simp [Pc.rank, Pc.holds] at hn hh
  | succ n ih =>
    intro i pc ht ho hn hh
    have hm : ∃ j, i ≤ j ∧ MovesAt α t j := by
      refine Classical.byContradiction fun hno => ?_
      have hno' : ∀ m, i ≤ m → ¬ MovesAt α t m := fun m h1 h2 => hno ⟨m, h1, h2⟩
      obtain ⟨k, hk⟩ := Option.isSome_iff_exists.mp hh
      obtain ⟨j, h1, h2⟩ := hf t (fun j => ⟨max i j, Nat.le_max_right _ _,
        holder_steps lay (h.reach _) (h.wait (op_ne_idle ho) ht (max i j) (Nat.le_max_left _ _) (fun m a _ => hno' m a)) hk⟩) i
      exact hno' j h1 h2
    rcases h.advance ho ht hm with h1 | ⟨j, pc', hj, hE, g1, g2, g3⟩
    · exact h1
    · obtain ⟨e1, j', hj', e2⟩ := ih j pc' g1 g2 (by omega) (by
        cases pc <;> cases pc' <;> simp [Pc.rank, Pc.holds, Pc.op?] at g3 hh g2 ⊢)
      exact ⟨Ends.earlier hj hE e1, j', by omega, e2⟩

/-- A lock is free again and again. -/
theorem Execution.lock_free (lay : cfg.Layout) (h : Execution cfg σ α) (hf : StronglyFair cfg σ α) (l i : Nat) :
    ∃ j, i ≤ j ∧ (σ j).lock l = none := by
  cases hl : (σ i).lock l with
  | none => exact ⟨i, Nat.le_refl _, hl⟩
  | some u =>
    obtain ⟨pc, hu, hh⟩ := ((h.reach i).inv lay).held l u hl
    obtain ⟨o, ho, hol⟩ : ∃ o, pc.op? = some o ∧ cfg.lockOf o.pool = l := by
      cases pc <;> simp [Pc.holds] at hh <;> exact ⟨_, rfl, hh⟩
    have := (h.holder_ends lay hf _ i pc hu ho (Nat.le_refl _) (by rw [hh]; rfl)).2
    rwa [hol] at this

/-- **C55.** If scheduler and locks are strongly fair, every call on an `Intern` or `Arena` pool ends: it returns, or user
code called by it panics; no matter how many other calls are made meanwhile. -/
theorem C55_starvation_free (lay : cfg.Layout) (h : Execution cfg σ α) (hf : StronglyFair cfg σ α) {t : Tid} {o : Op K V}
    {i : Nat} (he : Executing (σ i) t o) : Ends σ α t o i := by
  obtain ⟨pc, ht, ho⟩ := he
  cases hh : (pc.holds cfg).isSome with
  | true => exact (h.holder_ends lay hf _ i pc ht ho (Nat.le_refl _) hh).1
  | false =>
    obtain rfl : pc = .want o := by
      cases pc <;> simp [Pc.holds, Pc.op?] at hh ho
      rw [ho]
    have hm : ∃ j, i ≤ j ∧ MovesAt α t j := by
      refine Classical.byContradiction fun hno => ?_
      have hno' : ∀ m, i ≤ m → ¬ MovesAt α t m := fun m h1 h2 => hno ⟨m, h1, h2⟩
      obtain ⟨j, h1, h2⟩ := hf t (fun j => by
        obtain ⟨k, hk, hl⟩ := h.lock_free lay hf (cfg.lockOf o.pool) (max i j)
        have h3 := Nat.le_max_left i j
        have h4 := Nat.le_max_right i j
        have hw := h.wait (op_ne_idle ho) ht k (by omega) (fun m a _ => hno' m a)
        refine ⟨k, by omega, 0, ?_⟩
        simp only [step, hw, run, hl, Option.isSome_none, Bool.false_eq_true, if_false]
        exact ⟨_, rfl⟩) i
      exact hno' j h1 h2
    rcases h.advance ho ht hm with h1 | ⟨j, pc', hj, hE, g1, g2, g3⟩
    · exact h1.1
    · refine Ends.earlier hj hE (h.holder_ends lay hf _ j pc' g1 g2 (Nat.le_refl _) ?_).1
      cases pc' <;> simp [Pc.rank, Pc.holds, Pc.op?] at g3 g2 ⊢
end

/-! ### The hypotheses are met -/

/-- The states an infinite list of actions goes through. -/
def play (cfg : Cfg K V) (α : Nat → Option (Act K V)) : Nat → State K V
  | 0 => init
  | i + 1 => match α i with
    | none => play cfg α i
    | some a => match step cfg (play cfg α i) a with
      | .ok s => s
      | _ => play cfg α i

theorem play_exec {cfg : Cfg K V} (l : List (Act K V)) {s' : State K V} (hs : exec cfg init l = .ok s') :
    ∀ i, i ≤ l.length → exec cfg init (l.take i) = .ok (play cfg (fun i => l[i]?) i) ∧
      ∀ (hi : i < l.length), step cfg (play cfg (fun i => l[i]?) i) l[i] = .ok (play cfg (fun i => l[i]?) (i + 1)) := by
  have one : ∀ i, exec cfg init (l.take i) = .ok (play cfg (fun i => l[i]?) i) → ∀ (hi : i < l.length),
      step cfg (play cfg (fun i => l[i]?) i) l[i] = .ok (play cfg (fun i => l[i]?) (i + 1)) := by
    intro i h hi
    have h1 : exec cfg init (l.take i ++ l.drop i) = .ok s' := by rw [List.take_append_drop]; exact hs
    rw [exec_append, h, List.drop_eq_getElem_cons hi] at h1
    simp only [exec] at h1
    cases h2 : step cfg (play cfg (fun i => l[i]?) i) l[i] with
    | ok s1 => simp only [play, List.getElem?_eq_getElem hi, h2]
    | blocked => rw [h2] at h1; cases h1
    | ub => rw [h2] at h1; cases h1
  intro i
  induction i with
  | zero => intro _; exact ⟨rfl, one 0 rfl⟩
  | succ i ih =>
    intro hi
    have h1 := ih (by omega)
    have h2 := h1.2 (by omega)
    have h3 : exec cfg init (l.take (i + 1)) = .ok (play cfg (fun i => l[i]?) (i + 1)) := by
      rw [List.take_succ_eq_append_getElem (by omega), exec_append, h1.1]
      simp only [exec, h2]
    exact ⟨h3, one _ h3⟩

/-- Every finite list of lawful actions at the end of which no call is running is a fair execution. -/
theorem play_fair {cfg : Cfg K V} (l : List (Act K V)) (hl : ∀ a ∈ l, a.Lawful) {s' : State K V}
    (hs : exec cfg init l = .ok s') (hidle : ∀ pc ∈ s'.threads, pc.pool?.isNone = true) :
    Execution cfg (play cfg (fun i => l[i]?)) (fun i => l[i]?) ∧ StronglyFair cfg (play cfg (fun i => l[i]?)) (fun i => l[i]?) := by
  have fin : ∀ i, l.length ≤ i → play cfg (fun i => l[i]?) i = s' := by
    intro i hi
    induction hi with
    | refl =>
      have := (play_exec l hs l.length (Nat.le_refl _)).1
      rw [List.take_length, hs] at this
      exact (Res.ok.inj this).symm
    | @step i hi ih =>
      have : l[i]? = none := List.getElem?_eq_none hi
      simp only [play, this, ih]
  refine ⟨⟨rfl, fun i => ?_⟩, fun t h => ?_⟩
  · by_cases hi : i < l.length
    · simp only [List.getElem?_eq_getElem hi]
      exact ⟨hl _ (List.getElem_mem hi), (play_exec l hs i (by omega)).2 hi⟩
    · have : l[i]? = none := List.getElem?_eq_none (by omega)
      simp only [this, play]
  · obtain ⟨j, h1, a, s1, h2⟩ := h l.length
    rw [fin j h1] at h2
    simp only [step] at h2
    cases ht : s'.threads[t]? with
    | none => simp [ht] at h2
    | some pc =>
      have := hidle pc (List.mem_of_getElem? ht)
      cases pc <;> simp [Pc.pool?] at this
      simp [ht, run] at h2

/-- The script of `Verif/Pool/Demo.lean`: after four actions both threads are executing calls that intern equal values. -/
example : ∃ σ α, Execution Demo.cfg σ α ∧ StronglyFair Demo.cfg σ α ∧
    Executing (σ 4) 0 (.intern 0 (.ofVal ⟨5, 1⟩) ⟨5, 1⟩) ∧ Executing (σ 4) 1 (.intern 0 (.ofVal ⟨5, 2⟩) ⟨5, 2⟩) := by
  obtain ⟨s, h, c⟩ := exec_check (cfg := Demo.cfg) (l := Demo.script.map Demo.Cmd.act)
    (fun s => s.threads.all (fun pc => pc.pool?.isNone)) (by decide)
  obtain ⟨h1, h2⟩ := play_fair _ (Demo.lawful _) h (by simpa using c)
  exact ⟨_, _, h1, h2, ⟨_, rfl, rfl⟩, ⟨_, rfl, rfl⟩⟩

end Pool
