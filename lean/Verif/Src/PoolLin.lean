import Verif.Src.PoolAcct
import Verif.Pool.Order
/-
Histories: what clients have seen, and the log of the model.
-/
namespace Src.PoolCode
open Arc (Res)
open Pool (Tid Ptr Query Ret Obj Cfg Entry Pc)

variable {K V : Type} [DecidableEq K] [BEq V] [Hashable V]

/-- The operation that a thread of the model is executing. -/
def opPc : Pc K V → Option (Pool.Op K V)
  | .idle => none
  | .want o | .inside o | .leave o _ => some o
  | .build k q v | .insert k q v _ | .dropArg k q v _ => some (.intern k q v)

/-- It has not taken effect yet. -/
def busyPc : Pc K V → Nat
  | .idle | .leave _ _ => 0
  | _ => 1

/-- The log of the model against what clients have seen. -/
structure Lin (hist : List (Event K V)) (s : Pool.State K V) : Prop where
  calls : ∀ j o, .call j o ∈ hist → j < s.threads.length
  ops : ∀ (id : Nat) pc o, s.threads[id]? = some pc → opPc pc = some o → .call id o ∈ hist
  log : ∀ e ∈ s.log, .call e.tid e.op ∈ hist
  once : ∀ (id : Nat) pc, s.threads[id]? = some pc → s.log.countP (fun e => e.tid == id) + busyPc pc ≤ 1
  rets : ∀ e, .ret e ∈ hist → e ∈ s.done
  order : ∀ h2 j o h1 e newer e' older, hist = h2 ++ .call j o :: h1 → .ret e ∈ h1 → s.log = newer ++ e' :: older → e'.tid = j → e ∈ older

/-- What a step of a thread of the model does to the log. -/
inductive Did (id : Nat) (s s' : Pool.State K V) : Prop
  | quiet (pc pc' : Pc K V) (h : s.threads[id]? = some pc) (ho : opPc pc' = opPc pc ∨ pc' = .idle) (hb : busyPc pc' ≤ busyPc pc)
      (h1 : s'.log = s.log) (h2 : s'.done = s.done) (h3 : s'.threads = s.threads.set id pc')
  | commit (pc : Pc K V) (o : Pool.Op K V) (r : Ret) (h : s.threads[id]? = some pc) (ho : opPc pc = some o) (hb : busyPc pc = 1)
      (h1 : s'.log = ⟨id, o, r⟩ :: s.log) (h2 : s'.done = s.done) (h3 : s'.threads = s.threads.set id (.leave o r))
  | leave (o : Pool.Op K V) (r : Ret) (h : s.threads[id]? = some (.leave o r)) (h1 : s'.log = s.log)
      (h2 : s'.done = ⟨id, o, r⟩ :: s.done) (h3 : s'.threads = s.threads.set id .idle)

theorem run_did {cfg : Cfg K V} {s s' : Pool.State K V} {id a : Nat} (h : Pool.step cfg s (.run id a) = .ok s') : Did id s s' := by
  simp only [Pool.step] at h
  cases ht : s.threads[id]? with
  | none => rw [ht] at h; cases h
  | some pc =>
    rw [ht] at h
    simp only at h
    cases pc with
    | idle => cases h
    | want o =>
      simp only [Pool.run] at h
      split at h
      · cases h
      · cases h; exact .quiet _ (.inside o) ht (.inl rfl) (Nat.le_refl _) rfl rfl rfl
    | inside o =>
      simp only [Pool.run] at h
      split at h
      · cases o with
        | intern k q v =>
          simp only at h
          cases hf : Pool.find s k q with
          | some p => rw [hf] at h; cases h; exact .quiet _ (.dropArg k q v p) ht (.inl rfl) (Nat.le_refl _) rfl rfl rfl
          | none => rw [hf] at h; cases h; exact .quiet _ (.build k q v) ht (.inl rfl) (Nat.le_refl _) rfl rfl rfl
        | query k q => simp only at h; cases h; exact .commit _ _ _ ht rfl rfl rfl rfl rfl
        | len k => simp only at h; cases h; exact .commit _ _ _ ht rfl rfl rfl rfl rfl
        | clear k =>
          simp only at h
          split at h
          · cases h
          · cases h; exact .commit _ _ _ ht rfl rfl rfl rfl rfl
      · cases h
    | build k q v =>
      simp only [Pool.run] at h
      split at h
      · cases h
      · cases h; exact .quiet _ (.insert k q v _) ht (.inl rfl) (Nat.le_refl _) rfl rfl rfl
    | insert k q v p =>
      simp only [Pool.run] at h
      split at h
      · cases hf : Pool.find s k (.ofVal v) with
        | some p' =>
          rw [hf] at h
          by_cases ho : cfg.owns k = true
          · simp only [ho, if_true] at h
            cases h; exact .commit _ _ _ ht rfl rfl rfl rfl rfl
          · simp only [ho] at h
            cases h; exact .commit _ _ _ ht rfl rfl rfl rfl rfl
        | none => rw [hf] at h; cases h; exact .commit _ _ _ ht rfl rfl rfl rfl rfl
      · cases h
    | dropArg k q v p => cases h; exact .commit _ _ _ ht rfl rfl rfl rfl rfl
    | leave o r => cases h; exact .leave o r ht rfl rfl rfl

theorem panic_did {cfg : Cfg K V} {s s' : Pool.State K V} {id : Nat} (h : Pool.step cfg s (.panic id) = .ok s') : Did id s s' := by
  simp only [Pool.step] at h
  cases ht : s.threads[id]? with
  | none => rw [ht] at h; cases h
  | some pc =>
    rw [ht] at h
    cases pc with
    | idle => cases h
    | want o => cases h
    | leave o r => cases h
    | inside o => cases h; exact .quiet _ .idle ht (.inr rfl) (Nat.zero_le _) rfl rfl rfl
    | build k q v => cases h; exact .quiet _ .idle ht (.inr rfl) (Nat.zero_le _) rfl rfl rfl
    | dropArg k q v p => cases h; exact .quiet _ .idle ht (.inr rfl) (Nat.zero_le _) rfl rfl rfl
    | insert k q v p => cases h; exact .quiet _ .idle ht (.inr rfl) (Nat.zero_le _) rfl rfl rfl

variable {hist : List (Event K V)} {s s' : Pool.State K V} {id : Nat}

omit [DecidableEq K] [BEq V] [Hashable V] in
theorem Lin.did (h : Lin hist s) (hd : ∀ e ∈ s.done, e ∈ s.log) (d : Did id s s') : Lin hist s' := by
  cases d with
  | quiet pc pc' ht ho hb h1 h2 h3 =>
    refine ⟨?_, ?_, ?_, ?_, ?_, ?_⟩
    · rw [h3, List.length_set]; exact h.calls
    · intro u pu o hu hop
      rw [h3] at hu
      rcases Pool.getElem?_set_cases hu with ⟨rfl, rfl⟩ | ⟨_, hu⟩
      · rcases ho with ho | rfl
        · exact h.ops _ _ _ ht (ho ▸ hop)
        · cases hop
      · exact h.ops _ _ _ hu hop
    · rw [h1]; exact h.log
    · intro u pu hu
      rw [h3] at hu; rw [h1]
      rcases Pool.getElem?_set_cases hu with ⟨rfl, rfl⟩ | ⟨_, hu⟩
      · have := h.once _ _ ht; omega
      · exact h.once _ _ hu
    · rw [h2]; exact h.rets
    · rw [h1]; exact h.order
  | commit pc o r ht ho hb h1 h2 h3 =>
    refine ⟨?_, ?_, ?_, ?_, ?_, ?_⟩
    · rw [h3, List.length_set]; exact h.calls
    · intro u pu o' hu hop
      rw [h3] at hu
      rcases Pool.getElem?_set_cases hu with ⟨rfl, rfl⟩ | ⟨_, hu⟩
      · cases hop; exact h.ops _ _ _ ht ho
      · exact h.ops _ _ _ hu hop
    · rw [h1]
      intro e he
      rcases List.mem_cons.mp he with rfl | he
      · exact h.ops _ _ _ ht ho
      · exact h.log e he
    · intro u pu hu
      rw [h3] at hu; rw [h1, List.countP_cons]
      rcases Pool.getElem?_set_cases hu with ⟨rfl, rfl⟩ | ⟨hne, hu⟩
      · have := h.once _ _ ht
        simp only [busyPc, beq_self_eq_true, if_true]; omega
      · have := h.once _ _ hu
        have e : (id == u) = false := by simpa using fun e => hne e.symm
        simp only [e]; simpa using this
    · rw [h2]; exact h.rets
    · rw [h1]
      intro a b c d e newer e' older hh he hl ht
      cases newer with
      | nil =>
        rw [List.nil_append] at hl
        rw [← (List.cons.inj hl).2]
        exact hd e (h.rets e (by rw [hh]; exact List.mem_append_right _ (List.mem_cons_of_mem _ he)))
      | cons x newer => exact h.order a b c d e newer e' older hh he (List.cons.inj hl).2 ht
  | leave o r ht h1 h2 h3 =>
    refine ⟨?_, ?_, ?_, ?_, ?_, ?_⟩
    · rw [h3, List.length_set]; exact h.calls
    · intro u pu o' hu hop
      rw [h3] at hu
      rcases Pool.getElem?_set_cases hu with ⟨rfl, rfl⟩ | ⟨_, hu⟩
      · cases hop
      · exact h.ops _ _ _ hu hop
    · rw [h1]; exact h.log
    · intro u pu hu
      rw [h3] at hu; rw [h1]
      rcases Pool.getElem?_set_cases hu with ⟨rfl, rfl⟩ | ⟨_, hu⟩
      · have := h.once _ _ ht; exact this
      · exact h.once _ _ hu
    · rw [h2]; exact fun e he => List.mem_cons_of_mem _ (h.rets e he)
    · rw [h1]; exact h.order


omit [DecidableEq K] [BEq V] [Hashable V] in
/-- A new call: a new thread of the model. -/
theorem Lin.call (h : Lin hist s) {o : Pool.Op K V} (h1 : s'.log = s.log) (h2 : s'.done = s.done) (h3 : s'.threads = s.threads ++ [.want o]) :
    Lin (.call s.threads.length o :: hist) s' := by
  have old : ∀ j o', .call j o' ∈ hist → j ≠ s.threads.length := fun j o' hj e => by have := h.calls j o' hj; omega
  refine ⟨?_, ?_, ?_, ?_, ?_, ?_⟩
  · intro j o' hj
    rw [h3, List.length_append]
    rcases List.mem_cons.mp hj with e | hj
    · cases e; simp
    · have := h.calls j o' hj; omega
  · intro u pu o' hu hop
    rw [h3, List.getElem?_append] at hu
    split at hu
    · exact List.mem_cons_of_mem _ (h.ops _ _ _ hu hop)
    · rename_i hlt
      have hu' := (List.getElem?_eq_some_iff.mp hu).1
      have e : u = s.threads.length := by simp at hu'; omega
      subst e
      simp at hu; subst hu; cases hop
      exact List.mem_cons_self
  · rw [h1]; exact fun e he => List.mem_cons_of_mem _ (h.log e he)
  · intro u pu hu
    rw [h3, List.getElem?_append] at hu; rw [h1]
    split at hu
    · exact h.once _ _ hu
    · rename_i hlt
      have hu' := (List.getElem?_eq_some_iff.mp hu).1
      have e : u = s.threads.length := by simp at hu'; omega
      subst e
      simp at hu; subst hu
      have : s.log.countP (fun e => e.tid == s.threads.length) = 0 := by
        rw [List.countP_eq_zero]
        intro e he
        have := old _ _ (h.log e he)
        simpa using this
      rw [this]; simp [busyPc]
  · rw [h2]
    intro e he
    rcases List.mem_cons.mp he with e | he
    · cases e
    · exact h.rets e he
  · rw [h1]
    intro a b c d e newer e' older hh he hl ht
    cases a with
    | nil =>
      have := (List.cons.inj hh).1
      injection this with e1 e2
      have hm := h.log e' (by rw [hl]; exact List.mem_append_right _ List.mem_cons_self)
      exact absurd (ht.trans e1.symm) (old _ _ hm)
    | cons x a => exact h.order a b c d e newer e' older (List.cons.inj hh).2 he hl ht

omit [DecidableEq K] [BEq V] [Hashable V] in
/-- A new thread that does nothing. -/
theorem Lin.idle (h : Lin hist s) (h1 : s'.log = s.log) (h2 : s'.done = s.done) (h3 : s'.threads = s.threads ++ [.idle]) : Lin hist s' := by
  refine ⟨?_, ?_, ?_, ?_, ?_, ?_⟩
  · intro j o hj
    rw [h3, List.length_append]
    have := h.calls j o hj; omega
  · intro u pu o' hu hop
    rw [h3, List.getElem?_append] at hu
    split at hu
    · exact h.ops _ _ _ hu hop
    · have hu' := (List.getElem?_eq_some_iff.mp hu).1
      have e : u = s.threads.length := by simp at hu'; omega
      subst e
      simp at hu; subst hu; cases hop
  · rw [h1]; exact h.log
  · intro u pu hu
    rw [h3, List.getElem?_append] at hu; rw [h1]
    split at hu
    · exact h.once _ _ hu
    · have hu' := (List.getElem?_eq_some_iff.mp hu).1
      have e : u = s.threads.length := by simp at hu'; omega
      subst e
      simp at hu; subst hu
      have : s.log.countP (fun e => e.tid == s.threads.length) = 0 := by
        rw [List.countP_eq_zero]
        intro e he
        have := h.calls _ _ (h.log e he)
        simp; omega
      rw [this]; simp [busyPc]
  · rw [h2]; exact h.rets
  · rw [h1]; exact h.order

omit [DecidableEq K] [BEq V] [Hashable V] in
/-- Something else is seen. -/
theorem Lin.event (h : Lin hist s) {ev : Event K V} (h1 : ∀ j o, ev ≠ .call j o) (h2 : ∀ e, ev = .ret e → e ∈ s.done) : Lin (ev :: hist) s := by
  refine ⟨?_, ?_, ?_, h.once, ?_, ?_⟩
  · intro j o hj
    rcases List.mem_cons.mp hj with e | hj
    · exact absurd e.symm (h1 j o)
    · exact h.calls j o hj
  · exact fun a b c d e => List.mem_cons_of_mem _ (h.ops a b c d e)
  · exact fun e he => List.mem_cons_of_mem _ (h.log e he)
  · intro e he
    rcases List.mem_cons.mp he with hev | he
    · exact h2 e hev.symm
    · exact h.rets e he
  · intro a b c d e newer e' older hh he hl ht
    cases a with
    | nil => exact absurd (List.cons.inj hh).1 (h1 _ _)
    | cons x a => exact h.order a b c d e newer e' older (List.cons.inj hh).2 he hl ht

/-- Steps of one thread of the model. -/
theorem Lin.own {cfg : Cfg K V} (h : Lin hist s) (hr : Pool.Reach cfg s) (ho : Own cfg id s s') : Lin hist s' ∧ Pool.Reach cfg s' ∧
    (∀ e ∈ s.done, e ∈ s'.done) ∧ s.log <:+ s'.log := by
  have keep : ∀ {a b : Pool.State K V}, Did id a b → ∀ e ∈ a.done, e ∈ b.done := by
    intro a b d e he
    cases d with
    | quiet _ _ _ _ _ _ h2 _ => rw [h2]; exact he
    | commit _ _ _ _ _ _ _ h2 _ => rw [h2]; exact he
    | leave _ _ _ _ h2 _ => rw [h2]; exact List.mem_cons_of_mem _ he
  have grow : ∀ {a b : Pool.State K V}, Did id a b → a.log <:+ b.log := by
    intro a b d
    cases d with
    | quiet _ _ _ _ _ h1 _ _ => rw [h1]; exact List.suffix_rfl
    | commit _ _ _ _ _ _ h1 _ _ => rw [h1]; exact List.suffix_cons _ _
    | leave _ _ _ h1 _ _ => rw [h1]; exact List.suffix_rfl
  induction ho with
  | refl => exact ⟨h, hr, fun _ h => h, List.suffix_rfl⟩
  | run _ hs ih =>
    obtain ⟨a, b, c, d⟩ := ih
    exact ⟨a.did (fun e he => b.done_sub he) (run_did hs), .step (a := .run id _) b trivial hs, fun e he => keep (run_did hs) e (c e he),
      d.trans (grow (run_did hs))⟩
  | panic _ hs ih =>
    obtain ⟨a, b, c, d⟩ := ih
    exact ⟨a.did (fun e he => b.done_sub he) (panic_did hs), .step (a := .panic id) b trivial hs, fun e he => keep (panic_did hs) e (c e he),
      d.trans (grow (panic_did hs))⟩

end Src.PoolCode
