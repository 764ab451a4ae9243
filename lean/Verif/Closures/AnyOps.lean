import Verif.Props.TypeMap
import Verif.Props.TypeArena
/-!
Executions of the type tables of container.rs and typearena.rs in which every closure satisfies a given predicate.
-/
namespace Closures
open TypeMap (Cfg Code Entry Replay Tid set_cases)

/-- `c` is what the finished calls `l` left, starting from `d`, possibly changed by some steps of one call in progress. -/
def NowAny {C R : Type} (P : Code C R → Prop) (d : C) (l : List (Entry C R)) (c : C) : Prop :=
  ∃ c0, Replay d l c0 ∧ (c = c0 ∨ ∃ code n, P code ∧ c = (code.steps n c0).1)

/-! ### container.rs -/
namespace ContainerAny
open TypeMap
variable {cfg : Cfg} {P : (t : cfg.Ty) → Code (cfg.C t) (cfg.R t) → Prop}

/-- Actions of programs whose closures all satisfy `P`. -/
def Allowed (P : (t : cfg.Ty) → Code (cfg.C t) (cfg.R t) → Prop) : Act cfg → Prop
  | .call _ t code => P t code
  | _ => True

/-- Any number of steps from `s`. -/
inductive Steps (P : (t : cfg.Ty) → Code (cfg.C t) (cfg.R t) → Prop) (s : State cfg) : State cfg → Prop where
  | refl : Steps P s s
  | step {s1 s2 : State cfg} {a : Act cfg} : Steps P s s1 → Allowed P a → TypeMap.step s1 a = .ok s2 → Steps P s s2

/-- Reachable from the start of the program. -/
def Reach (P : (t : cfg.Ty) → Code (cfg.C t) (cfg.R t) → Prop) (s : State cfg) : Prop := Steps P (TypeMap.init cfg) s

theorem Steps.reach {s s' : State cfg} (st : Steps P s s') (h : TypeMap.Reach s) : TypeMap.Reach s' := by
  induction st with
  | refl => exact h
  | step _ _ hs ih => exact ih.step hs

theorem Reach.base {s : State cfg} (h : Reach P s) : TypeMap.Reach s := Steps.reach h .init

/-- The closures of threads and of finished calls satisfy `P`. -/
structure Inv (P : (t : cfg.Ty) → Code (cfg.C t) (cfg.R t) → Prop) (s : State cfg) : Prop where
  want : ∀ (u : Tid) (t : cfg.Ty) code, s.threads[u]? = some (.want (cfg := cfg) t code) → P t code
  inside : ∀ (u : Tid) (t : cfg.Ty) orig n k pos, s.threads[u]? = some (.inside (cfg := cfg) t orig n k pos) → P t orig
  log : ∀ (t : cfg.Ty), ∀ e ∈ s.log t, P t e.code

theorem Inv.threads {s : State cfg} (I : Inv P s) {u : Tid} {pc : Pc cfg} (shards lock)
    (hw : ∀ (t : cfg.Ty) code, pc = .want t code → P t code)
    (hi : ∀ (t : cfg.Ty) orig n k pos, pc = .inside t orig n k pos → P t orig) :
    Inv P { s with shards := shards, lock := lock, threads := s.threads.set u pc } where
  want u' t code h := by
    rcases set_cases h with ⟨_, e⟩ | ⟨_, h⟩
    · exact hw t code e.symm
    · exact I.want u' t code h
  inside u' t orig n k pos h := by
    rcases set_cases h with ⟨_, e⟩ | ⟨_, h⟩
    · exact hi t orig n k pos e.symm
    · exact I.inside u' t orig n k pos h
  log := I.log

theorem mem_setLog (P : (t : cfg.Ty) → Code (cfg.C t) (cfg.R t) → Prop) {s : State cfg} {t : cfg.Ty}
    {e : Entry (cfg.C t) (cfg.R t)} {t' : cfg.Ty} {e' : Entry (cfg.C t') (cfg.R t')}
    (h : e' ∈ s.setLog (cfg := cfg) t e t') (hI : ∀ (t : cfg.Ty), ∀ e ∈ s.log t, P t e.code) (he : P t e.code) :
    P t' e'.code := by
  unfold State.setLog at h
  split at h
  · rename_i eq
    cases eq
    rcases List.mem_cons.mp h with rfl | h
    · exact he
    · exact hI _ _ h
  · exact hI _ _ h

theorem Inv.finish {s : State cfg} (I : Inv P s) {u : Tid} {t : cfg.Ty} {e : Entry (cfg.C t) (cfg.R t)} (he : P t e.code) :
    Inv P (s.finish (cfg := cfg) u t e) where
  want u' t' code h := by
    rcases set_cases h with ⟨_, e⟩ | ⟨_, h⟩
    · cases e
    · exact I.want u' t' code h
  inside u' t' orig n k pos h := by
    rcases set_cases h with ⟨_, e⟩ | ⟨_, h⟩
    · cases e
    · exact I.inside u' t' orig n k pos h
  log t' e' h' := mem_setLog P h' I.log he

theorem setLog_suffix (s : State cfg) (t t' : cfg.Ty) (e : Entry (cfg.C t) (cfg.R t)) :
    ∃ newer, s.setLog (cfg := cfg) t e t' = newer ++ s.log t' := by
  unfold State.setLog
  split
  · rename_i eq
    cases eq
    exact ⟨[e], rfl⟩
  · exact ⟨[], rfl⟩

/-- One step: the invariant is kept, histories grow. -/
theorem Inv.step {s s' : State cfg} (I : Inv P s) {a : Act cfg} (ha : Allowed P a) (hs : TypeMap.step s a = .ok s') :
    Inv P s' ∧ ∀ t, ∃ newer, s'.log t = newer ++ s.log t := by
  have same : s'.log = s.log → ∀ t, ∃ newer, s'.log t = newer ++ s.log t := fun e t => ⟨[], by rw [e]; rfl⟩
  cases a with
  | spawn =>
    cases hs
    refine ⟨⟨fun u t code h => ?_, fun u t orig n k pos h => ?_, I.log⟩, same rfl⟩
    · rcases snoc_cases h with h | ⟨_, e⟩
      · exact I.want u t code h
      · cases e
    · rcases snoc_cases h with h | ⟨_, e⟩
      · exact I.inside u t orig n k pos h
      · cases e
  | call u t code =>
    simp only [TypeMap.step] at hs
    cases hu : s.threads[u]? with
    | none => rw [hu] at hs; cases hs
    | some pc =>
      rw [hu] at hs
      cases pc with
      | idle =>
        cases hs
        exact ⟨I.threads _ _ (fun t' code' e => by cases e; exact ha) (fun t' _ _ _ _ e => by cases e), same rfl⟩
      | _ => cases hs
  | run u =>
    simp only [TypeMap.step] at hs
    cases hu : s.threads[u]? with
    | none => rw [hu] at hs; cases hs
    | some pc =>
      rw [hu] at hs
      simp only at hs
      cases pc with
      | idle => cases hs
      | want t code =>
        have hc := I.want u t code hu
        simp only [run] at hs
        cases hv : s.shards[cfg.shard t]? with
        | none => rw [hv] at hs; cases hs
        | some v =>
          rw [hv] at hs
          simp only at hs
          split at hs
          · cases hs
          · cases hg : getTypeMut v t with
            | none => rw [hg] at hs; cases hs
            | some x =>
              rw [hg] at hs
              cases hs
              exact ⟨I.threads _ _ (fun t' _ e => by cases e) (fun t' _ _ _ _ e => by cases e; exact hc), same rfl⟩
      | inside t orig n k pos =>
        have hc := I.inside u t orig n k pos hu
        cases k with
        | ret r =>
          cases hs
          exact ⟨I.finish hc, fun t' => setLog_suffix _ _ _ _⟩
        | next f k =>
          simp only [run] at hs
          cases hv : s.shards[cfg.shard t]? with
          | none => rw [hv] at hs; cases hs
          | some v =>
            rw [hv] at hs
            simp only at hs
            cases hp : v[pos]? with
            | none => rw [hp] at hs; cases hs
            | some x =>
              rw [hp] at hs
              simp only at hs
              cases hd : downcast (cfg := cfg) t x with
              | none => rw [hd] at hs; cases hs
              | some c =>
                rw [hd] at hs
                cases hs
                exact ⟨I.threads _ _ (fun t' _ e => by cases e) (fun t' _ _ _ _ e => by cases e; exact hc), same rfl⟩
  | panic u =>
    simp only [TypeMap.step] at hs
    cases hu : s.threads[u]? with
    | none => rw [hu] at hs; cases hs
    | some pc =>
      rw [hu] at hs
      cases pc with
      | inside t orig n k pos =>
        cases hs
        exact ⟨I.finish (I.inside u t orig n k pos hu), fun t' => setLog_suffix _ _ _ _⟩
      | _ => cases hs

theorem Steps.inv {s s' : State cfg} (st : Steps P s s') (I : Inv P s) : Inv P s' ∧ ∀ t, ∃ newer, s'.log t = newer ++ s.log t := by
  induction st with
  | refl => exact ⟨I, fun t => ⟨[], rfl⟩⟩
  | step _ ha hs ih =>
    obtain ⟨I', h⟩ := ih.1.step ha hs
    refine ⟨I', fun t => ?_⟩
    obtain ⟨n1, e1⟩ := ih.2 t
    obtain ⟨n2, e2⟩ := h t
    exact ⟨n2 ++ n1, by rw [e2, e1, List.append_assoc]⟩

theorem Reach.inv {s : State cfg} (h : Reach P s) : Inv P s :=
  (Steps.inv h ⟨fun u t code h => by simp [TypeMap.init] at h, fun u t orig n k pos h => by simp [TypeMap.init] at h,
    fun t e h => by cases h⟩).1

theorem Steps.trans {s s' s'' : State cfg} (st : Steps P s s') (st' : Steps P s' s'') : Steps P s s'' := by
  induction st' with
  | refl => exact st
  | step _ ha hs ih => exact .step ih ha hs

theorem Reach.now {s : State cfg} (h : Reach P s) (t : cfg.Ty) : NowAny (P t) (cfg.dflt t) (s.log t) (content s t) := by
  by_cases hq : ∀ (u : Tid) orig n k pos, s.threads[u]? ≠ some (.inside (cfg := cfg) t orig n k pos)
  · exact ⟨_, C28_history h.base t hq, .inl rfl⟩
  · have : ∃ (u : Tid) (orig : Code (cfg.C t) (cfg.R t)) (n : Nat) (k : Code (cfg.C t) (cfg.R t)) (pos : Nat),
        s.threads[u]? = some (.inside (cfg := cfg) t orig n k pos) :=
      Classical.byContradiction fun hn => hq fun u orig n k pos hu => hn ⟨u, orig, n, k, pos, hu⟩
    obtain ⟨u, orig, n, k, pos, hu⟩ := this
    obtain ⟨c0, hr, hs⟩ := C28_in_progress h.base hu
    exact ⟨c0, hr, .inr ⟨orig, n, h.inv.inside u t orig n k pos hu, by rw [hs]⟩⟩

end ContainerAny

/-! ### typearena.rs -/
namespace NewTablesAny
open TypeArena
variable {cfg : Cfg} {P : (t : cfg.Ty) → Code (cfg.C t) (cfg.R t) → Prop}

def Allowed (P : (t : cfg.Ty) → Code (cfg.C t) (cfg.R t) → Prop) : Act cfg → Prop
  | .call _ t code => P t code
  | _ => True

inductive Steps (P : (t : cfg.Ty) → Code (cfg.C t) (cfg.R t) → Prop) (s : State cfg) : State cfg → Prop where
  | refl : Steps P s s
  | step {s1 s2 : State cfg} {a : Act cfg} : Steps P s s1 → Allowed P a → TypeArena.step s1 a = .ok s2 → Steps P s s2

def Reach (P : (t : cfg.Ty) → Code (cfg.C t) (cfg.R t) → Prop) (s : State cfg) : Prop := Steps P (TypeArena.init cfg) s

theorem Steps.reach {s s' : State cfg} (st : Steps P s s') (h : TypeArena.Reach s) : TypeArena.Reach s' := by
  induction st with
  | refl => exact h
  | step _ _ hs ih => exact ih.step hs

theorem Reach.base {s : State cfg} (h : Reach P s) : TypeArena.Reach s := Steps.reach h .init

/-- The closure a thread is going to run or runs. -/
def codeOf : Pc cfg → Option ((t : cfg.Ty) × Code (cfg.C t) (cfg.R t))
  | .idle => none
  | .search t c | .push t c | .again t c _ | .lock t c _ | .inside t c _ _ _ => some ⟨t, c⟩

structure Inv (P : (t : cfg.Ty) → Code (cfg.C t) (cfg.R t) → Prop) (s : State cfg) : Prop where
  code : ∀ (u : Tid) pc c, s.threads[u]? = some pc → codeOf pc = some c → P c.1 c.2
  log : ∀ (t : cfg.Ty), ∀ e ∈ s.log t, P t e.code

theorem mem_setLog (P : (t : cfg.Ty) → Code (cfg.C t) (cfg.R t) → Prop) {s : State cfg} {t : cfg.Ty}
    {e : Entry (cfg.C t) (cfg.R t)} {t' : cfg.Ty} {e' : Entry (cfg.C t') (cfg.R t')}
    (h : e' ∈ s.setLog (cfg := cfg) t e t') (hI : ∀ (t : cfg.Ty), ∀ e ∈ s.log t, P t e.code) (he : P t e.code) :
    P t' e'.code := by
  unfold State.setLog at h
  split at h
  · rename_i eq
    cases eq
    rcases List.mem_cons.mp h with rfl | h
    · exact he
    · exact hI _ _ h
  · exact hI _ _ h

theorem setLog_suffix (s : State cfg) (t t' : cfg.Ty) (e : Entry (cfg.C t) (cfg.R t)) :
    ∃ newer, s.setLog (cfg := cfg) t e t' = newer ++ s.log t' := by
  unfold State.setLog
  split
  · rename_i eq
    cases eq
    exact ⟨[e], rfl⟩
  · exact ⟨[], rfl⟩

theorem Inv.threads {s : State cfg} (I : Inv P s) {u : Tid} {pc pc' : Pc cfg} (hu : s.threads[u]? = some pc)
    (h : codeOf pc' = none ∨ codeOf pc' = codeOf pc) (vecs refused) (lg) (hl : ∀ (t : cfg.Ty), ∀ e ∈ lg t, P t e.code) :
    Inv P { s with vecs := vecs, threads := s.threads.set u pc', refused := refused, log := lg } where
  code u' pc1 c h1 h2 := by
    rcases set_cases h1 with ⟨_, e⟩ | ⟨_, h1⟩
    · subst e
      rcases h with h | h
      · rw [h] at h2; cases h2
      · rw [h] at h2; exact I.code u pc c hu h2
    · exact I.code u' pc1 c h1 h2
  log := hl

theorem Inv.step {s s' : State cfg} (I : Inv P s) {a : Act cfg} (ha : Allowed P a) (hs : TypeArena.step s a = .ok s') :
    Inv P s' ∧ ∀ t, ∃ newer, s'.log t = newer ++ s.log t := by
  have same : s'.log = s.log → ∀ t, ∃ newer, s'.log t = newer ++ s.log t := fun e t => ⟨[], by rw [e]; rfl⟩
  cases a with
  | spawn =>
    cases hs
    refine ⟨⟨fun u pc c h h2 => ?_, I.log⟩, same rfl⟩
    rcases TypeMap.snoc_cases h with h | ⟨_, e⟩
    · exact I.code u pc c h h2
    · subst e; cases h2
  | call u t code =>
    simp only [TypeArena.step] at hs
    cases hu : s.threads[u]? with
    | none => rw [hu] at hs; cases hs
    | some pc =>
      rw [hu] at hs
      cases pc with
      | idle =>
        cases hs
        refine ⟨⟨fun u' pc1 c h1 h2 => ?_, I.log⟩, same rfl⟩
        rcases set_cases h1 with ⟨_, e⟩ | ⟨_, h1⟩
        · subst e; cases h2; exact ha
        · exact I.code u' pc1 c h1 h2
      | _ => cases hs
  | run u n =>
    simp only [TypeArena.step] at hs
    cases hu : s.threads[u]? with
    | none => rw [hu] at hs; cases hs
    | some pc =>
      rw [hu] at hs
      simp only at hs
      cases pc with
      | idle => cases hs
      | search t code =>
        simp only [run] at hs
        cases hv : s.vecs[cfg.shard t]? with
        | none => rw [hv] at hs; cases hs
        | some v =>
          rw [hv] at hs
          simp only at hs
          split at hs
          · cases hs
          · cases hf : find v t n <;> rw [hf] at hs <;> cases hs <;> exact ⟨I.threads hu (.inr (by rfl)) _ _ _ I.log, same rfl⟩
      | push t code =>
        simp only [run] at hs
        cases hv : s.vecs[cfg.shard t]? with
        | none => rw [hv] at hs; cases hs
        | some v => rw [hv] at hs; cases hs; exact ⟨I.threads hu (.inr (by rfl)) _ _ _ I.log, same rfl⟩
      | again t code m =>
        simp only [run] at hs
        cases hv : s.vecs[cfg.shard t]? with
        | none => rw [hv] at hs; cases hs
        | some v =>
          rw [hv] at hs
          simp only at hs
          split at hs
          · cases hs
          · cases hf : find v t n <;> rw [hf] at hs <;> cases hs <;> exact ⟨I.threads hu (.inr (by rfl)) _ _ _ I.log, same rfl⟩
      | lock t code p =>
        simp only [run] at hs
        cases hg : getCell s.vecs t p with
        | none => rw [hg] at hs; cases hs
        | some c =>
          rw [hg] at hs
          simp only at hs
          split at hs
          · cases hs
          · split at hs
            · cases hs; exact ⟨I.threads hu (.inl rfl) _ _ _ I.log, same rfl⟩
            · cases hs; exact ⟨I.threads hu (.inr (by rfl)) _ _ _ I.log, same rfl⟩
      | inside t orig i k p =>
        have hc := I.code u _ _ hu rfl
        simp only [run] at hs
        cases hg : getCell s.vecs t p with
        | none => rw [hg] at hs; cases hs
        | some c =>
          rw [hg] at hs
          simp only at hs
          cases k with
          | ret r =>
            cases hs
            exact ⟨I.threads hu (.inl rfl) _ _ _ fun t' e' he' => mem_setLog P he' I.log hc, fun t' => setLog_suffix _ _ _ _⟩
          | next f k => cases hs; exact ⟨I.threads hu (.inr (by rfl)) _ _ _ I.log, same rfl⟩
  | panic u =>
    simp only [TypeArena.step] at hs
    cases hu : s.threads[u]? with
    | none => rw [hu] at hs; cases hs
    | some pc =>
      rw [hu] at hs
      cases pc with
      | inside t orig i k p =>
        have hc := I.code u _ _ hu rfl
        simp only [runPanic] at hs
        cases hg : getCell s.vecs t p with
        | none => rw [hg] at hs; cases hs
        | some c =>
          rw [hg] at hs
          cases hs
          exact ⟨I.threads hu (.inl rfl) _ _ _ fun t' e' he' => mem_setLog P he' I.log hc, fun t' => setLog_suffix _ _ _ _⟩
      | _ => cases hs

theorem Steps.inv {s s' : State cfg} (st : Steps P s s') (I : Inv P s) : Inv P s' ∧ ∀ t, ∃ newer, s'.log t = newer ++ s.log t := by
  induction st with
  | refl => exact ⟨I, fun t => ⟨[], rfl⟩⟩
  | step _ ha hs ih =>
    obtain ⟨I', h⟩ := ih.1.step ha hs
    refine ⟨I', fun t => ?_⟩
    obtain ⟨n1, e1⟩ := ih.2 t
    obtain ⟨n2, e2⟩ := h t
    exact ⟨n2 ++ n1, by rw [e2, e1, List.append_assoc]⟩

theorem Reach.inv {s : State cfg} (h : Reach P s) : Inv P s :=
  (Steps.inv h ⟨fun u pc c h => by simp [TypeArena.init] at h, fun t e h => by cases h⟩).1

theorem Steps.trans {s s' s'' : State cfg} (st : Steps P s s') (st' : Steps P s' s'') : Steps P s s'' := by
  induction st' with
  | refl => exact st
  | step _ ha hs ih => exact .step ih ha hs

/-- The table in use for type `t`, by default the one a new table starts with. -/
def content (s : State cfg) (t : cfg.Ty) : cfg.C t :=
  match table s t with
  | some (_, c) => c.val
  | none => cfg.dflt t

theorem Reach.now {s : State cfg} (h : Reach P s) (t : cfg.Ty) : NowAny (P t) (cfg.dflt t) (s.log t) (content s t) := by
  unfold content
  cases ht : table s t with
  | none =>
    simp only
    have := C46_history_none h.base ht
    exact ⟨_, by rw [this]; exact .nil, .inl rfl⟩
  | some x =>
    obtain ⟨pos, c⟩ := x
    simp only
    cases ho : c.owner with
    | none => exact ⟨_, C46_history h.base ht ho, .inl rfl⟩
    | some u =>
      obtain ⟨orig, n, k, hu⟩ := h.base.inv.own t pos c u (table_iff.mp ht) ho
      obtain ⟨d, c0, hd, _, _, hr, hs⟩ := h.base.inv.ins u t orig n k pos hu
      obtain ⟨_, rfl⟩ := hd.unique (table_iff.mp ht)
      exact ⟨c0, hr, .inr ⟨orig, n, h.inv.code u _ _ hu rfl, by rw [hs]⟩⟩

end NewTablesAny
end Closures
