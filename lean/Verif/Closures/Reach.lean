import Verif.Closures.Now
import Verif.TypeMap.Inv
import Verif.TypeArena.Inv
/-!
Executions of the type tables of `Intern` (container.rs) and `NewIntern` (typearena.rs) in which every closure is one of the
calls of `Closures.Op`.
-/
namespace Closures
open TypeMap (Cfg Code Entry Replay Tid set_cases)
open Pool (Ptr Query)

/-- The types that are interned in a program: their `TypeId`s, values with `Eq` and `Hash`, memory layout; what hashing the
`TypeId` writes to the hasher and the width of `usize`. -/
structure Types where
  Ty : Type
  [dec : DecidableEq Ty]
  V : Ty → Type
  [beq : ∀ t, BEq (V t)]
  [hash : ∀ t, Hashable (V t)]
  lay : (t : Ty) → Lay (V t)
  writes : Ty → List TypeMap.Write
  w : Nat

instance (T : Types) (t : T.Ty) : BEq (T.V t) := T.beq t
instance (T : Types) (t : T.Ty) : Hashable (T.V t) := T.hash t

/-- Lawful `Eq` and `Hash`, possible layouts. -/
structure Types.Ok (T : Types) : Prop where
  eq : ∀ t, EquivBEq (T.V t)
  hash : ∀ t, LawfulHashable (T.V t)
  lay : ∀ t, (T.lay t).Ok

/-- The tables are sets of leaked boxes, initially empty. -/
abbrev Types.cfg (T : Types) : Cfg where
  Ty := T.Ty
  dec := T.dec
  C t := Table (T.V t)
  dflt _ := []
  R _ := Ret
  writes := T.writes
  w := T.w

/-- The closure is one of the calls, with lawful arguments. -/
def Types.IsOp (T : Types) (t : T.Ty) (code : Code (Table (T.V t)) Ret) : Prop :=
  ∃ o : Op (T.V t), o.Lawful ∧ code = o.code (T.lay t)

/-! ### container.rs -/
namespace Container
open TypeMap
variable {T : Types}

/-- Actions of programs that only use the calls of `Op`. -/
def Allowed : Act T.cfg → Prop
  | .call _ t code => T.IsOp t code
  | _ => True

/-- Any number of steps from `s`. -/
inductive Steps (s : State T.cfg) : State T.cfg → Prop where
  | refl : Steps s s
  | step {s1 s2 : State T.cfg} {a : Act T.cfg} : Steps s s1 → Allowed a → TypeMap.step s1 a = .ok s2 → Steps s s2

/-- Reachable from the start of the program. -/
def Reach (s : State T.cfg) : Prop := Steps (TypeMap.init T.cfg) s

theorem Steps.reach {s s' : State T.cfg} (st : Steps s s') (h : TypeMap.Reach s) : TypeMap.Reach s' := by
  induction st with
  | refl => exact h
  | step _ _ hs ih => exact ih.step hs

theorem Reach.base {s : State T.cfg} (h : Reach s) : TypeMap.Reach s := Steps.reach h .init

/-- The closures of threads and of finished calls are calls of `Op`. -/
structure Inv (s : State T.cfg) : Prop where
  want : ∀ (u : Tid) (t : T.Ty) code, s.threads[u]? = some (.want (cfg := T.cfg) t code) → T.IsOp t code
  inside : ∀ (u : Tid) (t : T.Ty) orig n k pos, s.threads[u]? = some (.inside (cfg := T.cfg) t orig n k pos) → T.IsOp t orig
  log : ∀ (t : T.Ty), ∀ e ∈ s.log t, T.IsOp t e.code

theorem Inv.threads {s : State T.cfg} (I : Inv s) {u : Tid} {pc : Pc T.cfg} (shards lock)
    (hw : ∀ (t : T.Ty) code, pc = .want t code → T.IsOp t code)
    (hi : ∀ (t : T.Ty) orig n k pos, pc = .inside t orig n k pos → T.IsOp t orig) :
    Inv { s with shards := shards, lock := lock, threads := s.threads.set u pc } where
  want u' t code h := by
    rcases set_cases h with ⟨_, e⟩ | ⟨_, h⟩
    · exact hw t code e.symm
    · exact I.want u' t code h
  inside u' t orig n k pos h := by
    rcases set_cases h with ⟨_, e⟩ | ⟨_, h⟩
    · exact hi t orig n k pos e.symm
    · exact I.inside u' t orig n k pos h
  log := I.log

theorem mem_setLog {s : State T.cfg} {t : T.Ty} {e : Entry (Table (T.V t)) Ret} {t' : T.Ty} {e' : Entry (Table (T.V t')) Ret}
    (h : e' ∈ s.setLog (cfg := T.cfg) t e t') (hI : ∀ (t : T.Ty), ∀ e ∈ s.log t, T.IsOp t e.code) (he : T.IsOp t e.code) :
    T.IsOp t' e'.code := by
  unfold State.setLog at h
  split at h
  · rename_i eq
    cases eq
    rcases List.mem_cons.mp h with rfl | h
    · exact he
    · exact hI _ _ h
  · exact hI _ _ h

theorem Inv.finish {s : State T.cfg} (I : Inv s) {u : Tid} {t : T.Ty} {e : Entry (Table (T.V t)) Ret} (he : T.IsOp t e.code) :
    Inv (s.finish (cfg := T.cfg) u t e) where
  want u' t' code h := by
    rcases set_cases h with ⟨_, e⟩ | ⟨_, h⟩
    · cases e
    · exact I.want u' t' code h
  inside u' t' orig n k pos h := by
    rcases set_cases h with ⟨_, e⟩ | ⟨_, h⟩
    · cases e
    · exact I.inside u' t' orig n k pos h
  log t' e' h' := mem_setLog h' I.log he

theorem setLog_suffix (s : State T.cfg) (t t' : T.Ty) (e : Entry (Table (T.V t)) Ret) :
    ∃ newer, s.setLog (cfg := T.cfg) t e t' = newer ++ s.log t' := by
  unfold State.setLog
  split
  · rename_i eq
    cases eq
    exact ⟨[e], rfl⟩
  · exact ⟨[], rfl⟩

/-- One step: the invariant is kept, histories grow. -/
theorem Inv.step {s s' : State T.cfg} (I : Inv s) {a : Act T.cfg} (ha : Allowed a) (hs : TypeMap.step s a = .ok s') :
    Inv s' ∧ ∀ t, ∃ newer, s'.log t = newer ++ s.log t := by
  have same : s'.log = s.log → ∀ t, ∃ newer, s'.log t = newer ++ s.log t := fun e t => ⟨[], by rw [e]; rfl⟩
  cases a with
  | spawn =>
    cases hs
    refine ⟨⟨fun u t code h => ?_, fun u t orig n k pos h => ?_, I.log⟩, same rfl⟩
    · rcases snoc_cases h with h | ⟨_, e⟩
      · exact I.want u t code h
      · cases e
    · rcases snoc_cases h with h | ⟨_, e⟩
      · exact I.inside u t orig n k pos h
      · cases e
  | call u t code =>
    simp only [TypeMap.step] at hs
    cases hu : s.threads[u]? with
    | none => rw [hu] at hs; cases hs
    | some pc =>
      rw [hu] at hs
      cases pc with
      | idle =>
        cases hs
        exact ⟨I.threads _ _ (fun t' code' e => by cases e; exact ha) (fun t' _ _ _ _ e => by cases e), same rfl⟩
      | _ => cases hs
  | run u =>
    simp only [TypeMap.step] at hs
    cases hu : s.threads[u]? with
    | none => rw [hu] at hs; cases hs
    | some pc =>
      rw [hu] at hs
      simp only at hs
      cases pc with
      | idle => cases hs
      | want t code =>
        have hc := I.want u t code hu
        simp only [run] at hs
        cases hv : s.shards[T.cfg.shard t]? with
        | none => rw [hv] at hs; cases hs
        | some v =>
          rw [hv] at hs
          simp only at hs
          split at hs
          · cases hs
          · cases hg : getTypeMut v t with
            | none => rw [hg] at hs; cases hs
            | some x =>
              rw [hg] at hs
              cases hs
              exact ⟨I.threads _ _ (fun t' _ e => by cases e) (fun t' _ _ _ _ e => by cases e; exact hc), same rfl⟩
      | inside t orig n k pos =>
        have hc := I.inside u t orig n k pos hu
        cases k with
        | ret r =>
          cases hs
          exact ⟨I.finish hc, fun t' => setLog_suffix _ _ _ _⟩
        | next f k =>
          simp only [run] at hs
          cases hv : s.shards[T.cfg.shard t]? with
          | none => rw [hv] at hs; cases hs
          | some v =>
            rw [hv] at hs
            simp only at hs
            cases hp : v[pos]? with
            | none => rw [hp] at hs; cases hs
            | some x =>
              rw [hp] at hs
              simp only at hs
              cases hd : downcast (cfg := T.cfg) t x with
              | none => rw [hd] at hs; cases hs
              | some c =>
                rw [hd] at hs
                cases hs
                exact ⟨I.threads _ _ (fun t' _ e => by cases e) (fun t' _ _ _ _ e => by cases e; exact hc), same rfl⟩
  | panic u =>
    simp only [TypeMap.step] at hs
    cases hu : s.threads[u]? with
    | none => rw [hu] at hs; cases hs
    | some pc =>
      rw [hu] at hs
      cases pc with
      | inside t orig n k pos =>
        cases hs
        exact ⟨I.finish (I.inside u t orig n k pos hu), fun t' => setLog_suffix _ _ _ _⟩
      | _ => cases hs

theorem Steps.inv {s s' : State T.cfg} (st : Steps s s') (I : Inv s) : Inv s' ∧ ∀ t, ∃ newer, s'.log t = newer ++ s.log t := by
  induction st with
  | refl => exact ⟨I, fun t => ⟨[], rfl⟩⟩
  | step _ ha hs ih =>
    obtain ⟨I', h⟩ := ih.1.step ha hs
    refine ⟨I', fun t => ?_⟩
    obtain ⟨n1, e1⟩ := ih.2 t
    obtain ⟨n2, e2⟩ := h t
    exact ⟨n2 ++ n1, by rw [e2, e1, List.append_assoc]⟩

theorem Reach.inv {s : State T.cfg} (h : Reach s) : Inv s :=
  (Steps.inv h ⟨fun u t code h => by simp [TypeMap.init] at h, fun u t orig n k pos h => by simp [TypeMap.init] at h,
    fun t e h => by cases h⟩).1

theorem Reach.ops {s : State T.cfg} (h : Reach s) (t : T.Ty) : Ops (T.lay t) (s.log t) := h.inv.log t

end Container

/-! ### typearena.rs -/
namespace NewTables
open TypeArena
variable {T : Types}

def Allowed : Act T.cfg → Prop
  | .call _ t code => T.IsOp t code
  | _ => True

inductive Steps (s : State T.cfg) : State T.cfg → Prop where
  | refl : Steps s s
  | step {s1 s2 : State T.cfg} {a : Act T.cfg} : Steps s s1 → Allowed a → TypeArena.step s1 a = .ok s2 → Steps s s2

def Reach (s : State T.cfg) : Prop := Steps (TypeArena.init T.cfg) s

theorem Steps.reach {s s' : State T.cfg} (st : Steps s s') (h : TypeArena.Reach s) : TypeArena.Reach s' := by
  induction st with
  | refl => exact h
  | step _ _ hs ih => exact ih.step hs

theorem Reach.base {s : State T.cfg} (h : Reach s) : TypeArena.Reach s := Steps.reach h .init

/-- The closure a thread is going to run or runs. -/
def codeOf : Pc T.cfg → Option ((t : T.Ty) × Code (Table (T.V t)) Ret)
  | .idle => none
  | .search t c | .push t c | .again t c _ | .lock t c _ | .inside t c _ _ _ => some ⟨t, c⟩

structure Inv (s : State T.cfg) : Prop where
  code : ∀ (u : Tid) pc c, s.threads[u]? = some pc → codeOf pc = some c → T.IsOp c.1 c.2
  log : ∀ (t : T.Ty), ∀ e ∈ s.log t, T.IsOp t e.code

theorem mem_setLog {s : State T.cfg} {t : T.Ty} {e : Entry (Table (T.V t)) Ret} {t' : T.Ty} {e' : Entry (Table (T.V t')) Ret}
    (h : e' ∈ s.setLog (cfg := T.cfg) t e t') (hI : ∀ (t : T.Ty), ∀ e ∈ s.log t, T.IsOp t e.code) (he : T.IsOp t e.code) :
    T.IsOp t' e'.code := by
  unfold State.setLog at h
  split at h
  · rename_i eq
    cases eq
    rcases List.mem_cons.mp h with rfl | h
    · exact he
    · exact hI _ _ h
  · exact hI _ _ h

theorem setLog_suffix (s : State T.cfg) (t t' : T.Ty) (e : Entry (Table (T.V t)) Ret) :
    ∃ newer, s.setLog (cfg := T.cfg) t e t' = newer ++ s.log t' := by
  unfold State.setLog
  split
  · rename_i eq
    cases eq
    exact ⟨[e], rfl⟩
  · exact ⟨[], rfl⟩

theorem Inv.threads {s : State T.cfg} (I : Inv s) {u : Tid} {pc pc' : Pc T.cfg} (hu : s.threads[u]? = some pc)
    (h : codeOf pc' = none ∨ codeOf pc' = codeOf pc) (vecs refused) (lg) (hl : ∀ (t : T.Ty), ∀ e ∈ lg t, T.IsOp t e.code) :
    Inv { s with vecs := vecs, threads := s.threads.set u pc', refused := refused, log := lg } where
  code u' pc1 c h1 h2 := by
    rcases set_cases h1 with ⟨_, e⟩ | ⟨_, h1⟩
    · subst e
      rcases h with h | h
      · rw [h] at h2; cases h2
      · rw [h] at h2; exact I.code u pc c hu h2
    · exact I.code u' pc1 c h1 h2
  log := hl

theorem Inv.step {s s' : State T.cfg} (I : Inv s) {a : Act T.cfg} (ha : Allowed a) (hs : TypeArena.step s a = .ok s') :
    Inv s' ∧ ∀ t, ∃ newer, s'.log t = newer ++ s.log t := by
  have same : s'.log = s.log → ∀ t, ∃ newer, s'.log t = newer ++ s.log t := fun e t => ⟨[], by rw [e]; rfl⟩
  cases a with
  | spawn =>
    cases hs
    refine ⟨⟨fun u pc c h h2 => ?_, I.log⟩, same rfl⟩
    rcases TypeMap.snoc_cases h with h | ⟨_, e⟩
    · exact I.code u pc c h h2
    · subst e; cases h2
  | call u t code =>
    simp only [TypeArena.step] at hs
    cases hu : s.threads[u]? with
    | none => rw [hu] at hs; cases hs
    | some pc =>
      rw [hu] at hs
      cases pc with
      | idle =>
        cases hs
        refine ⟨⟨fun u' pc1 c h1 h2 => ?_, I.log⟩, same rfl⟩
        rcases set_cases h1 with ⟨_, e⟩ | ⟨_, h1⟩
        · subst e; cases h2; exact ha
        · exact I.code u' pc1 c h1 h2
      | _ => cases hs
  | run u n =>
    simp only [TypeArena.step] at hs
    cases hu : s.threads[u]? with
    | none => rw [hu] at hs; cases hs
    | some pc =>
      rw [hu] at hs
      simp only at hs
      cases pc with
      | idle => cases hs
      | search t code =>
        simp only [run] at hs
        cases hv : s.vecs[T.cfg.shard t]? with
        | none => rw [hv] at hs; cases hs
        | some v =>
          rw [hv] at hs
          simp only at hs
          split at hs
          · cases hs
          · cases hf : find v t n <;> rw [hf] at hs <;> cases hs <;> exact ⟨I.threads hu (.inr (by rfl)) _ _ _ I.log, same rfl⟩
      | push t code =>
        simp only [run] at hs
        cases hv : s.vecs[T.cfg.shard t]? with
        | none => rw [hv] at hs; cases hs
        | some v => rw [hv] at hs; cases hs; exact ⟨I.threads hu (.inr (by rfl)) _ _ _ I.log, same rfl⟩
      | again t code m =>
        simp only [run] at hs
        cases hv : s.vecs[T.cfg.shard t]? with
        | none => rw [hv] at hs; cases hs
        | some v =>
          rw [hv] at hs
          simp only at hs
          split at hs
          · cases hs
          · cases hf : find v t n <;> rw [hf] at hs <;> cases hs <;> exact ⟨I.threads hu (.inr (by rfl)) _ _ _ I.log, same rfl⟩
      | lock t code p =>
        simp only [run] at hs
        cases hg : getCell s.vecs t p with
        | none => rw [hg] at hs; cases hs
        | some c =>
          rw [hg] at hs
          simp only at hs
          split at hs
          · cases hs
          · split at hs
            · cases hs; exact ⟨I.threads hu (.inl rfl) _ _ _ I.log, same rfl⟩
            · cases hs; exact ⟨I.threads hu (.inr (by rfl)) _ _ _ I.log, same rfl⟩
      | inside t orig i k p =>
        have hc := I.code u _ _ hu rfl
        simp only [run] at hs
        cases hg : getCell s.vecs t p with
        | none => rw [hg] at hs; cases hs
        | some c =>
          rw [hg] at hs
          simp only at hs
          cases k with
          | ret r =>
            cases hs
            exact ⟨I.threads hu (.inl rfl) _ _ _ fun t' e' he' => mem_setLog he' I.log hc, fun t' => setLog_suffix _ _ _ _⟩
          | next f k => cases hs; exact ⟨I.threads hu (.inr (by rfl)) _ _ _ I.log, same rfl⟩
  | panic u =>
    simp only [TypeArena.step] at hs
    cases hu : s.threads[u]? with
    | none => rw [hu] at hs; cases hs
    | some pc =>
      rw [hu] at hs
      cases pc with
      | inside t orig i k p =>
        have hc := I.code u _ _ hu rfl
        simp only [runPanic] at hs
        cases hg : getCell s.vecs t p with
        | none => rw [hg] at hs; cases hs
        | some c =>
          rw [hg] at hs
          cases hs
          exact ⟨I.threads hu (.inl rfl) _ _ _ fun t' e' he' => mem_setLog he' I.log hc, fun t' => setLog_suffix _ _ _ _⟩
      | _ => cases hs

theorem Steps.inv {s s' : State T.cfg} (st : Steps s s') (I : Inv s) : Inv s' ∧ ∀ t, ∃ newer, s'.log t = newer ++ s.log t := by
  induction st with
  | refl => exact ⟨I, fun t => ⟨[], rfl⟩⟩
  | step _ ha hs ih =>
    obtain ⟨I', h⟩ := ih.1.step ha hs
    refine ⟨I', fun t => ?_⟩
    obtain ⟨n1, e1⟩ := ih.2 t
    obtain ⟨n2, e2⟩ := h t
    exact ⟨n2 ++ n1, by rw [e2, e1, List.append_assoc]⟩

theorem Reach.inv {s : State T.cfg} (h : Reach s) : Inv s :=
  (Steps.inv h ⟨fun u pc c h => by simp [TypeArena.init] at h, fun t e h => by cases h⟩).1

/-- What one step does to the histories. -/
theorem log_step {s s' : State T.cfg} {a : Act T.cfg} (hs : TypeArena.step s a = .ok s') :
    s'.log = s.log ∨ ∃ (u : Tid) (t : T.Ty) (orig : Code (Table (T.V t)) Ret) (n : Nat) (k : Code (Table (T.V t)) Ret) (pos : Nat)
      (res : Option Ret), s.threads[u]? = some (.inside (cfg := T.cfg) t orig n k pos) ∧
        s'.log = s.setLog (cfg := T.cfg) t ⟨orig, n, res⟩ := by
  cases a with
  | spawn => cases hs; exact .inl rfl
  | call u t code =>
    simp only [TypeArena.step] at hs
    cases hu : s.threads[u]? with
    | none => rw [hu] at hs; cases hs
    | some pc =>
      rw [hu] at hs
      cases pc with
      | idle => cases hs; exact .inl rfl
      | _ => cases hs
  | run u n =>
    simp only [TypeArena.step] at hs
    cases hu : s.threads[u]? with
    | none => rw [hu] at hs; cases hs
    | some pc =>
      rw [hu] at hs
      simp only at hs
      cases pc with
      | idle => cases hs
      | search t code =>
        simp only [run] at hs
        cases hv : s.vecs[T.cfg.shard t]? with
        | none => rw [hv] at hs; cases hs
        | some v =>
          rw [hv] at hs
          simp only at hs
          split at hs
          · cases hs
          · cases hf : find v t n <;> rw [hf] at hs <;> cases hs <;> exact .inl rfl
      | push t code =>
        simp only [run] at hs
        cases hv : s.vecs[T.cfg.shard t]? with
        | none => rw [hv] at hs; cases hs
        | some v => rw [hv] at hs; cases hs; exact .inl rfl
      | again t code m =>
        simp only [run] at hs
        cases hv : s.vecs[T.cfg.shard t]? with
        | none => rw [hv] at hs; cases hs
        | some v =>
          rw [hv] at hs
          simp only at hs
          split at hs
          · cases hs
          · cases hf : find v t n <;> rw [hf] at hs <;> cases hs <;> exact .inl rfl
      | lock t code p =>
        simp only [run] at hs
        cases hg : getCell s.vecs t p with
        | none => rw [hg] at hs; cases hs
        | some c =>
          rw [hg] at hs
          simp only at hs
          split at hs
          · cases hs
          · split at hs <;> cases hs <;> exact .inl rfl
      | inside t orig i k p =>
        simp only [run] at hs
        cases hg : getCell s.vecs t p with
        | none => rw [hg] at hs; cases hs
        | some c =>
          rw [hg] at hs
          simp only at hs
          cases k with
          | ret r => cases hs; exact .inr ⟨u, t, orig, i, _, p, some r, hu, rfl⟩
          | next f k => cases hs; exact .inl rfl
  | panic u =>
    simp only [TypeArena.step] at hs
    cases hu : s.threads[u]? with
    | none => rw [hu] at hs; cases hs
    | some pc =>
      rw [hu] at hs
      cases pc with
      | inside t orig i k p =>
        simp only [runPanic] at hs
        cases hg : getCell s.vecs t p with
        | none => rw [hg] at hs; cases hs
        | some c => rw [hg] at hs; cases hs; exact .inr ⟨u, t, orig, i, _, p, none, hu, rfl⟩
      | _ => cases hs

theorem Reach.ops {s : State T.cfg} (h : Reach s) (t : T.Ty) : Ops (T.lay t) (s.log t) := h.inv.log t

end NewTables
end Closures
