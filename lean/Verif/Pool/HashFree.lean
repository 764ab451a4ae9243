import Verif.Pool.Exec
/-
Two executions that differ only in the hash function. `Hasher` and its random seed are chosen when the table of a pool is created
(boxedset.rs:10-24: `HashMap::new`, hashbrown's default hasher); the model has the resulting hash in `Hashable V` and, for keys, in
`Query.hash`.
-/
namespace Pool
variable {K V : Type}

/-- Forget the hash of a key. -/
def Query.erase (q : Query V) : Query V := { q with hash := 0 }

/-- A call without the hash of its key. -/
def Op.erase : Op K V → Op K V
  | .intern k q v => .intern k q.erase v
  | .query k q => .query k q.erase
  | .len k => .len k
  | .clear k => .clear k

/-- An action without hashes. -/
def Act.erase : Act K V → Act K V
  | .call t o => .call t o.erase
  | .spawn => .spawn
  | .run t a => .run t a
  | .panic t => .panic t
  | .dropArena k => .dropArena k
  | .read k p => .read k p

def Pc.erase : Pc K V → Pc K V
  | .idle => .idle
  | .want o => .want o.erase
  | .inside o => .inside o.erase
  | .build k q v => .build k q.erase v
  | .insert k q v p => .insert k q.erase v p
  | .dropArg k q v p => .dropArg k q.erase v p
  | .leave o r => .leave o.erase r

def Entry.erase (e : Entry K V) : Entry K V := { e with op := e.op.erase }

def State.erase (s : State K V) : State K V :=
  { s with threads := s.threads.map Pc.erase, log := s.log.map Entry.erase, done := s.done.map Entry.erase }

def Res.erase : Res (State K V) → Res (State K V)
  | .ok s => .ok s.erase
  | .blocked => .blocked
  | .ub => .ub

/-- All values in the same bucket. -/
@[reducible] def oneBucket : Hashable V := ⟨fun _ => 0⟩

theorem Op.erase_pool (o : Op K V) : o.erase.pool = o.pool := by cases o <;> rfl
theorem Pc.erase_pool (pc : Pc K V) : pc.erase.pool? = pc.pool? := by cases pc <;> simp [Pc.erase, Pc.pool?, Op.erase_pool]

variable [DecidableEq K]

theorem deref_erase (s : State K V) (k : K) (p : Ptr) : deref s.erase k p = deref s k p := rfl
theorem tableOk_erase (s : State K V) (k : K) : tableOk s.erase k = tableOk s k := rfl

variable [BEq V]

/-- What a lookup needs of a key: values that compare equal have its hash. -/
def Query.Hashes [Hashable V] (q : Query V) : Prop := ∀ x, q.eq x = true → Hashable.hash x = q.hash

theorem find_erase [h : Hashable V] (s : State K V) (k : K) {q : Query V} (hq : q.Hashes) :
    @find K V _ oneBucket s.erase k q.erase = find s k q := by
  unfold find
  show List.find? _ (s.table k) = _
  congr 1
  funext p
  show (match deref s k p with | some x => _ | none => false) = _
  cases deref s k p with
  | none => rfl
  | some x =>
    show ((0 : UInt64) == 0 && q.eq x) = (hash x == q.hash && q.eq x)
    cases hx : q.eq x with
    | false => simp
    | true => simp [hq x hx]

theorem find_erase_val [h : Hashable V] [LawfulHashable V] (s : State K V) (k : K) (v : V) :
    @find K V _ oneBucket s.erase k (@Query.ofVal V _ oneBucket v) = find s k (.ofVal v) :=
  find_erase s k (q := .ofVal v) fun x hx => LawfulHashable.hash_eq x v hx

/-- The keys a thread may look up are lawful. -/
def Pc.Hashes [Hashable V] : Pc K V → Prop
  | .want (.intern _ q _) | .want (.query _ q) | .inside (.intern _ q _) | .inside (.query _ q) => q.Hashes
  | _ => True

def Act.Hashes [Hashable V] : Act K V → Prop
  | .call _ (.intern _ q _) | .call _ (.query _ q) => q.Hashes
  | _ => True

theorem Act.Lawful.hashes [Hashable V] [LawfulHashable V] {a : Act K V} (h : a.Lawful) : a.Hashes := by
  cases a with
  | call t o =>
    cases o with
    | intern k q v => intro x hx; rw [h.1]; exact LawfulHashable.hash_eq _ _ (h.2 x ▸ hx)
    | query k q => exact h.1
    | len k => trivial
    | clear k => trivial
  | _ => trivial

omit [DecidableEq K] [BEq V] in
theorem erase_at (s : State K V) (t : Tid) (pc : Pc K V) : (s.at t pc).erase = s.erase.at t pc.erase := by
  simp [State.at, State.erase, List.map_set]

omit [DecidableEq K] [BEq V] in
theorem erase_commit (s : State K V) (t : Tid) (o : Op K V) (r : Ret) : (s.commit t o r).erase = s.erase.commit t o.erase r := by
  simp [State.commit, State.erase, List.map_set, Pc.erase, Entry.erase]

theorem run_erase [h : Hashable V] [LawfulHashable V] (cfg : Cfg K V) (s : State K V) (t : Tid) (a : Nat) (pc : Pc K V) (hp : pc.Hashes) :
    @run K V _ _ oneBucket cfg s.erase t a pc.erase = (run cfg s t a pc).erase := by
  cases pc with
  | idle => rfl
  | want o =>
    simp only [Pc.erase, run, Op.erase_pool]
    by_cases hl : (s.lock (cfg.lockOf o.pool)).isSome = true
    · rw [if_pos hl, if_pos (by exact hl)]; rfl
    · rw [if_neg hl, if_neg (by exact hl)]
      simp only [Res.erase, erase_at]; rfl
  | inside o =>
    simp only [Pc.erase, run, Op.erase_pool, tableOk_erase]
    by_cases ht : tableOk s o.pool = true
    · rw [if_pos ht, if_pos ht]
      cases o with
      | intern k q v =>
        simp only [Op.erase, find_erase s k (q := q) hp]
        cases find s k q <;> simp only [Res.erase, erase_at] <;> rfl
      | query k q =>
        simp only [Op.erase, find_erase s k (q := q) hp, Res.erase, erase_commit]
      | len k => simp only [Op.erase, Res.erase, erase_commit]; rfl
      | clear k =>
        simp only [Op.erase]
        by_cases ho : cfg.owns k = true
        · rw [if_pos ho, if_pos ho]; rfl
        · rw [if_neg ho, if_neg ho]; simp only [Res.erase, erase_commit]; rfl
    · rw [if_neg ht, if_neg ht]; rfl
  | build k q v =>
    simp only [Pc.erase, run]
    show (match allocAt cfg s k v a with | none => _ | some addr => _) = _
    cases allocAt cfg s k v a with
    | none => rfl
    | some addr => simp only [Res.erase, erase_at]; rfl
  | insert k q v p =>
    simp only [Pc.erase, run, tableOk_erase, find_erase_val]
    by_cases ht : tableOk s k = true
    · rw [if_pos ht, if_pos ht]
      cases find s k (.ofVal v) with
      | none => simp only [Res.erase, erase_commit]; rfl
      | some _ =>
        simp only [Res.erase, erase_commit]
        by_cases ho : cfg.owns k = true
        · rw [if_pos ho, if_pos ho]; rfl
        · rw [if_neg ho, if_neg ho]; rfl
    · rw [if_neg ht, if_neg ht]; rfl
  | dropArg k q v p => simp only [Pc.erase, run, Res.erase, erase_commit]; rfl
  | leave o r =>
    simp only [Pc.erase, run, Res.erase, Op.erase_pool, State.erase, State.at, State.unlock, List.map_set]
    rfl

omit [BEq V] in
theorem runPanic_erase (cfg : Cfg K V) (s : State K V) (t : Tid) (pc : Pc K V) :
    runPanic cfg s.erase t pc.erase = (runPanic cfg s t pc).erase := by
  cases pc with
  | inside o => simp only [Pc.erase, runPanic, Res.erase, Op.erase_pool, erase_at]; rfl
  | idle => rfl
  | want o => rfl
  | leave o r => rfl
  | build k q v => simp only [Pc.erase, runPanic, Res.erase, erase_at]; rfl
  | insert k q v p => simp only [Pc.erase, runPanic, Res.erase, erase_at]; rfl
  | dropArg k q v p => simp only [Pc.erase, runPanic, Res.erase, erase_at]; rfl

/-- **One step.** Without hashes a step does the same. -/
theorem step_erase [h : Hashable V] [LawfulHashable V] (cfg : Cfg K V) (s : State K V) (hs : ∀ pc ∈ s.threads, pc.Hashes) (a : Act K V) :
    @step K V _ _ oneBucket cfg s.erase a.erase = (step cfg s a).erase := by
  have ht : ∀ t : Nat, s.erase.threads[t]? = (s.threads[t]?).map Pc.erase := fun t => List.getElem?_map
  cases a with
  | spawn => simp [Act.erase, step, Res.erase, State.erase, Pc.erase]
  | call t o =>
    simp only [Act.erase, step, ht]
    cases hp : s.threads[t]? with
    | none => rfl
    | some pc =>
      cases pc with
      | idle =>
        simp only [Option.map_some, Pc.erase, Op.erase_pool]
        by_cases hg : o.pool ∈ s.gone
        · rw [if_pos hg, if_pos (by exact hg)]; rfl
        · rw [if_neg hg, if_neg (by exact hg)]; simp only [Res.erase, erase_at]; rfl
      | _ => rfl
  | run t n =>
    simp only [Act.erase, step, ht]
    cases hp : s.threads[t]? with
    | none => rfl
    | some pc => exact run_erase cfg s t n pc (hs pc (List.mem_of_getElem? hp))
  | panic t =>
    simp only [Act.erase, step, ht]
    cases hp : s.threads[t]? with
    | none => rfl
    | some pc => exact runPanic_erase cfg s t pc
  | dropArena k =>
    simp only [Act.erase, step]
    have e : (s.erase.threads.all fun pc => decide (pc.pool? ≠ some k)) = s.threads.all fun pc => decide (pc.pool? ≠ some k) := by
      simp only [State.erase, List.all_map]
      congr 1; funext pc
      simp only [Function.comp, Pc.erase_pool]
    rw [e]
    by_cases hc : (cfg.owns k && !decide (k ∈ s.gone) && s.threads.all fun pc => decide (pc.pool? ≠ some k)) = true
    · rw [if_pos hc, if_pos (by exact hc)]; rfl
    · rw [if_neg hc, if_neg (by exact hc)]; rfl
  | read k p =>
    simp only [Act.erase, step, deref_erase]
    cases deref s k p <;> rfl

theorem mem_set {α : Type} {l : List α} {t : Nat} {x y : α} (h : y ∈ l.set t x) : y = x ∨ y ∈ l := by
  rcases List.mem_or_eq_of_mem_set h with h | h
  · exact .inr h
  · exact .inl h

theorem step_hashes [h : Hashable V] {cfg : Cfg K V} {s s' : State K V} (hs : ∀ pc ∈ s.threads, pc.Hashes) {a : Act K V} (ha : a.Hashes)
    (e : step cfg s a = .ok s') : ∀ pc ∈ s'.threads, pc.Hashes := by
  have key : ∀ t (pc : Pc K V), pc.Hashes → ∀ pc' ∈ s.threads.set t pc, pc'.Hashes := by
    intro t pc hp pc' h'
    rcases mem_set h' with rfl | h'
    · exact hp
    · exact hs _ h'
  cases a with
  | spawn =>
    cases e
    intro pc hp
    rcases List.mem_append.mp hp with hp | hp
    · exact hs _ hp
    · rw [List.mem_singleton.mp hp]; trivial
  | call t o =>
    simp only [step] at e
    split at e
    · split at e
      · cases e
      · cases e
        exact key _ _ (by cases o <;> first | exact ha | trivial)
    · cases e
  | run t n =>
    simp only [step] at e
    split at e
    case h_2 => cases e
    case h_1 pc hp =>
      have hpc := hs pc (List.mem_of_getElem? hp)
      cases pc with
      | idle => cases e
      | want o =>
        simp only [run] at e
        split at e
        · cases e
        · cases e
          exact key _ _ (by cases o <;> first | exact hpc | trivial)
      | inside o =>
        simp only [run] at e
        split at e
        · cases o with
          | intern k q v => simp only at e; split at e <;> cases e <;> exact key _ _ trivial
          | query k q => cases e; exact key _ _ trivial
          | len k => cases e; exact key _ _ trivial
          | clear k =>
            simp only at e; split at e
            · cases e
            · cases e; exact key _ _ trivial
        · cases e
      | build k q v =>
        simp only [run] at e
        split at e
        · cases e
        · cases e; exact key _ _ trivial
      | insert k q v p =>
        simp only [run] at e
        split at e
        · split at e
          · cases e
            by_cases ho : cfg.owns k = true
            · rw [if_pos ho]; exact key _ _ trivial
            · rw [if_neg ho]; exact key _ _ trivial
          · cases e; exact key _ _ trivial
        · cases e
      | dropArg k q v p => cases e; exact key _ _ trivial
      | leave o r => cases e; exact key _ _ trivial
  | panic t =>
    simp only [step] at e
    split at e
    case h_2 => cases e
    case h_1 pc hp =>
      cases pc with
      | inside o => cases e; exact key _ _ trivial
      | build k q v => cases e; exact key _ _ trivial
      | insert k q v p => cases e; exact key _ _ trivial
      | dropArg k q v p => cases e; exact key _ _ trivial
      | _ => cases e
  | dropArena k =>
    simp only [step] at e
    split at e
    · cases e; exact hs
    · cases e
  | read k p =>
    simp only [step] at e
    split at e
    · cases e; exact hs
    · cases e

/-- **Executions.** Without hashes an execution does the same. -/
theorem exec_erase [h : Hashable V] [LawfulHashable V] (cfg : Cfg K V) (l : List (Act K V)) (hl : ∀ a ∈ l, a.Hashes) (s : State K V)
    (hs : ∀ pc ∈ s.threads, pc.Hashes) : @exec K V _ _ oneBucket cfg s.erase (l.map Act.erase) = (exec cfg s l).erase := by
  induction l generalizing s with
  | nil => rfl
  | cons a l ih =>
    simp only [List.map_cons, exec, step_erase cfg s hs a]
    cases e : step cfg s a with
    | ok s' => exact ih (fun b hb => hl b (List.mem_cons_of_mem _ hb)) s' (step_hashes hs (hl a List.mem_cons_self) e)
    | blocked => rfl
    | ub => rfl

end Pool
