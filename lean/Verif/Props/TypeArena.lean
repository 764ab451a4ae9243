import Verif.TypeArena.Inv
/-
Properties C46 and C47, about typearena.rs (`NewIntern`).
-/
namespace TypeArena
open TypeMap (Cfg Code Entry Tid Res Replay set_cases set_self set_other)
variable {cfg : Cfg}

/-- A thread uses position `pos` of the vector of `t`: it is about to lock that mutex or has locked it. -/
def Uses (s : State cfg) (u : Tid) (t : cfg.Ty) (pos : Nat) : Prop :=
  (∃ code, s.threads[u]? = some (.lock t code pos)) ∨ ∃ orig n k, s.threads[u]? = some (.inside t orig n k pos)

/-- **C46, one table.** All calls for a type use the same table: the first one of that type. -/
theorem C46_uses_first {s : State cfg} (h : Reach s) {u : Tid} {t : cfg.Ty} {pos : Nat} (hu : Uses s u t pos) :
    ∃ c, table s t = some (pos, c) := by
  rcases hu with ⟨code, hu⟩ | ⟨orig, n, k, hu⟩
  · obtain ⟨c, hc⟩ := h.inv.lock u t code pos hu
    exact ⟨c, table_iff.mpr hc⟩
  · obtain ⟨c, _, hc, _⟩ := h.inv.ins u t orig n k pos hu
    exact ⟨c, table_iff.mpr hc⟩

theorem C46_same_table {s : State cfg} (h : Reach s) {u u' : Tid} {t : cfg.Ty} {pos pos' : Nat} (hu : Uses s u t pos)
    (hu' : Uses s u' t pos') : pos = pos' := by
  obtain ⟨c, e⟩ := C46_uses_first h hu
  obtain ⟨c', e'⟩ := C46_uses_first h hu'
  rw [e] at e'
  cases e'
  rfl

/-- What one step does to the table of `t`. -/
theorem table_step {s s' : State cfg} (h : Reach s) {a : Act cfg} (hs : step s a = .ok s') {t : cfg.Ty} {pos : Nat}
    {c : Lock (cfg.C t)} (ht : table s t = some (pos, c)) : ∃ c', table s' t = some (pos, c') ∧
      (c.poisoned = true → c' = c) := by
  have I := h.inv
  have ht := table_iff.mp ht
  have same : s'.vecs = s.vecs → ∃ c', table s' t = some (pos, c') ∧ (c.poisoned = true → c' = c) :=
    fun e => ⟨c, table_iff.mpr (e ▸ ht), fun _ => rfl⟩
  have upd : ∀ (t' : cfg.Ty) p d d', IsTab s.vecs t' p d → (d.poisoned = false) → s'.vecs = setCell s.vecs t' p d' →
      ∃ c', table s' t = some (pos, c') ∧ (c.poisoned = true → c' = c) := by
    intro t' p d d' hd hp e
    by_cases e' : t = t'
    · subst e'
      obtain ⟨rfl, rfl⟩ := ht.unique hd
      exact ⟨d', table_iff.mpr (e ▸ (isTab_set_same hd).mpr ⟨rfl, rfl⟩), fun h => by rw [hp] at h; cases h⟩
    · exact ⟨c, table_iff.mpr (e ▸ (isTab_set_other e' hd).mpr ht), fun _ => rfl⟩
  cases a with
  | spawn => cases hs; exact same rfl
  | call u t' code =>
    simp only [step] at hs
    cases hu : s.threads[u]? with
    | none => rw [hu] at hs; cases hs
    | some pc =>
      rw [hu] at hs
      cases pc with
      | idle => cases hs; exact same rfl
      | _ => cases hs
  | run u n =>
    simp only [step] at hs
    cases hu : s.threads[u]? with
    | none => rw [hu] at hs; cases hs
    | some pc =>
      rw [hu] at hs
      simp only at hs
      cases pc with
      | idle => cases hs
      | search t' code =>
        simp only [run] at hs
        cases hv : s.vecs[cfg.shard t']? with
        | none => rw [hv] at hs; cases hs
        | some v =>
          rw [hv] at hs
          simp only at hs
          split at hs
          · cases hs
          · cases hf : find v t' n <;> rw [hf] at hs <;> cases hs <;> exact same rfl
      | push t' code =>
        simp only [run] at hs
        cases hv : s.vecs[cfg.shard t']? with
        | none => rw [hv] at hs; cases hs
        | some v =>
          rw [hv] at hs
          cases hs
          refine ⟨c, table_iff.mpr ?_, fun _ => rfl⟩
          by_cases e : t = t'
          · subst e; exact (isTab_push_same hv).mpr (.inl ht)
          · exact (isTab_push_other e hv).mpr ht
      | again t' code m =>
        simp only [run] at hs
        cases hv : s.vecs[cfg.shard t']? with
        | none => rw [hv] at hs; cases hs
        | some v =>
          rw [hv] at hs
          simp only at hs
          split at hs
          · cases hs
          · cases hf : find v t' n <;> rw [hf] at hs <;> cases hs <;> exact same rfl
      | lock t' code p =>
        obtain ⟨d, hd⟩ := I.lock u t' code p hu
        simp only [run, hd.get] at hs
        split at hs
        · cases hs
        · cases hp : d.poisoned with
          | true => rw [hp] at hs; cases hs; exact same rfl
          | false =>
            rw [hp] at hs
            cases hs
            exact upd t' p d _ hd hp rfl
      | inside t' orig i k p =>
        obtain ⟨d, d0, hd, ho, hp, _⟩ := I.ins u t' orig i k p hu
        simp only [run, hd.get] at hs
        cases k with
        | ret r => cases hs; exact upd t' p d _ hd hp rfl
        | next f k => cases hs; exact upd t' p d _ hd hp rfl
  | panic u =>
    simp only [step] at hs
    cases hu : s.threads[u]? with
    | none => rw [hu] at hs; cases hs
    | some pc =>
      rw [hu] at hs
      cases pc with
      | inside t' orig i k p =>
        obtain ⟨d, d0, hd, ho, hp, _⟩ := I.ins u t' orig i k p hu
        simp only [runPanic, hd.get] at hs
        cases hs
        exact upd t' p d _ hd hp rfl
      | _ => cases hs

theorem Steps.reach {s s' : State cfg} (st : Steps s s') (h : Reach s) : Reach s' := by
  induction st with
  | refl => exact h
  | step _ hs ih => exact ih.step hs

/-- **C46, for ever**: once a type has a table, it keeps that one; tables pushed later by threads that lost the race are
never used. -/
theorem C46_same_table_forever {s s' : State cfg} (h : Reach s) (st : Steps s s') {t : cfg.Ty} {u u' : Tid} {pos pos' : Nat}
    (hu : Uses s u t pos) (hu' : Uses s' u' t pos') : pos = pos' := by
  obtain ⟨c, e⟩ := C46_uses_first h hu
  obtain ⟨c', e'⟩ := C46_uses_first (st.reach h) hu'
  have key : ∃ d, table s' t = some (pos, d) := by
    clear e' hu' 
    induction st with
    | refl => exact ⟨c, e⟩
    | step st' hs ih =>
      obtain ⟨d, hd⟩ := ih
      obtain ⟨d', hd', _⟩ := table_step (st'.reach h) hs hd
      exact ⟨d', hd'⟩
  obtain ⟨d, hd⟩ := key
  rw [hd] at e'
  cases e'
  rfl

/-- **C46, `unreachable!` is not reached**, and no index or downcast fails. -/
theorem C46_never_unreachable {s : State cfg} (h : Reach s) (a : Act cfg) : step s a ≠ .bug := by
  intro e
  rcases h.inv.step a with h | ⟨s', h, _⟩ <;> rw [e] at h <;> cases h

/-- **C46, atomic per type**: while nobody holds the table, it contains what the finished calls of its type, run one after
the other on an empty table, leave there, and they returned what those runs return. -/
theorem C46_history {s : State cfg} (h : Reach s) {t : cfg.Ty} {pos : Nat} {c : Lock (cfg.C t)}
    (ht : table s t = some (pos, c)) (ho : c.owner = none) : Replay (cfg.dflt t) (s.log t) c.val :=
  h.inv.rest t pos c (table_iff.mp ht) ho

/-- ... and a type without table has no finished calls. -/
theorem C46_history_none {s : State cfg} (h : Reach s) {t : cfg.Ty} (ht : table s t = none) : s.log t = [] :=
  h.inv.none t fun pos c hc => by rw [table_iff.mpr hc] at ht; cases ht

/-! ### C47 -/

/-- **C47, a panic poisons the type**: exactly the types for which a closure panicked are poisoned. -/
theorem C47_poisoned_iff_panicked {s : State cfg} (h : Reach s) {t : cfg.Ty} {pos : Nat} {c : Lock (cfg.C t)}
    (ht : table s t = some (pos, c)) : c.poisoned = true ↔ ∃ e ∈ s.log t, e.res = none :=
  h.inv.pois t pos c (table_iff.mp ht)

/-- After a panic the table of the type exists and is poisoned. -/
theorem C47_panicked {s : State cfg} (h : Reach s) {t : cfg.Ty} (hp : ∃ e ∈ s.log t, e.res = none) :
    ∃ pos c, table s t = some (pos, c) ∧ c.poisoned = true := by
  cases ht : table s t with
  | none =>
    rw [C46_history_none h ht] at hp
    obtain ⟨_, h, _⟩ := hp
    cases h
  | some x => exact ⟨x.1, x.2, rfl, (C47_poisoned_iff_panicked h ht).mpr hp⟩

/-- **C47, for ever**: after a panic for type `t`, in every further execution the table of `t` never changes again, no
thread is inside a closure for `t`, and no call for `t` returns. -/
theorem C47_poisoned_forever {s s' : State cfg} (h : Reach s) (st : Steps s s') {t : cfg.Ty} {pos : Nat}
    {c : Lock (cfg.C t)} (ht : table s t = some (pos, c)) (hp : c.poisoned = true) :
    table s' t = some (pos, c) ∧ s'.log t = s.log t ∧
      ∀ (u : Tid) orig n k p, s'.threads[u]? ≠ some (.inside t orig n k p) := by
  have noIn : ∀ {s : State cfg}, Reach s → table s t = some (pos, c) →
      ∀ (u : Tid) orig n k p, s.threads[u]? ≠ some (.inside t orig n k p) := by
    intro s h ht u orig n k p hu
    obtain ⟨d, _, hd, _, hpd, _⟩ := h.inv.ins u t orig n k p hu
    obtain ⟨rfl, rfl⟩ := hd.unique (table_iff.mp ht)
    rw [hp] at hpd
    cases hpd
  suffices table s' t = some (pos, c) ∧ s'.log t = s.log t from ⟨this.1, this.2, noIn (st.reach h) this.1⟩
  induction st with
  | refl => exact ⟨ht, rfl⟩
  | @step s1 s2 a st' hs ih =>
    have r := st'.reach h
    obtain ⟨h1, h2⟩ := ih
    obtain ⟨c', hc', e⟩ := table_step r hs h1
    have := e hp
    subst this
    refine ⟨hc', ?_⟩
    have no := noIn r h1
    rw [← h2]
    have other : ∀ (t' : cfg.Ty) e, t' ≠ t → s1.setLog t' e t = s1.log t := fun t' e hne => setLog_other s1 hne e
    cases a with
    | spawn => cases hs; rfl
    | call u t' code =>
      simp only [step] at hs
      cases hu : s1.threads[u]? with
      | none => rw [hu] at hs; cases hs
      | some pc =>
        rw [hu] at hs
        cases pc with
        | idle => cases hs; rfl
        | _ => cases hs
    | run u n =>
      simp only [step] at hs
      cases hu : s1.threads[u]? with
      | none => rw [hu] at hs; cases hs
      | some pc =>
        rw [hu] at hs
        simp only at hs
        cases pc with
        | idle => cases hs
        | search t' code =>
          simp only [run] at hs
          cases hv : s1.vecs[cfg.shard t']? with
          | none => rw [hv] at hs; cases hs
          | some v =>
            rw [hv] at hs
            simp only at hs
            split at hs
            · cases hs
            · cases hf : find v t' n <;> rw [hf] at hs <;> cases hs <;> rfl
        | push t' code =>
          simp only [run] at hs
          cases hv : s1.vecs[cfg.shard t']? with
          | none => rw [hv] at hs; cases hs
          | some v => rw [hv] at hs; cases hs; rfl
        | again t' code m =>
          simp only [run] at hs
          cases hv : s1.vecs[cfg.shard t']? with
          | none => rw [hv] at hs; cases hs
          | some v =>
            rw [hv] at hs
            simp only at hs
            split at hs
            · cases hs
            · cases hf : find v t' n <;> rw [hf] at hs <;> cases hs <;> rfl
        | lock t' code p =>
          obtain ⟨d, hd⟩ := r.inv.lock u t' code p hu
          simp only [run, hd.get] at hs
          split at hs
          · cases hs
          · split at hs <;> cases hs <;> rfl
        | inside t' orig i k p =>
          have hne : t' ≠ t := fun e => by subst e; exact no u orig i k p hu
          obtain ⟨d, d0, hd, _⟩ := r.inv.ins u t' orig i k p hu
          simp only [run, hd.get] at hs
          cases k with
          | ret r => cases hs; exact other t' _ hne
          | next f k => cases hs; rfl
    | panic u =>
      simp only [step] at hs
      cases hu : s1.threads[u]? with
      | none => rw [hu] at hs; cases hs
      | some pc =>
        rw [hu] at hs
        cases pc with
        | inside t' orig i k p =>
          have hne : t' ≠ t := fun e => by subst e; exact no u orig i k p hu
          obtain ⟨d, d0, hd, _⟩ := r.inv.ins u t' orig i k p hu
          simp only [runPanic, hd.get] at hs
          cases hs
          exact other t' _ hne
        | _ => cases hs

/-- **C47, every later call panics**: a call for a poisoned type that has found the table panics at its next step. -/
theorem C47_call_panics {s : State cfg} (h : Reach s) {t : cfg.Ty} {pos : Nat} {c : Lock (cfg.C t)}
    (ht : table s t = some (pos, c)) (hp : c.poisoned = true) {u : Tid} {code : Code (cfg.C t) (cfg.R t)} {p n : Nat}
    (hu : s.threads[u]? = some (.lock t code p)) :
    step s (.run u n) = .ok { s with threads := s.threads.set u .idle, refused := (u, t) :: s.refused } := by
  obtain ⟨d, hd⟩ := h.inv.lock u t code p hu
  obtain ⟨rfl, rfl⟩ := hd.unique (table_iff.mp ht)
  have ho : d.owner = none := by
    cases ho : d.owner with
    | none => rfl
    | some w =>
      obtain ⟨orig, n, k, hw⟩ := h.inv.own t p d w hd ho
      obtain ⟨d', _, hd', _, hpd, _⟩ := h.inv.ins w t orig n k p hw
      obtain ⟨_, rfl⟩ := hd'.unique hd
      rw [hp] at hpd
      cases hpd
  simp only [step, hu, run, hd.get, ho, hp]
  rfl

/-- **C47, every later call panics**, from its start: a thread that calls for a poisoned type, run alone, panics (and by
`C47_poisoned_forever` there is no schedule in which the call returns). -/
theorem C47_whole_call_panics {s : State cfg} (h : Reach s) {t : cfg.Ty} {pos : Nat} {c : Lock (cfg.C t)}
    (ht : table s t = some (pos, c)) (hp : c.poisoned = true) {u : Tid} (code : Code (cfg.C t) (cfg.R t))
    (hu : s.threads[u]? = some .idle) :
    ∃ n s1 s2, step s (.call u t code) = .ok s1 ∧ step s1 (.run u n) = .ok s2 ∧
      step s2 (.run u 0) = .ok { s with refused := (u, t) :: s.refused } := by
  have e1 : step s (.call u t code) = .ok { s with threads := s.threads.set u (.search t code) } := by
    simp only [step, hu]
  have ht' := ht
  unfold table at ht'
  cases hv : s.vecs[cfg.shard t]? with
  | none => rw [hv] at ht'; cases ht'
  | some v =>
    rw [hv] at ht'
    simp only [Option.bind_some] at ht'
    cases hf : find v t v.length with
    | none => rw [hf] at ht'; cases ht'
    | some p =>
      rw [hf] at ht'
      simp only [Option.bind_some] at ht'
      have hpp : p = pos := by
        cases hg : getCell s.vecs t p with
        | none => rw [hg] at ht'; cases ht'
        | some d => rw [hg] at ht'; cases ht'; rfl
      subst hpp
      have e2 : step { s with threads := s.threads.set u (.search t code) } (.run u v.length) =
          .ok { s with threads := (s.threads.set u (.search t code)).set u (.lock t code p) } := by
        simp only [step, set_self hu, run, hv, Nat.lt_irrefl, if_false, hf]
      refine ⟨v.length, _, _, e1, e2, ?_⟩
      have r := (h.step e1).step e2
      rw [C47_call_panics r (t := t) (pos := p) (c := c) ht hp (u := u) (code := code) (p := p) (set_self (set_self hu))]
      simp only [List.set_set]
      congr 2
      obtain ⟨hlt, hg⟩ := List.getElem?_eq_some_iff.mp hu
      rw [← hg]
      exact List.set_getElem_self hlt

/-- **C47, other types keep working**: a call for a type for which nothing panicked gets its table as soon as it is
free. -/
theorem C47_other_types_work {s : State cfg} (h : Reach s) {t : cfg.Ty} (hp : ∀ e ∈ s.log t, e.res ≠ none) {u : Tid}
    {code : Code (cfg.C t) (cfg.R t)} {p n : Nat} (hu : s.threads[u]? = some (.lock t code p))
    (free : ∀ (w : Tid) orig n k q, s.threads[w]? ≠ some (.inside t orig n k q)) :
    ∃ s', step s (.run u n) = .ok s' ∧ s'.threads[u]? = some (.inside t code 0 code p) := by
  obtain ⟨d, hd⟩ := h.inv.lock u t code p hu
  have ho : d.owner = none := by
    cases ho : d.owner with
    | none => rfl
    | some w =>
      obtain ⟨orig, n, k, hw⟩ := h.inv.own t p d w hd ho
      exact absurd hw (free w orig n k p)
  have hpo : d.poisoned = false := by
    cases hpo : d.poisoned with
    | false => rfl
    | true =>
      obtain ⟨e, he, e'⟩ := (h.inv.pois t p d hd).mp hpo
      exact absurd e' (hp e he)
  refine ⟨_, by simp only [step, hu, run, hd.get, ho, hpo]; rfl, set_self hu⟩

/-! A concrete execution: two threads race to create the table of type `true`, in the same shard as type `false`. -/
namespace Demo

abbrev demo : Cfg where
  Ty := Bool
  C _ := List Nat
  dflt _ := []
  R _ := Nat
  writes _ := [.u64 37]
  w := 64

def push (n : Nat) : Code (List Nat) Nat := .next (n :: ·) fun c => .ret (c.length + 1)

def exec (s : State demo) : List (Act demo) → Option (State demo)
  | [] => some s
  | a :: l => match step s a with
    | .ok s' => exec s' l
    | _ => none

theorem exec_steps {s0 s s' : State demo} {l : List (Act demo)} (h : exec s l = some s') (r : Steps s0 s) : Steps s0 s' := by
  induction l generalizing s with
  | nil => cases h; exact r
  | cons a l ih =>
    simp only [exec] at h
    cases hs : step s a with
    | ok s1 => rw [hs] at h; exact ih h (r.step hs)
    | blocked => rw [hs] at h; cases h
    | bug => rw [hs] at h; cases h

/-- Both threads push; both use position 0; thread 1's second search reads a stale length. -/
def race : List (Act demo) :=
  [.spawn, .spawn, .call 0 true (push 5), .call 1 true (push 6), .run 0 0, .run 1 0, .run 1 0, .run 0 0, .run 1 1, .run 0 2]

example : ∃ s : State demo, Reach s ∧ Uses s 0 true 0 ∧ Uses s 1 true 0 ∧ s.vecs[demo.shard true]?.map (·.length) = some 2 :=
  ⟨_, (exec_steps (l := race) rfl .refl).reach .init, .inl ⟨push 5, rfl⟩, .inl ⟨push 6, rfl⟩, rfl⟩

/-- Then thread 0 panics inside, thread 1's call panics, a call for the other type returns. -/
def poison : List (Act demo) :=
  race ++ [.run 0 0, .panic 0, .run 1 0, .call 1 false (push 7), .run 1 2, .run 1 0, .run 1 3, .run 1 0, .run 1 0, .run 1 0,
    .call 0 true (push 8), .run 0 3]

example : ∃ s : State demo, Reach s ∧ (∃ pos c, table s true = some (pos, c) ∧ c.poisoned = true) ∧ s.refused = [(1, true)] ∧
    (s.log false).map (·.res) = [some (1 : Nat)] ∧ s.threads[0]? = some (.lock true (push 8) 0) :=
  ⟨_, (exec_steps (l := poison) rfl .refl).reach .init, ⟨_, _, rfl, rfl⟩, rfl, rfl, rfl⟩

end Demo
end TypeArena
