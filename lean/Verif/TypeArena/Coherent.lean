import Verif.Props.TypeArenaFair
/-
Coherence of the length counters of the vectors of typearena.rs:21. In `Verif.TypeArena.Model` a thread may read any old length, except
that it sees its own last push. Real atomics guarantee more: a thread never reads an older value than it has read before
(read-read coherence), across calls too. `Seen` records, for each thread and vector, the largest length read so far.
-/
namespace TypeArena
open TypeMap (Cfg Code Entry Tid Res Replay set_cases set_self set_other shardIndex_lt)
variable {cfg : Cfg}

/-- For each thread and vector, the length read last. -/
abbrev Seen := Tid → Nat → Nat

def Seen.put (f : Seen) (u : Tid) (i n : Nat) : Seen := fun w j => if w = u ∧ j = i then n else f w j

/-- The vector whose length the thread reads in its next step (`iter()`, typearena.rs:64 and 77; `push` (71) reads and increments it),
and the value it gets when `n` is what a load returns. -/
def reads (s : State cfg) (n : Nat) : Pc cfg → Option (Nat × Nat)
  | .search t _ | .again t _ _ => some (cfg.shard t, n)
  | .push t _ => some (cfg.shard t, (s.vecs[cfg.shard t]?).elim 0 (·.length + 1))
  | _ => none

/-- A step in which loads are coherent. -/
def cstep (x : State cfg × Seen) : Act cfg → Res (State cfg × Seen)
  | .run u n => match x.1.threads[u]? with
    | none => .blocked
    | some pc => match reads x.1 n pc with
      | none => match step x.1 (.run u n) with
        | .ok s' => .ok (s', x.2)
        | .blocked => .blocked
        | .bug => .bug
      | some (i, m) =>
        if m < x.2 u i then .blocked
        else match step x.1 (.run u n) with
          | .ok s' => .ok (s', x.2.put u i m)
          | .blocked => .blocked
          | .bug => .bug
  | a => match step x.1 a with
    | .ok s' => .ok (s', x.2)
    | .blocked => .blocked
    | .bug => .bug

/-- States of executions with coherent loads. -/
inductive CReach : State cfg × Seen → Prop where
  | init : CReach (init cfg, fun _ _ => 0)
  | step {x x' a} : CReach x → cstep x a = .ok x' → CReach x'

/-- A coherent step is a step. -/
theorem cstep_ok {x x' : State cfg × Seen} {a : Act cfg} (h : cstep x a = .ok x') : step x.1 a = .ok x'.1 := by
  cases a with
  | run u n =>
    simp only [cstep] at h
    (repeat' split at h) <;> cases h <;> assumption
  | _ =>
    simp only [cstep] at h
    split at h <;> cases h <;> assumption

theorem CReach.reach {x : State cfg × Seen} (h : CReach x) : Reach x.1 := by
  induction h with
  | init => exact .init
  | step _ hs ih => exact .step ih (cstep_ok hs)

/-- The types of the tables in vector `i`. -/
def tys (s : State cfg) (i : Nat) : List cfg.Ty := (s.vecs[i]?).elim [] fun v => v.map (·.1)

/-- How many tables there are for type `t`. -/
def tables (s : State cfg) (t : cfg.Ty) : Nat := (tys s (cfg.shard t)).countP fun t' => decide (t' = t)

/-- Thread `u` has read a length with which it sees a table for `t`. -/
def Knows (x : State cfg × Seen) (u : Tid) (t : cfg.Ty) : Prop := t ∈ (tys x.1 (cfg.shard t)).take (x.2 u (cfg.shard t))

theorem find_none_tys {s : State cfg} {t : cfg.Ty} {v : List (Cell cfg)} (hv : s.vecs[cfg.shard t]? = some v) {n : Nat}
    (h : find v t n = none) : t ∉ (tys s (cfg.shard t)).take n := by
  unfold tys
  rw [hv]
  simp only [Option.elim_some, ← List.map_take]
  intro hm
  obtain ⟨x, hx, e⟩ := List.mem_map.mp hm
  unfold find at h
  rw [List.findIdx?_eq_none_iff] at h
  have := h x hx
  rw [downcast_isSome] at this
  simp [e] at this

theorem tys_setCell (V : List (List (Cell cfg))) (t : cfg.Ty) {pos : Nat} {c d : Lock (cfg.C t)} (h : getCell V t pos = some c)
    (i : Nat) : ((setCell V t pos d)[i]?).elim [] (fun v => v.map (·.1)) = (V[i]?).elim [] fun v => v.map (·.1) := by
  unfold setCell
  rw [List.getElem?_modify]
  cases hv : V[i]? with
  | none => rfl
  | some v =>
    simp only [Option.map_eq_map, Option.map_some, Option.elim_some]
    split
    · rename_i e
      subst e
      unfold getCell at h
      rw [hv] at h
      simp only [Option.bind_some] at h
      cases hp : v[pos]? with
      | none => rw [hp] at h; cases h
      | some y =>
        rw [hp] at h
        have hy := downcast_some h
        rw [List.map_set]
        apply List.ext_getElem?
        intro k
        rw [List.getElem?_set]
        split
        · rename_i e
          subst e
          rw [List.length_map, if_pos (List.getElem?_eq_some_iff.mp hp).1, List.getElem?_map, hp, Option.map_some, hy]
        · rfl
    · rfl

/-- Only a push changes the types of the tables. -/
theorem tys_step {s s' : State cfg} {x : Act cfg} (h : step s x = .ok s') :
    (∀ i, tys s' i = tys s i) ∨ ∃ u n t code, x = .run u n ∧ s.threads[u]? = some (.push t code) ∧
      tys s' (cfg.shard t) = tys s (cfg.shard t) ++ [t] ∧ ∀ i, i ≠ cfg.shard t → tys s' i = tys s i := by
  have same : s'.vecs = s.vecs → ∀ i, tys s' i = tys s i := fun e i => by unfold tys; rw [e]
  cases x with
  | spawn => cases h; exact .inl (same rfl)
  | call w t code =>
    simp only [step] at h
    split at h <;> cases h
    exact .inl (same rfl)
  | run w n =>
    cases hp : s.threads[w]? with
    | none => simp only [step, hp] at h; cases h
    | some pc =>
      simp only [step, hp] at h
      cases pc with
      | push t code =>
        simp only [run] at h
        split at h
        · cases h
        · rename_i v hv
          cases h
          refine .inr ⟨w, n, t, code, rfl, hp, ?_, fun i hne => ?_⟩
          · simp only [tys, set_self hv, hv, Option.elim_some, List.map_append, List.map_cons, List.map_nil]
          · simp only [tys, List.getElem?_set_ne (Ne.symm hne)]
      | _ =>
        simp only [run] at h
        (repeat' split at h) <;> cases h <;> first
          | exact .inl (same rfl)
          | exact .inl fun i => tys_setCell _ _ (by assumption) i
  | panic w =>
    cases hp : s.threads[w]? with
    | none => simp only [step, hp] at h; cases h
    | some pc =>
      simp only [step, hp] at h
      cases pc <;> simp only [runPanic] at h <;> (repeat' split at h) <;> cases h
      exact .inl fun i => tys_setCell _ _ (by assumption) i

/-- `P t`: the threads that have pushed a table for `t`. -/
structure CInv (x : State cfg × Seen) (P : cfg.Ty → List Tid) : Prop where
  count : ∀ t, tables x.1 t = (P t).length
  nodup : ∀ t, (P t).Nodup
  knows : ∀ t u, u ∈ P t → Knows x u t
  push : ∀ (u : Tid) t code, x.1.threads[u]? = some (.push t code) → ¬ Knows x u t
  thread : ∀ t u, u ∈ P t → u < x.1.threads.length
  bound : ∀ u i, x.2 u i ≤ (tys x.1 i).length

theorem threads_length {s s' : State cfg} {x : Act cfg} (h : step s x = .ok s') : s.threads.length ≤ s'.threads.length := by
  have set : ∀ (w : Tid) (y : Pc cfg), s'.threads = s.threads.set w y → s.threads.length ≤ s'.threads.length := by
    intro w y e
    rw [e, List.length_set]; exact Nat.le_refl _
  cases x with
  | spawn => cases h; simp
  | call w t code =>
    simp only [step] at h
    split at h <;> cases h
    exact set _ _ rfl
  | run w n =>
    simp only [step] at h
    split at h
    · obtain ⟨_, e⟩ := run_threads h; exact set _ _ e
    · cases h
  | panic w =>
    simp only [step] at h
    split at h
    · obtain ⟨_, e⟩ := runPanic_threads h; exact set _ _ e
    · cases h

/-- A thread is at `push` after a step only if it was there, or has just searched in vain. -/
theorem at_push {s s' : State cfg} {a : Act cfg} (h : step s a = .ok s') {u : Tid} {t : cfg.Ty} {code : Code (cfg.C t) (cfg.R t)}
    (hu : s'.threads[u]? = some (.push t code)) :
    (s.threads[u]? = some (.push t code) ∧ ∀ n, a ≠ .run u n) ∨
    ∃ n v, a = .run u n ∧ s.threads[u]? = some (.search t code) ∧ s.vecs[cfg.shard t]? = some v ∧ find v t n = none := by
  cases a with
  | spawn =>
    cases h
    rcases TypeMap.snoc_cases hu with h | ⟨_, e⟩
    · exact .inl ⟨h, fun n e => by cases e⟩
    · cases e
  | call w t' c =>
    simp only [step] at h
    split at h <;> cases h
    rcases set_cases hu with ⟨_, e⟩ | ⟨_, e⟩
    · cases e
    · exact .inl ⟨e, fun n e => by cases e⟩
  | run w n =>
    cases hp : s.threads[w]? with
    | none => simp only [step, hp] at h; cases h
    | some pc =>
      have h' := h
      simp only [step, hp] at h
      obtain ⟨pc', e⟩ := run_threads h
      rw [e] at hu
      rcases set_cases hu with ⟨rfl, e'⟩ | ⟨hne, e'⟩
      · subst e'
        right
        have hu' : s'.threads[u]? = some (.push t code) := by rw [e]; exact hu
        cases pc with
        | search t' c =>
          have h := h
          simp only [run] at h
          split at h
          · cases h
          · rename_i v hv
            split at h
            · cases h
            · split at h
              · cases h
                rw [set_self hp] at hu'
                cases hu'
              · rename_i hf
                cases h
                rw [set_self hp] at hu'
                cases hu'
                exact ⟨n, v, rfl, hp, hv, hf⟩
        | _ =>
          simp only [run] at h
          (repeat' split at h) <;> cases h <;> rw [set_self hp] at hu' <;> cases hu'
      · exact .inl ⟨e', fun m e => hne (by cases e; rfl)⟩
  | panic w =>
    cases hp : s.threads[w]? with
    | none => simp only [step, hp] at h; cases h
    | some pc =>
      simp only [step, hp] at h
      have h0 := h
      obtain ⟨pc', e⟩ := runPanic_threads h
      rw [e] at hu
      rcases set_cases hu with ⟨rfl, e'⟩ | ⟨hne, e'⟩
      · subst e'
        have hu' : s'.threads[u]? = some (.push t code) := by rw [e]; exact hu
        cases pc <;> simp only [runPanic] at h <;> (repeat' split at h) <;> cases h <;> rw [set_self hp] at hu' <;> cases hu'
      · exact .inl ⟨e', fun m e => by cases e⟩

theorem take_mono {α : Type} {l : List α} {x : α} {n m : Nat} (h : n ≤ m) (hx : x ∈ l.take n) : x ∈ l.take m := by
  have : l.take n = (l.take m).take n := by rw [List.take_take, Nat.min_eq_left h]
  rw [this] at hx
  exact List.mem_of_mem_take hx

theorem take_append_mem {α : Type} {l l' : List α} {x : α} {n : Nat} (hx : x ∈ l.take n) : x ∈ (l ++ l').take n := by
  rw [List.take_append]; exact List.mem_append_left _ hx

/-- What a coherent step does to the lengths read. -/
theorem cstep_seen {x x' : State cfg × Seen} {a : Act cfg} (h : cstep x a = .ok x') :
    (x'.2 = x.2 ∧ ∀ u n, a = .run u n → ∀ pc, x.1.threads[u]? = some pc → reads x.1 n pc = none) ∨
    ∃ u n pc i m, a = .run u n ∧ x.1.threads[u]? = some pc ∧ reads x.1 n pc = some (i, m) ∧ x.2 u i ≤ m ∧
      x'.2 = x.2.put u i m := by
  cases a with
  | run u n =>
    simp only [cstep] at h
    cases hp : x.1.threads[u]? with
    | none => simp only [hp] at h; cases h
    | some pc =>
      simp only [hp] at h
      cases hr : reads x.1 n pc with
      | none =>
        simp only [hr] at h
        split at h <;> cases h
        refine .inl ⟨rfl, fun u' n' e pc' hp' => ?_⟩
        cases e
        rw [hp] at hp'
        cases hp'
        exact hr
      | some im =>
        obtain ⟨i, m⟩ := im
        simp only [hr] at h
        split at h
        · cases h
        · rename_i hlt
          split at h <;> cases h
          exact .inr ⟨u, n, pc, i, m, rfl, hp, hr, Nat.not_lt.mp hlt, rfl⟩
  | _ =>
    simp only [cstep] at h
    split at h <;> cases h <;> exact .inl ⟨rfl, fun _ _ e => by cases e⟩

theorem seen_mono {x x' : State cfg × Seen} {a : Act cfg} (h : cstep x a = .ok x') (u : Tid) (i : Nat) : x.2 u i ≤ x'.2 u i := by
  rcases cstep_seen h with ⟨e, _⟩ | ⟨w, n, pc, j, m, _, _, _, hl, e⟩
  · rw [e]; exact Nat.le_refl _
  · rw [e]
    unfold Seen.put
    split
    · rename_i e
      obtain ⟨rfl, rfl⟩ := e
      exact hl
    · exact Nat.le_refl _

theorem Knows.step {x x' : State cfg × Seen} {a : Act cfg} (h : cstep x a = .ok x') {u : Tid} {t : cfg.Ty} (hk : Knows x u t) :
    Knows x' u t := by
  unfold Knows at *
  have h1 := take_mono (seen_mono h u (cfg.shard t)) hk
  rcases tys_step (cstep_ok h) with e | ⟨w, n, t', code, _, _, e, e'⟩
  · rw [e]; exact h1
  · by_cases hs : cfg.shard t = cfg.shard t'
    · rw [hs] at h1 ⊢
      rw [e]
      exact take_append_mem h1
    · rw [e' _ hs]; exact h1

theorem tys_length {s : State cfg} {i : Nat} {v : List (Cell cfg)} (h : s.vecs[i]? = some v) : (tys s i).length = v.length := by
  unfold tys
  rw [h]
  simp

/-- No length is read that the vector does not have. -/
theorem bound_step {x x' : State cfg × Seen} (b : ∀ u i, x.2 u i ≤ (tys x.1 i).length) {a : Act cfg} (h : cstep x a = .ok x')
    (u : Tid) (i : Nat) : x'.2 u i ≤ (tys x'.1 i).length := by
  have hs := cstep_ok h
  have grow : (tys x.1 i).length ≤ (tys x'.1 i).length := by
    rcases tys_step hs with e | ⟨w, n, t', c, _, _, e, e'⟩
    · rw [e]; exact Nat.le_refl _
    · by_cases hi : i = cfg.shard t'
      · rw [hi, e]; simp
      · rw [e' i hi]; exact Nat.le_refl _
  rcases cstep_seen h with ⟨e, _⟩ | ⟨w, n, pc, j, m, rfl, hw, hr, _, e⟩
  · rw [e]; exact Nat.le_trans (b u i) grow
  · rw [e]
    unfold Seen.put
    split
    · rename_i e
      obtain ⟨rfl, rfl⟩ := e
      simp only [step, hw] at hs
      cases pc with
      | search t code =>
        cases hr
        simp only [run] at hs
        split at hs
        · cases hs
        · rename_i v hv
          rw [tys_length hv] at grow
          split at hs
          · cases hs
          · rename_i hl
            omega
      | again t code k =>
        cases hr
        simp only [run] at hs
        split at hs
        · cases hs
        · rename_i v hv
          rw [tys_length hv] at grow
          split at hs
          · cases hs
          · rename_i hl
            omega
      | push t code =>
        cases hr
        simp only [run] at hs
        split at hs
        · cases hs
        · rename_i v hv
          rw [← Res.ok.inj hs]
          rw [hv]
          rw [tys_length (set_self hv)]
          simp
      | _ => cases hr
    · exact Nat.le_trans (b u i) grow

theorem CInv.step {x x' : State cfg × Seen} {P : cfg.Ty → List Tid} (I : CInv x P) {a : Act cfg} (h : cstep x a = .ok x') :
    ∃ P', CInv x' P' := by
  have hs := cstep_ok h
  -- threads about to push
  have hpush : ∀ (u : Tid) t code, x'.1.threads[u]? = some (.push t code) → ¬ Knows x' u t := by
    intro u t code hu hk
    rcases at_push hs hu with ⟨h1, h2⟩ | ⟨n, v, rfl, h1, hv, hf⟩
    · -- it was there; its lengths did not change
      refine I.push u t code h1 ?_
      have hsame : ∀ i, x'.2 u i = x.2 u i := by
        intro i
        rcases cstep_seen h with ⟨e, _⟩ | ⟨w, n, pc, j, m, e1, _, _, _, e⟩
        · rw [e]
        · rw [e]
          unfold Seen.put
          rw [if_neg]
          rintro ⟨rfl, _⟩
          exact h2 n e1
      unfold Knows at hk ⊢
      rw [hsame] at hk
      rcases tys_step hs with e | ⟨w, n, t', c, rfl, hw, e, e'⟩
      · rw [e] at hk; exact hk
      · by_cases hsh : cfg.shard t = cfg.shard t'
        · rw [hsh] at hk ⊢
          rw [e] at hk
          rw [List.take_append_of_le_length (by rw [← hsh]; exact I.bound u _)] at hk
          exact hk
        · rw [e' _ hsh] at hk; exact hk
    · -- it has just searched
      rcases cstep_seen h with ⟨_, e⟩ | ⟨w, n', pc, j, m, e1, e2, e3, _, e⟩
      · have := e u n rfl _ h1
        cases this
      · cases e1
        rw [h1] at e2
        cases e2
        cases e3
        unfold Knows at hk
        rw [e] at hk
        simp only [Seen.put, and_self, if_true] at hk
        rcases tys_step hs with e | ⟨w, n', t', c, e1, hw, _⟩
        · rw [e] at hk
          exact find_none_tys hv hf hk
        · cases e1
          rw [h1] at hw
          cases hw
  have hthread : ∀ t u, u ∈ P t → u < x'.1.threads.length :=
    fun t u hu => Nat.lt_of_lt_of_le (I.thread t u hu) (threads_length hs)
  rcases tys_step hs with e | ⟨w, n, t, code, rfl, hw, e, e'⟩
  · exact ⟨P, { count := fun t => by rw [← I.count t]; unfold tables; rw [e]
                nodup := I.nodup
                knows := fun t u hu => (I.knows t u hu).step h
                push := hpush
                thread := hthread
                bound := bound_step I.bound h }⟩
  · -- thread `w` pushes a table for `t`, and sees it
    have hnew : w ∉ P t := fun hm => I.push w t code hw (I.knows t w hm)
    have hkw : Knows x' w t := by
      unfold Knows
      rcases cstep_seen h with ⟨_, e1⟩ | ⟨w', n', pc, j, m, e1, e2, e3, _, e4⟩
      · cases e1 w n rfl _ hw
      · cases e1
        rw [hw] at e2
        cases e2
        cases e3
        rw [e4]
        simp only [Seen.put, and_self, if_true]
        obtain ⟨v, hv⟩ := x.1.vecs[cfg.shard t]?.eq_none_or_eq_some.resolve_left fun hn => by
          simp only [TypeArena.step, hw, run, hn] at hs
          cases hs
        rw [hv, e]
        simp only [Option.elim_some]
        have := tys_length hv
        rw [List.take_of_length_le (by rw [List.length_append]; simp [this])]
        simp
    refine ⟨fun t' => if t' = t then w :: P t else P t', ?_⟩
    constructor
    · intro t'
      by_cases ht : t' = t
      · subst ht
        unfold tables
        rw [e, List.countP_append]
        have := I.count t'
        unfold tables at this
        simp [this]
      · rw [if_neg ht, ← I.count t']
        unfold tables
        by_cases hsh : cfg.shard t' = cfg.shard t
        · rw [hsh, e, List.countP_append]
          simp [Ne.symm ht]
        · rw [e' _ hsh]
    · intro t'
      split
      · exact List.nodup_cons.mpr ⟨hnew, I.nodup t⟩
      · exact I.nodup t'
    · intro t' u hu
      split at hu
      · rename_i ht
        subst ht
        rcases List.mem_cons.mp hu with rfl | hu
        · exact hkw
        · exact (I.knows t' u hu).step h
      · exact (I.knows t' u hu).step h
    · exact hpush
    · intro t' u hu
      split at hu
      · rcases List.mem_cons.mp hu with rfl | hu
        · exact Nat.lt_of_lt_of_le (List.getElem?_eq_some_iff.mp hw).1 (threads_length hs)
        · exact hthread t u hu
      · exact hthread t' u hu
    · exact bound_step I.bound h

theorem CReach.inv {x : State cfg × Seen} (h : CReach x) : ∃ P, CInv x P := by
  induction h with
  | init =>
    refine ⟨fun _ => [], ?_⟩
    have e : ∀ i, tys (TypeArena.init cfg) i = [] := by
      intro i
      unfold tys TypeArena.init
      simp only [List.getElem?_replicate]
      split <;> rfl
    constructor
    · intro t; unfold tables; rw [e]; rfl
    · intro t; exact List.nodup_nil
    · intro t u hu; cases hu
    · intro u t code hu; simp [TypeArena.init] at hu
    · intro t u hu; cases hu
    · intro u i; exact Nat.zero_le _
  | step _ hs ih =>
    obtain ⟨P, I⟩ := ih
    exact I.step hs

/-- Any number of further steps with coherent loads. -/
inductive CSteps (x : State cfg × Seen) : State cfg × Seen → Prop where
  | refl : CSteps x x
  | step {x' x'' a} : CSteps x x' → cstep x' a = .ok x'' → CSteps x x''

theorem CSteps.reach {x x' : State cfg × Seen} (h : CSteps x x') (r : CReach x) : CReach x' := by
  induction h with
  | refl => exact r
  | step _ hs ih => exact ih.step hs

theorem CSteps.knows {x x' : State cfg × Seen} (h : CSteps x x') {u : Tid} {t : cfg.Ty} (hk : Knows x u t) : Knows x' u t := by
  induction h with
  | refl => exact hk
  | step _ hs ih => exact ih.step hs

/-- A thread is at a table after a step only if it was there, or has just found it. -/
theorem at_table {s s' : State cfg} {a : Act cfg} (h : step s a = .ok s') {u : Tid} {t : cfg.Ty} {pos : Nat}
    (hu : Uses s' u t pos) : Uses s u t pos ∨
    ∃ n v pc, a = .run u n ∧ s.threads[u]? = some pc ∧ reads s n pc = some (cfg.shard t, n) ∧ s.vecs[cfg.shard t]? = some v ∧
      find v t n = some pos ∧ s'.vecs = s.vecs := by
  -- the thread did not move
  have stay : s'.threads[u]? = s.threads[u]? → Uses s u t pos := by
    intro e
    rcases hu with ⟨c, h⟩ | ⟨o, n, k, h⟩
    · exact .inl ⟨c, by rw [← e]; exact h⟩
    · exact .inr ⟨o, n, k, by rw [← e]; exact h⟩
  have other : ∀ (w : Tid) (y : Pc cfg), w ≠ u → s'.threads = s.threads.set w y → Uses s u t pos := by
    intro w y hw e
    exact stay (by rw [e, List.getElem?_set_ne hw])
  cases a with
  | spawn =>
    cases h
    refine .inl ?_
    rcases hu with ⟨c, h⟩ | ⟨o, n, k, h⟩
    · rcases TypeMap.snoc_cases h with h | ⟨_, e⟩
      · exact .inl ⟨c, h⟩
      · cases e
    · rcases TypeMap.snoc_cases h with h | ⟨_, e⟩
      · exact .inr ⟨o, n, k, h⟩
      · cases e
  | call w t' c =>
    simp only [step] at h
    split at h <;> cases h
    refine .inl ?_
    rcases hu with ⟨c, h⟩ | ⟨o, n, k, h⟩
    · rcases set_cases h with ⟨_, e⟩ | ⟨_, h⟩
      · cases e
      · exact .inl ⟨c, h⟩
    · rcases set_cases h with ⟨_, e⟩ | ⟨_, h⟩
      · cases e
      · exact .inr ⟨o, n, k, h⟩
  | run w n =>
    cases hp : s.threads[w]? with
    | none => simp only [step, hp] at h; cases h
    | some pc =>
      simp only [step, hp] at h
      by_cases hw : w = u
      · subst hw
        -- the new point
        have pt : ∀ pc', s'.threads = s.threads.set w pc' → (∃ c, pc' = .lock t c pos) ∨ ∃ o n k, pc' = .inside t o n k pos := by
          intro pc' e
          rcases hu with ⟨c, h⟩ | ⟨o, n, k, h⟩ <;> rw [e, set_self hp] at h <;> cases h
          · exact .inl ⟨c, rfl⟩
          · exact .inr ⟨o, n, k, rfl⟩
        cases pc with
        | idle => cases h
        | search t' c =>
          simp only [run] at h
          split at h
          · cases h
          · rename_i v hv
            split at h
            · cases h
            · split at h <;> cases h
              · rename_i hf
                rcases pt _ rfl with ⟨_, e⟩ | ⟨_, _, _, e⟩ <;> cases e
                exact .inr ⟨n, v, _, rfl, hp, rfl, hv, hf, rfl⟩
              · rcases pt _ rfl with ⟨_, e⟩ | ⟨_, _, _, e⟩ <;> cases e
        | push t' c =>
          simp only [run] at h
          split at h <;> cases h
          rcases pt _ rfl with ⟨_, e⟩ | ⟨_, _, _, e⟩ <;> cases e
        | again t' c m =>
          simp only [run] at h
          split at h
          · cases h
          · rename_i v hv
            split at h
            · cases h
            · split at h <;> cases h
              rename_i hf
              rcases pt _ rfl with ⟨_, e⟩ | ⟨_, _, _, e⟩ <;> cases e
              exact .inr ⟨n, v, _, rfl, hp, rfl, hv, hf, rfl⟩
        | lock t' c p =>
          simp only [run] at h
          (repeat' split at h) <;> cases h
          · rcases pt _ rfl with ⟨_, e⟩ | ⟨_, _, _, e⟩ <;> cases e
          · rcases pt _ rfl with ⟨_, e⟩ | ⟨_, _, _, e⟩ <;> cases e
            exact .inl (.inl ⟨_, hp⟩)
        | inside t' o i k p =>
          simp only [run] at h
          (repeat' split at h) <;> cases h
          · rcases pt _ rfl with ⟨_, e⟩ | ⟨_, _, _, e⟩ <;> cases e
          · rcases pt _ rfl with ⟨_, e⟩ | ⟨_, _, _, e⟩ <;> cases e
            exact .inl (.inr ⟨_, _, _, hp⟩)
      · obtain ⟨pc', e⟩ := run_threads h
        exact .inl (other w pc' hw e)
  | panic w =>
    cases hp : s.threads[w]? with
    | none => simp only [step, hp] at h; cases h
    | some pc =>
      simp only [step, hp] at h
      by_cases hw : w = u
      · subst hw
        cases pc <;> simp only [runPanic] at h <;> (repeat' split at h) <;> cases h
        rcases hu with ⟨c, h⟩ | ⟨o, n, k, h⟩ <;> rw [set_self hp] at h <;> cases h
      · obtain ⟨pc', e⟩ := runPanic_threads h
        exact .inl (other w pc' hw e)

/-- A thread that is at a table of `t` knows one. -/
theorem CReach.uses {x : State cfg × Seen} (r : CReach x) {u : Tid} {t : cfg.Ty} {pos : Nat} (hu : Uses x.1 u t pos) : Knows x u t := by
  induction r generalizing u t pos with
  | init => rcases hu with ⟨_, h⟩ | ⟨_, _, _, h⟩ <;> simp [TypeArena.init] at h
  | @step x x' a r hs ih =>
    rcases at_table (cstep_ok hs) hu with h | ⟨n, v, pc, rfl, hp, hr, hv, hf, e⟩
    · exact (ih h).step hs
    · rcases cstep_seen hs with ⟨_, e1⟩ | ⟨w', n', pc', j, m, e1, e2, e3, _, e4⟩
      · rw [e1 u n rfl _ hp] at hr; cases hr
      · cases e1
        rw [hp] at e2
        cases e2
        rw [hr] at e3
        cases e3
        unfold Knows
        rw [e4]
        simp only [Seen.put, and_self, if_true]
        have hv' : x'.1.vecs[cfg.shard t]? = some v := by rw [e]; exact hv
        obtain ⟨hlt, c, v2, hv2, hp2, _⟩ := find_some hv' hf
        rw [hv'] at hv2
        cases hv2
        unfold tys
        rw [hv']
        refine List.mem_of_getElem? (i := pos) ?_
        rw [List.getElem?_take_of_lt hlt]
        simp only [Option.elim_some, List.getElem?_map, hp2, Option.map_some]

/-- The tables that lost the race are as they were created. -/
theorem Reach.spare {s : State cfg} (r : Reach s) {t : cfg.Ty} {v : List (Cell cfg)} (hv : s.vecs[cfg.shard t]? = some v) {a b : Nat}
    {ca cb : Lock (cfg.C t)} (hab : a < b) (ha : v[a]? = some ⟨t, ca⟩) (hb : v[b]? = some ⟨t, cb⟩) :
    cb = { val := cfg.dflt t, owner := none, poisoned := false } := by
  induction r generalizing t v a b ca cb with
  | init =>
    have := List.eq_of_mem_replicate (List.mem_of_getElem? hv)
    subst this
    simp at ha
  | @step s s' x r hs ih =>
    have same : s'.vecs = s.vecs → cb = { val := cfg.dflt t, owner := none, poisoned := false } :=
      fun e => ih (by rw [← e]; exact hv) hab ha hb
    have upd : ∀ (t' : cfg.Ty) p (d d' : Lock (cfg.C t')), IsTab s.vecs t' p d → s'.vecs = setCell s.vecs t' p d' →
        cb = { val := cfg.dflt t, owner := none, poisoned := false } := by
      intro t' p d d' hd e
      obtain ⟨v0, hv0, hp0, hm0⟩ := hd
      rw [e, setCell, List.getElem?_modify] at hv
      by_cases hsh : cfg.shard t' = cfg.shard t
      · rw [hsh] at hv0
        rw [hv0] at hv
        simp only [hsh, if_true, Option.map_eq_map, Option.map_some, Option.some.injEq] at hv
        subst hv
        have hpl := (List.getElem?_eq_some_iff.mp hp0).1
        -- position `b` is not the one written
        have hbp : p ≠ b := by
          rintro rfl
          rw [List.getElem?_set_self hpl] at hb
          cases hb
          by_cases hap : a = p
          · omega
          · rw [List.getElem?_set_ne (Ne.symm hap)] at ha
            exact hm0 a hab _ ha rfl
        rw [List.getElem?_set_ne hbp] at hb
        by_cases hap : p = a
        · subst hap
          rw [List.getElem?_set_self hpl] at ha
          cases ha
          exact ih hv0 hab hp0 hb
        · rw [List.getElem?_set_ne hap] at ha
          exact ih hv0 hab ha hb
      · simp only [hsh, if_false, Option.map_eq_map, Option.map_id'] at hv
        exact ih hv hab ha hb
    cases x with
    | spawn => cases hs; exact same rfl
    | call w t' c =>
      simp only [TypeArena.step] at hs
      split at hs <;> cases hs
      exact same rfl
    | run w n =>
      cases hp : s.threads[w]? with
      | none => simp only [TypeArena.step, hp] at hs; cases hs
      | some pc =>
        simp only [TypeArena.step, hp] at hs
        cases pc with
        | idle => cases hs
        | search t' c =>
          simp only [run] at hs
          (repeat' split at hs) <;> cases hs <;> exact same rfl
        | again t' c m =>
          simp only [run] at hs
          (repeat' split at hs) <;> cases hs <;> exact same rfl
        | push t' c =>
          simp only [run] at hs
          split at hs
          · cases hs
          · rename_i v0 hv0
            cases hs
            by_cases hsh : cfg.shard t' = cfg.shard t
            · rw [hsh] at hv0
              simp only [hsh] at hv
              rw [set_self hv0] at hv
              cases hv
              by_cases hbl : b < v0.length
              · rw [List.getElem?_append_left hbl] at hb
                rw [List.getElem?_append_left (by omega)] at ha
                exact ih hv0 hab ha hb
              · have : b = v0.length := by
                  have := (List.getElem?_eq_some_iff.mp hb).1
                  simp only [List.length_append, List.length_cons, List.length_nil] at this
                  omega
                subst this
                rw [List.getElem?_append_right (Nat.le_refl _), Nat.sub_self] at hb
                cases hb
                rfl
            · rw [set_other (Ne.symm hsh)] at hv
              exact ih hv hab ha hb
        | lock t' c p =>
          obtain ⟨d, hd⟩ := r.inv.lock w t' c p hp
          simp only [run, hd.get] at hs
          (repeat' split at hs) <;> cases hs
          · exact same rfl
          · exact upd t' p d _ hd rfl
        | inside t' o i k p =>
          obtain ⟨d, _, hd, _⟩ := r.inv.ins w t' o i k p hp
          simp only [run, hd.get] at hs
          split at hs <;> cases hs <;> exact upd t' p d _ hd rfl
    | panic w =>
      cases hp : s.threads[w]? with
      | none => simp only [TypeArena.step, hp] at hs; cases hs
      | some pc =>
        simp only [TypeArena.step, hp] at hs
        cases pc with
        | inside t' o i k p =>
          obtain ⟨d, _, hd, _⟩ := r.inv.ins w t' o i k p hp
          simp only [runPanic, hd.get] at hs
          cases hs
          exact upd t' p d _ hd rfl
        | _ => cases hs

end TypeArena
