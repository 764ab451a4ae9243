import Verif.Props.TypeArena
/-!
C63: calls of `NewIntern` are starvation free when scheduler and locks are fair, however many threads race to create tables.
-/
namespace TypeArena
open TypeMap (Cfg Code Entry Tid Res Replay set_cases set_self set_other shardIndex_lt)
variable {cfg : Cfg}

/-- An infinite execution from the start of the process: at every instant some action happens, or nothing does. -/
def Execution (σ : Nat → State cfg) (α : Nat → Option (Act cfg)) : Prop :=
  σ 0 = init cfg ∧ ∀ i, match α i with
    | none => σ (i + 1) = σ i
    | some a => step (σ i) a = .ok (σ (i + 1))

/-- Thread `u` can take a step of its running call. -/
def Enabled (u : Tid) (s : State cfg) : Prop := ∃ n s', step s (.run u n) = .ok s'

/-- Thread `u` takes a step of its running call at instant `i`, or panics in it. -/
def MovesAt (α : Nat → Option (Act cfg)) (u : Tid) (i : Nat) : Prop := (∃ n, α i = some (.run u n)) ∨ α i = some (.panic u)

/-- A thread that can step again and again does step again and again. -/
def StronglyFair (σ : Nat → State cfg) (α : Nat → Option (Act cfg)) : Prop :=
  ∀ u, (∀ i, ∃ j, i ≤ j ∧ Enabled u (σ j)) → ∀ i, ∃ j, i ≤ j ∧ MovesAt α u j

/-- The call a thread is executing. -/
def Pc.call? : Pc cfg → Option ((t : cfg.Ty) × Code (cfg.C t) (cfg.R t))
  | .idle => none
  | .search t code | .push t code | .again t code _ | .lock t code _ | .inside t code _ _ _ => some ⟨t, code⟩

/-- Thread `u` is executing a call of `with_mutex_hashset` for type `t` with closure `code`. -/
def Executing (s : State cfg) (u : Tid) (t : cfg.Ty) (code : Code (cfg.C t) (cfg.R t)) : Prop :=
  ∃ pc, s.threads[u]? = some pc ∧ pc.call? = some ⟨t, code⟩

/-- The call that thread `u` executes at instant `i` is executed until instant `j`, and then it returns a result, or panics in its
closure, or panics because the mutex is poisoned: user code has panicked in an earlier call for the same type. -/
def Ends (σ : Nat → State cfg) (α : Nat → Option (Act cfg)) (u : Tid) (t : cfg.Ty) (code : Code (cfg.C t) (cfg.R t))
    (i : Nat) : Prop :=
  ∃ j, i ≤ j ∧ (∀ m, i ≤ m → m ≤ j → Executing (σ m) u t code) ∧ (σ (j + 1)).threads[u]? = some .idle ∧
    (((∃ n, α j = some (.run u n)) ∧ ∃ n r, (σ (j + 1)).log t = ⟨code, n, some r⟩ :: (σ j).log t) ∨
     (α j = some (.panic u) ∧ ∃ n, (σ (j + 1)).log t = ⟨code, n, none⟩ :: (σ j).log t) ∨
     ((∃ n, α j = some (.run u n)) ∧ (σ (j + 1)).refused = (u, t) :: (σ j).refused ∧ ∃ e ∈ (σ j).log t, e.res = none))

/-! ### Single steps -/

theorem run_threads {s s' : State cfg} {u : Tid} {n : Nat} {pc : Pc cfg} (h : run s u n pc = .ok s') :
    ∃ pc', s'.threads = s.threads.set u pc' := by
  cases pc <;> simp only [run] at h <;> (repeat' split at h) <;> cases h <;> exact ⟨_, rfl⟩

theorem runPanic_threads {s s' : State cfg} {u : Tid} {pc : Pc cfg} (h : runPanic s u pc = .ok s') :
    ∃ pc', s'.threads = s.threads.set u pc' := by
  cases pc <;> simp only [runPanic] at h <;> (repeat' split at h) <;> cases h <;> exact ⟨_, rfl⟩

theorem other_step {s s' : State cfg} {u : Tid} {pc : Pc cfg} {x : Act cfg} (ht : s.threads[u]? = some pc) (hne : pc ≠ .idle)
    (h : step s x = .ok s') (h1 : ∀ n, x ≠ .run u n) (h2 : x ≠ .panic u) : s'.threads[u]? = some pc := by
  have set : ∀ (w : Tid) (y : Pc cfg), w ≠ u → s'.threads = s.threads.set w y → s'.threads[u]? = some pc := by
    intro w y hw e
    rw [e, List.getElem?_set_ne hw]; exact ht
  cases x with
  | spawn =>
    cases h
    exact (List.getElem?_append_left (List.getElem?_eq_some_iff.mp ht).1).trans ht
  | call w t code =>
    simp only [step] at h
    split at h
    · rename_i hw
      cases h
      refine set w _ (fun e => ?_) rfl
      subst e
      rw [ht] at hw
      cases hw
      exact hne rfl
    · cases h
  | run w n =>
    simp only [step] at h
    split at h
    · obtain ⟨pc', e⟩ := run_threads h
      exact set w pc' (fun e => h1 n (by rw [e])) e
    · cases h
  | panic w =>
    simp only [step] at h
    split at h
    · obtain ⟨pc', e⟩ := runPanic_threads h
      exact set w pc' (fun e => h2 (by rw [e])) e
    · cases h

/-- The vectors only grow. -/
theorem vecs_grow {s s' : State cfg} {x : Act cfg} (h : step s x = .ok s') {i : Nat} {v : List (Cell cfg)}
    (hv : s.vecs[i]? = some v) : ∃ v', s'.vecs[i]? = some v' ∧ v.length ≤ v'.length := by
  have same : s'.vecs = s.vecs → ∃ v', s'.vecs[i]? = some v' ∧ v.length ≤ v'.length :=
    fun e => ⟨v, by rw [e]; exact hv, Nat.le_refl _⟩
  have upd : ∀ (t : cfg.Ty) p d, s'.vecs = setCell s.vecs t p d → ∃ v', s'.vecs[i]? = some v' ∧ v.length ≤ v'.length := by
    intro t p d e
    rw [e, setCell, List.getElem?_modify, hv]
    refine ⟨_, rfl, ?_⟩
    simp only [Option.map_some]
    split
    · rw [List.length_set]; exact Nat.le_refl _
    · exact Nat.le_refl _
  cases x with
  | spawn => cases h; exact same rfl
  | call w t code =>
    simp only [step] at h
    split at h <;> cases h
    exact same rfl
  | run w n =>
    simp only [step] at h
    split at h
    · rename_i pc hpc
      cases pc with
      | push t code =>
        simp only [run] at h
        split at h
        · cases h
        · rename_i v0 hv0
          cases h
          simp only [List.getElem?_set]
          split
          · rename_i e
            subst e
            rw [hv0] at hv
            cases hv
            rw [if_pos (List.getElem?_eq_some_iff.mp hv0).1]
            exact ⟨_, rfl, by simp⟩
          · exact ⟨v, hv, Nat.le_refl _⟩
      | _ =>
        simp only [run] at h
        (repeat' split at h) <;> cases h <;> first | exact same rfl | exact upd _ _ _ rfl
    · cases h
  | panic w =>
    simp only [step] at h
    split at h
    · rename_i pc hpc
      cases pc <;> simp only [runPanic] at h <;> (repeat' split at h) <;> cases h
      exact upd _ _ _ rfl
    · cases h

theorem own_search {s s' : State cfg} {u : Tid} {n : Nat} {t : cfg.Ty} {code : Code (cfg.C t) (cfg.R t)}
    (hu : s.threads[u]? = some (.search t code)) (h : step s (.run u n) = .ok s') :
    s'.threads[u]? = some (.push t code) ∨ ∃ pos, s'.threads[u]? = some (.lock t code pos) := by
  simp only [step, hu, run] at h
  (repeat' split at h) <;> cases h
  · exact .inr ⟨_, set_self hu⟩
  · exact .inl (set_self hu)

theorem own_push {s s' : State cfg} {u : Tid} {n : Nat} {t : cfg.Ty} {code : Code (cfg.C t) (cfg.R t)}
    (hu : s.threads[u]? = some (.push t code)) (h : step s (.run u n) = .ok s') :
    ∃ v', s'.vecs[cfg.shard t]? = some v' ∧ s'.threads[u]? = some (.again t code v'.length) := by
  simp only [step, hu, run] at h
  split at h
  · cases h
  · rename_i v hv
    cases h
    refine ⟨v ++ [⟨t, { val := cfg.dflt t, owner := none, poisoned := false }⟩], set_self hv, ?_⟩
    simp only [List.length_append, List.length_cons, List.length_nil]
    exact set_self hu

theorem own_again {s s' : State cfg} {u : Tid} {n m : Nat} {t : cfg.Ty} {code : Code (cfg.C t) (cfg.R t)}
    (hu : s.threads[u]? = some (.again t code m)) (h : step s (.run u n) = .ok s') :
    ∃ pos, s'.threads[u]? = some (.lock t code pos) := by
  simp only [step, hu, run] at h
  (repeat' split at h) <;> cases h
  exact ⟨_, set_self hu⟩

theorem own_lock {s s' : State cfg} (r : Reach s) {u : Tid} {n pos : Nat} {t : cfg.Ty} {code : Code (cfg.C t) (cfg.R t)}
    (hu : s.threads[u]? = some (.lock t code pos)) (h : step s (.run u n) = .ok s') :
    s'.threads[u]? = some (.inside t code 0 code pos) ∨
    (s'.threads[u]? = some .idle ∧ s'.refused = (u, t) :: s.refused ∧ ∃ e ∈ s.log t, e.res = none) := by
  obtain ⟨c, hc⟩ := r.inv.lock u t code pos hu
  simp only [step, hu, run, hc.get] at h
  split at h
  · cases h
  · split at h
    · rename_i hp
      cases h
      exact .inr ⟨set_self hu, rfl, (r.inv.pois t pos c hc).mp hp⟩
    · cases h
      exact .inl (set_self hu)

/-- The closure returns, or goes on. -/
theorem own_inside {s s' : State cfg} (r : Reach s) {u : Tid} {n i pos : Nat} {t : cfg.Ty} {orig k : Code (cfg.C t) (cfg.R t)}
    (hu : s.threads[u]? = some (.inside t orig i k pos)) (h : step s (.run u n) = .ok s') :
    (∃ a, k = .ret a ∧ s'.threads[u]? = some .idle ∧ s'.log t = ⟨orig, i, some a⟩ :: s.log t ∧
      ∃ c, IsTab s'.vecs t pos c ∧ c.owner = none) ∨
    ∃ f g c, k = .next f g ∧ s'.threads[u]? = some (.inside t orig (i + 1) (g c) pos) := by
  obtain ⟨c, _, hc, _⟩ := r.inv.ins u t orig i k pos hu
  simp only [step, hu, run, hc.get] at h
  cases k with
  | ret a =>
    cases h
    exact .inl ⟨a, rfl, set_self hu, setLog_same s t _, _, (isTab_set_same hc).mpr ⟨rfl, rfl⟩, rfl⟩
  | next f g =>
    cases h
    exact .inr ⟨f, g, c.val, rfl, set_self hu⟩

theorem own_panic {s s' : State cfg} (r : Reach s) {u : Tid} {pc : Pc cfg} (hu : s.threads[u]? = some pc)
    (h : step s (.panic u) = .ok s') : ∃ t orig i k pos, pc = .inside t orig i k pos ∧ s'.threads[u]? = some .idle ∧
      s'.log t = ⟨orig, i, none⟩ :: s.log t ∧ ∃ c, IsTab s'.vecs t pos c ∧ c.owner = none := by
  simp only [step, hu] at h
  cases pc with
  | inside t orig i k pos =>
    obtain ⟨c, _, hc, _⟩ := r.inv.ins u t orig i k pos hu
    simp only [runPanic, hc.get] at h
    cases h
    exact ⟨t, orig, i, k, pos, rfl, set_self hu, setLog_same s t _, _, (isTab_set_same hc).mpr ⟨rfl, rfl⟩, rfl⟩
  | _ => cases h

/-- The length of the vector that a thread in the second loop has read is at most the real one. -/
theorem Reach.again_len {s : State cfg} (r : Reach s) {u : Tid} {t : cfg.Ty} {code : Code (cfg.C t) (cfg.R t)} {m : Nat}
    (hu : s.threads[u]? = some (.again t code m)) : ∃ v, s.vecs[cfg.shard t]? = some v ∧ m ≤ v.length := by
  induction r generalizing u t code m with
  | init => simp [TypeArena.init] at hu
  | @step s s' a r hs ih =>
    by_cases h : s.threads[u]? = some (.again t code m)
    · obtain ⟨v, hv, hl⟩ := ih h
      obtain ⟨v', hv', hl'⟩ := vecs_grow hs hv
      exact ⟨v', hv', Nat.le_trans hl hl'⟩
    · cases hp : s.threads[u]? with
      | none =>
        exfalso
        have set : ∀ (w : Tid) (y : Pc cfg), s'.threads = s.threads.set w y → False := by
          intro w y e
          rw [e, List.getElem?_eq_none (by rw [List.length_set]; exact List.getElem?_eq_none_iff.mp hp)] at hu
          cases hu
        cases a with
        | spawn =>
          cases hs
          rw [List.getElem?_append_right (List.getElem?_eq_none_iff.mp hp)] at hu
          have := List.mem_of_getElem? hu
          simp at this
        | call w t' c =>
          simp only [TypeArena.step] at hs
          split at hs <;> cases hs
          exact set _ _ rfl
        | run w n =>
          simp only [TypeArena.step] at hs
          split at hs
          · obtain ⟨pc', e⟩ := run_threads hs; exact set _ _ e
          · cases hs
        | panic w =>
          simp only [TypeArena.step] at hs
          split at hs
          · obtain ⟨pc', e⟩ := runPanic_threads hs; exact set _ _ e
          · cases hs
      | some pc =>
        by_cases h1 : ∃ n, a = .run u n
        · obtain ⟨n, rfl⟩ := h1
          cases pc with
          | idle => simp only [TypeArena.step, hp, run] at hs; cases hs
          | search t' c =>
            rcases own_search hp hs with e | ⟨_, e⟩ <;> rw [e] at hu <;> cases hu
          | push t' c =>
            obtain ⟨v, hv, e⟩ := own_push hp hs
            rw [e] at hu
            cases hu
            exact ⟨v, hv, Nat.le_refl _⟩
          | again t' c m' =>
            obtain ⟨_, e⟩ := own_again hp hs
            rw [e] at hu; cases hu
          | lock t' c p =>
            rcases own_lock r hp hs with e | ⟨e, _⟩ <;> rw [e] at hu <;> cases hu
          | inside t' o i k p =>
            rcases own_inside r hp hs with ⟨_, _, e, _⟩ | ⟨_, _, _, _, e⟩ <;> rw [e] at hu <;> cases hu
        · by_cases h2 : a = .panic u
          · subst h2
            obtain ⟨_, _, _, _, _, _, e, _⟩ := own_panic r hp hs
            rw [e] at hu; cases hu
          · by_cases h3 : pc = .idle
            · subst h3
              exfalso
              cases a with
              | spawn =>
                cases hs
                rw [List.getElem?_append_left (List.getElem?_eq_some_iff.mp hp).1, hp] at hu
                cases hu
              | call w t' c =>
                simp only [TypeArena.step] at hs
                split at hs <;> cases hs
                rcases set_cases hu with ⟨_, e⟩ | ⟨_, e⟩
                · cases e
                · rw [hp] at e; cases e
              | run w n =>
                simp only [TypeArena.step] at hs
                split at hs
                · obtain ⟨pc', e⟩ := run_threads hs
                  rw [e] at hu
                  rcases set_cases hu with ⟨e, _⟩ | ⟨_, e⟩
                  · exact h1 ⟨n, by rw [e]⟩
                  · rw [hp] at e; cases e
                · cases hs
              | panic w =>
                simp only [TypeArena.step] at hs
                split at hs
                · obtain ⟨pc', e⟩ := runPanic_threads hs
                  rw [e] at hu
                  rcases set_cases hu with ⟨e, _⟩ | ⟨_, e⟩
                  · exact h2 (by rw [e])
                  · rw [hp] at e; cases e
                · cases hs
            · have := other_step hp h3 hs (fun n e => h1 ⟨n, e⟩) h2
              rw [hu] at this
              cases this
              exact absurd hp h

theorem Reach.vec {s : State cfg} (h : Reach s) (t : cfg.Ty) : ∃ v, s.vecs[cfg.shard t]? = some v := by
  have hlt : cfg.shard t < s.vecs.length := by rw [h.inv.len]; exact shardIndex_lt _ _
  exact ⟨_, List.getElem?_eq_getElem hlt⟩

theorem again_enabled {s : State cfg} (r : Reach s) {u : Tid} {t : cfg.Ty} {code : Code (cfg.C t) (cfg.R t)} {m : Nat}
    (hu : s.threads[u]? = some (.again t code m)) : Enabled u s := by
  obtain ⟨v, hv, hl⟩ := r.again_len hu
  refine ⟨v.length, ?_⟩
  have nb := C46_never_unreachable r (.run u v.length)
  simp only [step, hu, run, hv, Nat.lt_irrefl, or_false, Nat.not_lt.mpr hl, if_false] at nb ⊢
  split
  · exact ⟨_, rfl⟩
  · rename_i hn
    rw [hn] at nb
    exact absurd rfl nb

theorem push_enabled {s : State cfg} (r : Reach s) {u : Tid} {t : cfg.Ty} {code : Code (cfg.C t) (cfg.R t)}
    (hu : s.threads[u]? = some (.push t code)) : Enabled u s := by
  obtain ⟨v, hv⟩ := r.vec t
  exact ⟨0, _, by simp only [step, hu, run, hv]; rfl⟩

theorem search_enabled {s : State cfg} (r : Reach s) {u : Tid} {t : cfg.Ty} {code : Code (cfg.C t) (cfg.R t)}
    (hu : s.threads[u]? = some (.search t code)) : Enabled u s := by
  obtain ⟨v, hv⟩ := r.vec t
  refine ⟨0, ?_⟩
  simp only [step, hu, run, hv, Nat.not_lt_zero, if_false]
  split <;> exact ⟨_, rfl⟩

/-- What a step does to the finished calls of a type. -/
theorem log_step {s s' : State cfg} (r : Reach s) {x : Act cfg} (h : step s x = .ok s') (t : cfg.Ty) :
    s'.log t = s.log t ∨ (∃ c n a, s'.log t = ⟨c, n, some a⟩ :: s.log t) ∨
    ∃ w c n, x = .panic w ∧ Executing s w t c ∧ s'.log t = ⟨c, n, none⟩ :: s.log t := by
  cases x with
  | spawn => cases h; exact .inl rfl
  | call w t' code =>
    simp only [step] at h
    split at h <;> cases h
    exact .inl rfl
  | run w n =>
    cases hp : s.threads[w]? with
    | none => simp only [step, hp] at h; cases h
    | some pc =>
      cases pc with
      | inside t' o i k p =>
        obtain ⟨c, _, hc, _⟩ := r.inv.ins w t' o i k p hp
        simp only [step, hp, run, hc.get] at h
        cases k with
        | next f g => cases h; exact .inl rfl
        | ret a =>
          cases h
          by_cases e : t' = t
          · subst e
            exact .inr (.inl ⟨o, i, a, setLog_same s t' _⟩)
          · exact .inl (setLog_other s e _)
      | _ =>
        simp only [step, hp, run] at h
        (repeat' split at h) <;> cases h <;> exact .inl rfl
  | panic w =>
    cases hp : s.threads[w]? with
    | none => simp only [step, hp] at h; cases h
    | some pc =>
      cases pc with
      | inside t' o i k p =>
        obtain ⟨c, _, hc, _⟩ := r.inv.ins w t' o i k p hp
        simp only [step, hp, runPanic, hc.get] at h
        cases h
        by_cases e : t' = t
        · subst e
          exact .inr (.inr ⟨w, o, i, rfl, ⟨_, hp, rfl⟩, setLog_same s t' _⟩)
        · exact .inl (setLog_other s e _)
      | _ => simp only [step, hp, runPanic] at h; cases h

/-! ### Executions -/
section
variable {σ : Nat → State cfg} {α : Nat → Option (Act cfg)}

theorem Execution.reach (h : Execution σ α) (i : Nat) : Reach (σ i) := by
  induction i with
  | zero => rw [h.1]; exact .init
  | succ i ih =>
    have := h.2 i
    split at this
    · rw [this]; exact ih
    · exact .step ih this

theorem Execution.stay (h : Execution σ α) {u : Tid} {pc : Pc cfg} (hne : pc ≠ .idle) {i : Nat}
    (ht : (σ i).threads[u]? = some pc) (hm : ¬ MovesAt α u i) : (σ (i + 1)).threads[u]? = some pc := by
  have := h.2 i
  split at this
  · rw [this]; exact ht
  · rename_i a ha
    exact other_step ht hne this (fun n e => hm (.inl ⟨n, by rw [ha, e]⟩)) (fun e => hm (.inr (by rw [ha, e])))

theorem Execution.wait (h : Execution σ α) {u : Tid} {pc : Pc cfg} (hne : pc ≠ .idle) {i : Nat}
    (ht : (σ i).threads[u]? = some pc) (j : Nat) (hij : i ≤ j) (hm : ∀ m, i ≤ m → m < j → ¬ MovesAt α u m) :
    (σ j).threads[u]? = some pc := by
  induction hij with
  | refl => exact ht
  | @step j hij ih => exact h.stay hne (ih fun m a b => hm m a (by omega)) (hm j hij (by omega))

/-- A thread that can step whenever it is at `pc` takes a step there. -/
theorem Execution.first_move (h : Execution σ α) (hf : StronglyFair σ α) {u : Tid} {pc : Pc cfg} (hne : pc ≠ .idle) {i : Nat}
    (ht : (σ i).threads[u]? = some pc)
    (he : ∀ j, i ≤ j → (∀ m, i ≤ m → m ≤ j → (σ m).threads[u]? = some pc) → ∃ k, j ≤ k ∧
      ((σ k).threads[u]? = some pc → Enabled u (σ k))) :
    ∃ j, i ≤ j ∧ (∀ m, i ≤ m → m ≤ j → (σ m).threads[u]? = some pc) ∧ MovesAt α u j := by
  have hm : ∃ j, i ≤ j ∧ MovesAt α u j := by
    refine Classical.byContradiction fun hno => ?_
    have hno' : ∀ m, i ≤ m → ¬ MovesAt α u m := fun m h1 h2 => hno ⟨m, h1, h2⟩
    have hw : ∀ j, i ≤ j → (σ j).threads[u]? = some pc := fun j hj => h.wait hne ht j hj fun m a _ => hno' m a
    obtain ⟨j, h1, h2⟩ := hf u (fun j => by
      obtain ⟨k, hk, e⟩ := he (max i j) (Nat.le_max_left _ _) fun m a _ => hw m a
      exact ⟨k, Nat.le_trans (Nat.le_max_right _ _) hk, e (hw k (Nat.le_trans (Nat.le_max_left _ _) hk))⟩) i
    exact hno' j h1 h2
  obtain ⟨j, hj, hmv⟩ := hm
  -- the first such instant
  have : ∀ d j, j = i + d → MovesAt α u j → ∃ j, i ≤ j ∧ (∀ m, i ≤ m → m < j → ¬ MovesAt α u m) ∧ MovesAt α u j := by
    intro d
    induction d using Nat.strongRecOn with
    | ind d ih =>
      intro j hj hmv
      by_cases hex : ∃ m, i ≤ m ∧ m < j ∧ MovesAt α u m
      · obtain ⟨m, h1, h2, h3⟩ := hex
        exact ih (m - i) (by omega) m (by omega) h3
      · exact ⟨j, by omega, fun m h1 h2 h3 => hex ⟨m, h1, h2, h3⟩, hmv⟩
  obtain ⟨j, hj, hno, hmv⟩ := this (j - i) j (by omega) hmv
  exact ⟨j, hj, fun m a b => h.wait hne ht m a fun m' a' b' => hno m' a' (by omega), hmv⟩

/-- What a move is. -/
theorem Execution.move (h : Execution σ α) {u : Tid} {j : Nat} (hm : MovesAt α u j) :
    (∃ n, α j = some (.run u n) ∧ step (σ j) (.run u n) = .ok (σ (j + 1))) ∨
    (α j = some (.panic u) ∧ step (σ j) (.panic u) = .ok (σ (j + 1))) := by
  have := h.2 j
  rcases hm with ⟨n, e⟩ | e
  · rw [e] at this; exact .inl ⟨n, e, this⟩
  · rw [e] at this; exact .inr ⟨e, this⟩

theorem Execution.run_move (h : Execution σ α) {u : Tid} {j : Nat} {pc : Pc cfg} (hm : MovesAt α u j)
    (hu : (σ j).threads[u]? = some pc) (hne : ∀ t orig i k pos, pc ≠ .inside t orig i k pos) :
    ∃ n, α j = some (.run u n) ∧ step (σ j) (.run u n) = .ok (σ (j + 1)) := by
  rcases h.move hm with h1 | ⟨_, h1⟩
  · exact h1
  · obtain ⟨t, orig, i, k, pos, e, _⟩ := own_panic (h.reach j) hu h1
    exact absurd e (hne t orig i k pos)

theorem Ends.earlier {u : Tid} {t : cfg.Ty} {code : Code (cfg.C t) (cfg.R t)} {i j : Nat} (hij : i ≤ j)
    (he : ∀ m, i ≤ m → m < j → Executing (σ m) u t code) (h : Ends σ α u t code j) : Ends σ α u t code i := by
  obtain ⟨k, h1, h2, h3⟩ := h
  refine ⟨k, Nat.le_trans hij h1, fun m a b => ?_, h3⟩
  by_cases hm : m < j
  · exact he m a hm
  · exact h2 m (by omega) b

/-- A closure that runs ends, and the mutex is free then. -/
theorem Execution.inside_ends (h : Execution σ α) (hf : StronglyFair σ α) {u : Tid} {t : cfg.Ty}
    {orig : Code (cfg.C t) (cfg.R t)} {pos : Nat} (k : Code (cfg.C t) (cfg.R t)) : ∀ (n i : Nat),
    (σ i).threads[u]? = some (.inside t orig n k pos) →
      Ends σ α u t orig i ∧ ∃ j, i ≤ j ∧ ∃ c, IsTab (σ j).vecs t pos c ∧ c.owner = none := by
  induction k with
  | ret a =>
    intro n i hu
    obtain ⟨j, hj, hst, hm⟩ := h.first_move hf (by simp) hu fun j _ _ => ⟨j, Nat.le_refl _, fun hu => by
      obtain ⟨c, _, hc, _⟩ := (h.reach j).inv.ins u t orig n _ pos hu
      exact ⟨0, _, by simp only [step, hu, run, hc.get]; rfl⟩⟩
    have hE : ∀ m, i ≤ m → m ≤ j → Executing (σ m) u t orig := fun m a b => ⟨_, hst m a b, rfl⟩
    rcases h.move hm with ⟨n', e, hs⟩ | ⟨e, hs⟩
    · rcases own_inside (h.reach j) (hst j hj (Nat.le_refl _)) hs with ⟨b, _, h1, h2, h3⟩ | ⟨f, g, c, h1, _⟩
      · exact ⟨⟨j, hj, hE, h1, .inl ⟨⟨n', e⟩, n, b, h2⟩⟩, j + 1, by omega, h3⟩
      · cases h1
    · obtain ⟨_, _, _, _, _, e1, h1, h2, h3⟩ := own_panic (h.reach j) (hst j hj (Nat.le_refl _)) hs
      cases e1
      exact ⟨⟨j, hj, hE, h1, .inr (.inl ⟨e, n, h2⟩)⟩, j + 1, by omega, h3⟩
  | next f g ih =>
    intro n i hu
    obtain ⟨j, hj, hst, hm⟩ := h.first_move hf (by simp) hu fun j _ _ => ⟨j, Nat.le_refl _, fun hu => by
      obtain ⟨c, _, hc, _⟩ := (h.reach j).inv.ins u t orig n _ pos hu
      exact ⟨0, _, by simp only [step, hu, run, hc.get]; rfl⟩⟩
    have hE : ∀ m, i ≤ m → m ≤ j → Executing (σ m) u t orig := fun m a b => ⟨_, hst m a b, rfl⟩
    rcases h.move hm with ⟨n', e, hs⟩ | ⟨e, hs⟩
    · rcases own_inside (h.reach j) (hst j hj (Nat.le_refl _)) hs with ⟨b, h1, _⟩ | ⟨f', g', c, h1, h2⟩
      · cases h1
      · cases h1
        obtain ⟨h3, j', h4, h5⟩ := ih c (n + 1) (j + 1) h2
        exact ⟨h3.earlier (by omega) fun m a b => hE m a (by omega), j', by omega, h5⟩
    · obtain ⟨_, _, _, _, _, e1, h1, h2, h3⟩ := own_panic (h.reach j) (hst j hj (Nat.le_refl _)) hs
      cases e1
      exact ⟨⟨j, hj, hE, h1, .inr (.inl ⟨e, n, h2⟩)⟩, j + 1, by omega, h3⟩

/-- A thread that has found the table ends its call. -/
theorem Execution.lock_ends (h : Execution σ α) (hf : StronglyFair σ α) {u : Tid} {t : cfg.Ty}
    {code : Code (cfg.C t) (cfg.R t)} {pos i : Nat} (hu : (σ i).threads[u]? = some (.lock t code pos)) : Ends σ α u t code i := by
  obtain ⟨j, hj, hst, hm⟩ := h.first_move hf (by simp) hu fun j _ hst => by
    obtain ⟨c, hc⟩ := (h.reach j).inv.lock u t code pos (hst j (by omega) (Nat.le_refl _))
    have free : ∃ k, j ≤ k ∧ ∃ c, IsTab (σ k).vecs t pos c ∧ c.owner = none := by
      cases ho : c.owner with
      | none => exact ⟨j, Nat.le_refl _, c, hc, ho⟩
      | some w =>
        obtain ⟨orig, n, k, hw⟩ := (h.reach j).inv.own t pos c w hc ho
        exact (h.inside_ends hf k n j hw).2
    obtain ⟨k, hk, d, hd, ho⟩ := free
    refine ⟨k, hk, fun hu => ⟨0, ?_⟩⟩
    simp only [step, hu, run, hd.get, ho, Option.isSome_none, Bool.false_eq_true, if_false]
    split <;> exact ⟨_, rfl⟩
  have hE : ∀ m, i ≤ m → m ≤ j → Executing (σ m) u t code := fun m a b => ⟨_, hst m a b, rfl⟩
  obtain ⟨n, e, hs⟩ := h.run_move hm (hst j hj (Nat.le_refl _)) (by simp)
  rcases own_lock (h.reach j) (hst j hj (Nat.le_refl _)) hs with h1 | ⟨h1, h2, h3⟩
  · exact (h.inside_ends hf code 0 (j + 1) h1).1.earlier (by omega) fun m a b => hE m a (by omega)
  · exact ⟨j, hj, hE, h1, .inr (.inr ⟨⟨n, e⟩, h2, h3⟩)⟩

theorem Execution.again_ends (h : Execution σ α) (hf : StronglyFair σ α) {u : Tid} {t : cfg.Ty}
    {code : Code (cfg.C t) (cfg.R t)} {m i : Nat} (hu : (σ i).threads[u]? = some (.again t code m)) : Ends σ α u t code i := by
  obtain ⟨j, hj, hst, hm⟩ := h.first_move hf (by simp) hu fun j _ _ => ⟨j, Nat.le_refl _, again_enabled (h.reach j)⟩
  obtain ⟨n, e, hs⟩ := h.run_move hm (hst j hj (Nat.le_refl _)) (by simp)
  obtain ⟨pos, h1⟩ := own_again (hst j hj (Nat.le_refl _)) hs
  exact (h.lock_ends hf h1).earlier (by omega) fun m a b => ⟨_, hst m a (by omega), rfl⟩

theorem Execution.push_ends (h : Execution σ α) (hf : StronglyFair σ α) {u : Tid} {t : cfg.Ty}
    {code : Code (cfg.C t) (cfg.R t)} {i : Nat} (hu : (σ i).threads[u]? = some (.push t code)) : Ends σ α u t code i := by
  obtain ⟨j, hj, hst, hm⟩ := h.first_move hf (by simp) hu fun j _ _ => ⟨j, Nat.le_refl _, push_enabled (h.reach j)⟩
  obtain ⟨n, e, hs⟩ := h.run_move hm (hst j hj (Nat.le_refl _)) (by simp)
  obtain ⟨v, hv, h1⟩ := own_push (hst j hj (Nat.le_refl _)) hs
  exact (h.again_ends hf h1).earlier (by omega) fun m a b => ⟨_, hst m a (by omega), rfl⟩

theorem Execution.search_ends (h : Execution σ α) (hf : StronglyFair σ α) {u : Tid} {t : cfg.Ty}
    {code : Code (cfg.C t) (cfg.R t)} {i : Nat} (hu : (σ i).threads[u]? = some (.search t code)) : Ends σ α u t code i := by
  obtain ⟨j, hj, hst, hm⟩ := h.first_move hf (by simp) hu fun j _ _ => ⟨j, Nat.le_refl _, search_enabled (h.reach j)⟩
  obtain ⟨n, e, hs⟩ := h.run_move hm (hst j hj (Nat.le_refl _)) (by simp)
  have hE : ∀ m, i ≤ m → m < j + 1 → Executing (σ m) u t code := fun m a b => ⟨_, hst m a (by omega), rfl⟩
  rcases own_search (hst j hj (Nat.le_refl _)) hs with h1 | ⟨pos, h1⟩
  · exact (h.push_ends hf h1).earlier (by omega) hE
  · exact (h.lock_ends hf h1).earlier (by omega) hE

/-- **C63, starvation freedom.** If scheduler and locks are fair, every call of `NewIntern` ends, no matter how many threads race to
create tables and how many calls are made meanwhile: it returns, or its user code panics, or it panics because user code has panicked
for the same type before. -/
theorem C63_starvation_free (h : Execution σ α) (hf : StronglyFair σ α) {u : Tid} {t : cfg.Ty} {code : Code (cfg.C t) (cfg.R t)}
    {i : Nat} (he : Executing (σ i) u t code) : Ends σ α u t code i := by
  obtain ⟨pc, hu, hc⟩ := he
  cases pc with
  | idle => cases hc
  | search t' c => cases hc; exact h.search_ends hf hu
  | push t' c => cases hc; exact h.push_ends hf hu
  | again t' c m => cases hc; exact h.again_ends hf hu
  | lock t' c p => cases hc; exact h.lock_ends hf hu
  | inside t' o n k p => cases hc; exact (h.inside_ends hf k n i hu).1

/-- **C63, no panic, no refusal.** If user code never panics in a call for type `t`, every call for `t` returns a result. -/
theorem C63_returns (h : Execution σ α) (hf : StronglyFair σ α) {u : Tid} {t : cfg.Ty} {code : Code (cfg.C t) (cfg.R t)}
    {i : Nat} (he : Executing (σ i) u t code)
    (hp : ∀ j w c, α j = some (.panic w) → ¬ Executing (σ j) w t c) :
    ∃ j, i ≤ j ∧ (σ (j + 1)).threads[u]? = some .idle ∧ ∃ n r, (σ (j + 1)).log t = ⟨code, n, some r⟩ :: (σ j).log t := by
  have clean : ∀ j, ∀ e ∈ (σ j).log t, e.res ≠ none := by
    intro j
    induction j with
    | zero => rw [h.1]; intro e he; cases he
    | succ j ih =>
      have hs := h.2 j
      split at hs
      · rw [hs]; exact ih
      · rename_i a ha
        rcases log_step (h.reach j) hs t with e | ⟨c, n, r, e⟩ | ⟨w, c, n, rfl, hw, _⟩
        · rw [e]; exact ih
        · rw [e]
          intro x hx
          rcases List.mem_cons.mp hx with rfl | hx
          · simp
          · exact ih x hx
        · exact absurd hw (hp j w c ha)
  obtain ⟨j, hj, hE, hi, h1 | ⟨h1, _⟩ | ⟨_, _, e, he, h2⟩⟩ := C63_starvation_free h hf he
  · exact ⟨j, hj, hi, h1.2⟩
  · exact absurd (hE j hj (Nat.le_refl _)) (hp j u code h1)
  · exact absurd h2 (clean j e he)

end

/-- The phase in which a call looks for its table, and a number of steps. -/
def Pc.left : Pc cfg → Option Nat
  | .search .. => some 3
  | .push .. => some 2
  | .again .. => some 1
  | _ => none

/-- **C63, finding the table is wait free.** A call that has not found its table yet is never blocked, and it has it after at most
three of its own steps, whatever other threads do in between: `left` of a thread in this phase goes down with each of its steps. -/
theorem C63_lookup_wait_free {s : State cfg} (r : Reach s) {u : Tid} {pc : Pc cfg} (hu : s.threads[u]? = some pc) {d : Nat}
    (hd : pc.left = some d) : Enabled u s ∧ ∀ n s', step s (.run u n) = .ok s' → ∃ pc', s'.threads[u]? = some pc' ∧
      pc'.call? = pc.call? ∧ ((∃ d', pc'.left = some d' ∧ d' < d) ∨ ∃ t code pos c, pc' = .lock t code pos ∧
        table s' t = some (pos, c)) := by
  have tab : ∀ {s' : State cfg} {t : cfg.Ty} {code : Code (cfg.C t) (cfg.R t)} {pos n : Nat}, step s (.run u n) = .ok s' →
      s'.threads[u]? = some (.lock t code pos) → ∃ c, table s' t = some (pos, c) :=
    fun hs h => C46_uses_first (r.step hs) (.inl ⟨_, h⟩)
  cases pc with
  | search t code =>
    cases hd
    refine ⟨search_enabled r hu, fun n s' hs => ?_⟩
    rcases own_search hu hs with h | ⟨pos, h⟩
    · exact ⟨_, h, rfl, .inl ⟨2, rfl, by omega⟩⟩
    · obtain ⟨c, hc⟩ := tab hs h
      exact ⟨_, h, rfl, .inr ⟨t, code, pos, c, rfl, hc⟩⟩
  | push t code =>
    cases hd
    refine ⟨push_enabled r hu, fun n s' hs => ?_⟩
    obtain ⟨v, _, h⟩ := own_push hu hs
    exact ⟨_, h, rfl, .inl ⟨1, rfl, by omega⟩⟩
  | again t code m =>
    cases hd
    refine ⟨again_enabled r hu, fun n s' hs => ?_⟩
    obtain ⟨pos, h⟩ := own_again hu hs
    obtain ⟨c, hc⟩ := tab hs h
    exact ⟨_, h, rfl, .inr ⟨t, code, pos, c, rfl, hc⟩⟩
  | _ => cases hd

/-! ### The hypotheses are met -/
namespace Demo

/-- The states an infinite list of actions goes through. -/
def play (α : Nat → Option (Act demo)) : Nat → State demo
  | 0 => init demo
  | i + 1 => match α i with
    | none => play α i
    | some a => match step (play α i) a with
      | .ok s => s
      | _ => play α i

theorem exec_append (l l' : List (Act demo)) (s : State demo) :
    exec s (l ++ l') = (exec s l).bind fun s' => exec s' l' := by
  induction l generalizing s with
  | nil => rfl
  | cons a l ih =>
    simp only [List.cons_append, exec]
    split
    · exact ih _
    · rfl

theorem play_exec (l : List (Act demo)) {s' : State demo} (hs : exec (init demo) l = some s') :
    ∀ i, i ≤ l.length → exec (init demo) (l.take i) = some (play (fun i => l[i]?) i) ∧
      ∀ (hi : i < l.length), step (play (fun i => l[i]?) i) l[i] = .ok (play (fun i => l[i]?) (i + 1)) := by
  have one : ∀ i, exec (init demo) (l.take i) = some (play (fun i => l[i]?) i) → ∀ (hi : i < l.length),
      step (play (fun i => l[i]?) i) l[i] = .ok (play (fun i => l[i]?) (i + 1)) := by
    intro i h hi
    have h1 : exec (init demo) (l.take i ++ l.drop i) = some s' := by rw [List.take_append_drop]; exact hs
    rw [exec_append, h, List.drop_eq_getElem_cons hi] at h1
    simp only [Option.bind_some, exec] at h1
    cases h2 : step (play (fun i => l[i]?) i) l[i] with
    | ok s1 => simp only [play, List.getElem?_eq_getElem hi, h2]
    | blocked => rw [h2] at h1; cases h1
    | bug => rw [h2] at h1; cases h1
  intro i
  induction i with
  | zero => intro _; exact ⟨rfl, one 0 rfl⟩
  | succ i ih =>
    intro hi
    have h1 := ih (by omega)
    have h2 := h1.2 (by omega)
    have h3 : exec (init demo) (l.take (i + 1)) = some (play (fun i => l[i]?) (i + 1)) := by
      rw [List.take_succ_eq_append_getElem (by omega), exec_append, h1.1]
      simp only [Option.bind_some, exec, h2]
    exact ⟨h3, one _ h3⟩

/-- Every finite list of actions at the end of which no call is running is a fair execution. -/
theorem play_fair (l : List (Act demo)) {s' : State demo} (hs : exec (init demo) l = some s')
    (hidle : ∀ pc ∈ s'.threads, pc = .idle) :
    Execution (play (fun i => l[i]?)) (fun i => l[i]?) ∧ StronglyFair (play (fun i => l[i]?)) (fun i => l[i]?) := by
  have fin : ∀ i, l.length ≤ i → play (fun i => l[i]?) i = s' := by
    intro i hi
    induction hi with
    | refl =>
      have := (play_exec l hs l.length (Nat.le_refl _)).1
      rw [List.take_length, hs] at this
      exact (Option.some.inj this).symm
    | @step i hi ih =>
      have : l[i]? = none := List.getElem?_eq_none hi
      simp only [play, this, ih]
  refine ⟨⟨rfl, fun i => ?_⟩, fun t h => ?_⟩
  · by_cases hi : i < l.length
    · simp only [List.getElem?_eq_getElem hi]
      exact (play_exec l hs i (by omega)).2 hi
    · have : l[i]? = none := List.getElem?_eq_none (by omega)
      simp only [this, play]
  · obtain ⟨j, h1, n, s1, h2⟩ := h l.length
    rw [fin j h1] at h2
    simp only [step] at h2
    cases ht : s'.threads[t]? with
    | none => simp [ht] at h2
    | some pc =>
      rw [hidle pc (List.mem_of_getElem? ht)] at ht
      simp [ht, run] at h2

/-- Both threads push a table, one of them waits for the mutex of the first, both return. -/
def fairRace : List (Act demo) := race ++ [.run 0 0, .run 0 0, .run 0 0, .run 1 0, .run 1 0, .run 1 0]

example : ∃ σ α, Execution (cfg := demo) σ α ∧ StronglyFair σ α ∧ Executing (σ 4) 0 true (push 5) ∧
    Executing (σ 4) 1 true (push 6) ∧ ∀ j w, α j ≠ some (.panic w) := by
  obtain ⟨h1, h2⟩ := play_fair fairRace (s' := (exec (init demo) fairRace).get rfl) rfl (by
    intro pc hpc
    have : pc ∈ [Pc.idle, Pc.idle] := hpc
    simpa using this)
  refine ⟨_, _, h1, h2, ⟨_, rfl, rfl⟩, ⟨_, rfl, rfl⟩, fun j w e => ?_⟩
  have := List.mem_of_getElem? e
  simp [fairRace, race] at this

/-- A thread that looks for a table: the hypotheses of `C63_lookup_wait_free`. -/
example : ∃ s : State demo, Reach s ∧ s.threads[1]? = some (.push true (push 6)) ∧
    (Pc.push true (push 6) : Pc demo).left = some 2 :=
  ⟨_, (exec_steps (l := race.take 6) rfl .refl).reach .init, rfl, rfl⟩

end Demo
end TypeArena
