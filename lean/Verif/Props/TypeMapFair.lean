import Verif.Props.TypeMap
/-!
C55 at the level of container.rs: calls of `Arena::with`, with any closures, for any types, are starvation free when scheduler and locks
are fair, also when several types share a shard.
-/
namespace TypeMap
variable {cfg : Cfg}

/-- An infinite execution from the start of the process: at every instant some action happens, or nothing does. -/
def Execution (σ : Nat → State cfg) (α : Nat → Option (Act cfg)) : Prop :=
  σ 0 = init cfg ∧ ∀ i, match α i with
    | none => σ (i + 1) = σ i
    | some a => step (σ i) a = .ok (σ (i + 1))

/-- Thread `u` can take a step of its running call. -/
def Enabled (u : Tid) (s : State cfg) : Prop := ∃ s', step s (.run u) = .ok s'

/-- Thread `u` takes a step of its running call at instant `i`, or panics in it. -/
def MovesAt (α : Nat → Option (Act cfg)) (u : Tid) (i : Nat) : Prop := α i = some (.run u) ∨ α i = some (.panic u)

/-- A thread that can step again and again does step again and again. -/
def StronglyFair (σ : Nat → State cfg) (α : Nat → Option (Act cfg)) : Prop :=
  ∀ u, (∀ i, ∃ j, i ≤ j ∧ Enabled u (σ j)) → ∀ i, ∃ j, i ≤ j ∧ MovesAt α u j

/-- The call a thread is executing. -/
def Pc.call? : Pc cfg → Option ((t : cfg.Ty) × Code (cfg.C t) (cfg.R t))
  | .idle => none
  | .want t code | .inside t code _ _ _ => some ⟨t, code⟩

/-- Thread `u` is executing a call of `with` for type `t` with closure `code`. -/
def Executing (s : State cfg) (u : Tid) (t : cfg.Ty) (code : Code (cfg.C t) (cfg.R t)) : Prop :=
  ∃ pc, s.threads[u]? = some pc ∧ pc.call? = some ⟨t, code⟩

/-- The call that thread `u` executes at instant `i` is executed until instant `j`, and then it returns a result, or its closure
panics. -/
def Ends (σ : Nat → State cfg) (α : Nat → Option (Act cfg)) (u : Tid) (t : cfg.Ty) (code : Code (cfg.C t) (cfg.R t))
    (i : Nat) : Prop :=
  ∃ j, i ≤ j ∧ (∀ m, i ≤ m → m ≤ j → Executing (σ m) u t code) ∧ (σ (j + 1)).threads[u]? = some .idle ∧
    ((α j = some (.run u) ∧ ∃ n r, (σ (j + 1)).log t = ⟨code, n, some r⟩ :: (σ j).log t) ∨
     (α j = some (.panic u) ∧ ∃ n, (σ (j + 1)).log t = ⟨code, n, none⟩ :: (σ j).log t))

theorem run_threads {s s' : State cfg} {u : Tid} {pc : Pc cfg} (h : run s u pc = .ok s') :
    ∃ pc', s'.threads = s.threads.set u pc' := by
  cases pc <;> simp only [run] at h <;> (repeat' split at h) <;> cases h <;> exact ⟨_, rfl⟩

theorem runPanic_threads {s s' : State cfg} {u : Tid} {pc : Pc cfg} (h : runPanic s u pc = .ok s') :
    ∃ pc', s'.threads = s.threads.set u pc' := by
  cases pc <;> simp only [runPanic] at h <;> cases h <;> exact ⟨_, rfl⟩

theorem other_step {s s' : State cfg} {u : Tid} {pc : Pc cfg} {x : Act cfg} (ht : s.threads[u]? = some pc) (hne : pc ≠ .idle)
    (h : step s x = .ok s') (h1 : x ≠ .run u) (h2 : x ≠ .panic u) : s'.threads[u]? = some pc := by
  have set : ∀ (w : Tid) (y : Pc cfg), w ≠ u → s'.threads = s.threads.set w y → s'.threads[u]? = some pc := by
    intro w y hw e
    rw [e, List.getElem?_set_ne hw]; exact ht
  cases x with
  | spawn =>
    cases h
    exact (List.getElem?_append_left (List.getElem?_eq_some_iff.mp ht).1).trans ht
  | call w t code =>
    simp only [step] at h
    split at h
    · rename_i hw
      cases h
      refine set w _ (fun e => ?_) rfl
      subst e
      rw [ht] at hw
      cases hw
      exact hne rfl
    · cases h
  | run w =>
    simp only [step] at h
    split at h
    · obtain ⟨pc', e⟩ := run_threads h
      exact set w pc' (fun e => h1 (by rw [e])) e
    · cases h
  | panic w =>
    simp only [step] at h
    split at h
    · obtain ⟨pc', e⟩ := runPanic_threads h
      exact set w pc' (fun e => h2 (by rw [e])) e
    · cases h

theorem own_want {s s' : State cfg} {u : Tid} {t : cfg.Ty} {code : Code (cfg.C t) (cfg.R t)}
    (hu : s.threads[u]? = some (.want t code)) (h : step s (.run u) = .ok s') :
    ∃ pos, s'.threads[u]? = some (.inside t code 0 code pos) := by
  simp only [step, hu, run] at h
  (repeat' split at h) <;> cases h
  exact ⟨_, set_self hu⟩

/-- The closure returns, or goes on. -/
theorem own_inside {s s' : State cfg} {u : Tid} {i pos : Nat} {t : cfg.Ty} {orig k : Code (cfg.C t) (cfg.R t)}
    (hu : s.threads[u]? = some (.inside t orig i k pos)) (h : step s (.run u) = .ok s') :
    (∃ a, k = .ret a ∧ s'.threads[u]? = some .idle ∧ s'.log t = ⟨orig, i, some a⟩ :: s.log t ∧ s'.lock (cfg.shard t) = none) ∨
    ∃ f g c, k = .next f g ∧ s'.threads[u]? = some (.inside t orig (i + 1) (g c) pos) := by
  simp only [step, hu, run] at h
  cases k with
  | ret a =>
    cases h
    exact .inl ⟨a, rfl, set_self hu, setLog_same s t _, by simp [State.finish]⟩
  | next f g =>
    simp only at h
    (repeat' split at h) <;> cases h
    exact .inr ⟨f, g, _, rfl, set_self hu⟩

theorem own_panic {s s' : State cfg} {u : Tid} {pc : Pc cfg} (hu : s.threads[u]? = some pc)
    (h : step s (.panic u) = .ok s') : ∃ t orig i k pos, pc = .inside t orig i k pos ∧ s'.threads[u]? = some .idle ∧
      s'.log t = ⟨orig, i, none⟩ :: s.log t ∧ s'.lock (cfg.shard t) = none := by
  simp only [step, hu] at h
  cases pc with
  | inside t orig i k pos =>
    simp only [runPanic] at h
    cases h
    exact ⟨t, orig, i, k, pos, rfl, set_self hu, setLog_same s t _, by simp [State.finish]⟩
  | _ => cases h

theorem inside_enabled {s : State cfg} (r : Reach s) {u : Tid} {t : cfg.Ty} {orig k : Code (cfg.C t) (cfg.R t)} {n pos : Nat}
    (hu : s.threads[u]? = some (.inside t orig n k pos)) : Enabled u s := by
  obtain ⟨c, _, ⟨v, hv, hp⟩, _⟩ := r.inv.inside u t orig n k pos hu
  unfold Enabled
  simp only [step, hu, run]
  cases k with
  | ret a => exact ⟨_, rfl⟩
  | next f g =>
    simp only [hv, hp, downcast_mk]
    exact ⟨_, rfl⟩

section
variable {σ : Nat → State cfg} {α : Nat → Option (Act cfg)}

theorem Execution.reach (h : Execution σ α) (i : Nat) : Reach (σ i) := by
  induction i with
  | zero => rw [h.1]; exact .init
  | succ i ih =>
    have := h.2 i
    split at this
    · rw [this]; exact ih
    · exact .step ih this

theorem Execution.stay (h : Execution σ α) {u : Tid} {pc : Pc cfg} (hne : pc ≠ .idle) {i : Nat}
    (ht : (σ i).threads[u]? = some pc) (hm : ¬ MovesAt α u i) : (σ (i + 1)).threads[u]? = some pc := by
  have := h.2 i
  split at this
  · rw [this]; exact ht
  · rename_i a ha
    exact other_step ht hne this (fun e => hm (.inl (by rw [ha, e]))) (fun e => hm (.inr (by rw [ha, e])))

theorem Execution.wait (h : Execution σ α) {u : Tid} {pc : Pc cfg} (hne : pc ≠ .idle) {i : Nat}
    (ht : (σ i).threads[u]? = some pc) (j : Nat) (hij : i ≤ j) (hm : ∀ m, i ≤ m → m < j → ¬ MovesAt α u m) :
    (σ j).threads[u]? = some pc := by
  induction hij with
  | refl => exact ht
  | @step j hij ih => exact h.stay hne (ih fun m a b => hm m a (by omega)) (hm j hij (by omega))

/-- A thread that can step again and again while it is at `pc` takes a step there. -/
theorem Execution.first_move (h : Execution σ α) (hf : StronglyFair σ α) {u : Tid} {pc : Pc cfg} (hne : pc ≠ .idle) {i : Nat}
    (ht : (σ i).threads[u]? = some pc)
    (he : ∀ j, i ≤ j → (∀ m, i ≤ m → m ≤ j → (σ m).threads[u]? = some pc) → ∃ k, j ≤ k ∧
      ((σ k).threads[u]? = some pc → Enabled u (σ k))) :
    ∃ j, i ≤ j ∧ (∀ m, i ≤ m → m ≤ j → (σ m).threads[u]? = some pc) ∧ MovesAt α u j := by
  have hm : ∃ j, i ≤ j ∧ MovesAt α u j := by
    refine Classical.byContradiction fun hno => ?_
    have hno' : ∀ m, i ≤ m → ¬ MovesAt α u m := fun m h1 h2 => hno ⟨m, h1, h2⟩
    have hw : ∀ j, i ≤ j → (σ j).threads[u]? = some pc := fun j hj => h.wait hne ht j hj fun m a _ => hno' m a
    obtain ⟨j, h1, h2⟩ := hf u (fun j => by
      obtain ⟨k, hk, e⟩ := he (max i j) (Nat.le_max_left _ _) fun m a _ => hw m a
      exact ⟨k, Nat.le_trans (Nat.le_max_right _ _) hk, e (hw k (Nat.le_trans (Nat.le_max_left _ _) hk))⟩) i
    exact hno' j h1 h2
  obtain ⟨j, hj, hmv⟩ := hm
  have : ∀ d j, j = i + d → MovesAt α u j → ∃ j, i ≤ j ∧ (∀ m, i ≤ m → m < j → ¬ MovesAt α u m) ∧ MovesAt α u j := by
    intro d
    induction d using Nat.strongRecOn with
    | ind d ih =>
      intro j hj hmv
      by_cases hex : ∃ m, i ≤ m ∧ m < j ∧ MovesAt α u m
      · obtain ⟨m, h1, h2, h3⟩ := hex
        exact ih (m - i) (by omega) m (by omega) h3
      · exact ⟨j, by omega, fun m h1 h2 h3 => hex ⟨m, h1, h2, h3⟩, hmv⟩
  obtain ⟨j, hj, hno, hmv⟩ := this (j - i) j (by omega) hmv
  exact ⟨j, hj, fun m a b => h.wait hne ht m a fun m' a' b' => hno m' a' (by omega), hmv⟩

/-- What a move is. -/
theorem Execution.move (h : Execution σ α) {u : Tid} {j : Nat} (hm : MovesAt α u j) :
    (α j = some (.run u) ∧ step (σ j) (.run u) = .ok (σ (j + 1))) ∨
    (α j = some (.panic u) ∧ step (σ j) (.panic u) = .ok (σ (j + 1))) := by
  have := h.2 j
  rcases hm with e | e
  · rw [e] at this; exact .inl ⟨e, this⟩
  · rw [e] at this; exact .inr ⟨e, this⟩

theorem Ends.earlier {u : Tid} {t : cfg.Ty} {code : Code (cfg.C t) (cfg.R t)} {i j : Nat} (hij : i ≤ j)
    (he : ∀ m, i ≤ m → m < j → Executing (σ m) u t code) (h : Ends σ α u t code j) : Ends σ α u t code i := by
  obtain ⟨k, h1, h2, h3⟩ := h
  refine ⟨k, Nat.le_trans hij h1, fun m a b => ?_, h3⟩
  by_cases hm : m < j
  · exact he m a hm
  · exact h2 m (by omega) b

/-- A closure that runs ends, and the mutex of the shard is free then. -/
theorem Execution.inside_ends (h : Execution σ α) (hf : StronglyFair σ α) {u : Tid} {t : cfg.Ty}
    {orig : Code (cfg.C t) (cfg.R t)} {pos : Nat} (k : Code (cfg.C t) (cfg.R t)) : ∀ (n i : Nat),
    (σ i).threads[u]? = some (.inside t orig n k pos) →
      Ends σ α u t orig i ∧ ∃ j, i ≤ j ∧ (σ j).lock (cfg.shard t) = none := by
  induction k with
  | ret a =>
    intro n i hu
    obtain ⟨j, hj, hst, hm⟩ := h.first_move hf (by simp) hu fun j _ _ => ⟨j, Nat.le_refl _, inside_enabled (h.reach j)⟩
    have hE : ∀ m, i ≤ m → m ≤ j → Executing (σ m) u t orig := fun m a b => ⟨_, hst m a b, rfl⟩
    rcases h.move hm with ⟨e, hs⟩ | ⟨e, hs⟩
    · rcases own_inside (hst j hj (Nat.le_refl _)) hs with ⟨b, _, h1, h2, h3⟩ | ⟨f, g, c, h1, _⟩
      · exact ⟨⟨j, hj, hE, h1, .inl ⟨e, n, b, h2⟩⟩, j + 1, by omega, h3⟩
      · cases h1
    · obtain ⟨_, _, _, _, _, e1, h1, h2, h3⟩ := own_panic (hst j hj (Nat.le_refl _)) hs
      cases e1
      exact ⟨⟨j, hj, hE, h1, .inr ⟨e, n, h2⟩⟩, j + 1, by omega, h3⟩
  | next f g ih =>
    intro n i hu
    obtain ⟨j, hj, hst, hm⟩ := h.first_move hf (by simp) hu fun j _ _ => ⟨j, Nat.le_refl _, inside_enabled (h.reach j)⟩
    have hE : ∀ m, i ≤ m → m ≤ j → Executing (σ m) u t orig := fun m a b => ⟨_, hst m a b, rfl⟩
    rcases h.move hm with ⟨e, hs⟩ | ⟨e, hs⟩
    · rcases own_inside (hst j hj (Nat.le_refl _)) hs with ⟨b, h1, _⟩ | ⟨f', g', c, h1, h2⟩
      · cases h1
      · cases h1
        obtain ⟨h3, j', h4, h5⟩ := ih c (n + 1) (j + 1) h2
        exact ⟨h3.earlier (by omega) fun m a b => hE m a (by omega), j', by omega, h5⟩
    · obtain ⟨_, _, _, _, _, e1, h1, h2, h3⟩ := own_panic (hst j hj (Nat.le_refl _)) hs
      cases e1
      exact ⟨⟨j, hj, hE, h1, .inr ⟨e, n, h2⟩⟩, j + 1, by omega, h3⟩

/-- **C55, container.rs.** If scheduler and locks are fair, every call of `Arena::with` ends, whatever calls for the same and other
types are made meanwhile, and however many of them panic: it returns a result, or its own closure panics. -/
theorem C55_with_starvation_free (h : Execution σ α) (hf : StronglyFair σ α) {u : Tid} {t : cfg.Ty}
    {code : Code (cfg.C t) (cfg.R t)} {i : Nat} (he : Executing (σ i) u t code) : Ends σ α u t code i := by
  obtain ⟨pc, hu, hc⟩ := he
  cases pc with
  | idle => cases hc
  | inside t' o n k p => cases hc; exact (h.inside_ends hf k n i hu).1
  | want t' c =>
    cases hc
    obtain ⟨j, hj, hst, hm⟩ := h.first_move hf (by simp) hu fun j _ hst => by
      have free : ∃ k, j ≤ k ∧ (σ k).lock (cfg.shard t) = none := by
        cases hl : (σ j).lock (cfg.shard t) with
        | none => exact ⟨j, Nat.le_refl _, hl⟩
        | some w =>
          obtain ⟨pc, hw, hh⟩ := (h.reach j).inv.held _ w hl
          cases pc with
          | inside t' o n k p =>
            obtain ⟨_, j', h1, h2⟩ := h.inside_ends hf k n j hw
            have : cfg.shard t' = cfg.shard t := Option.some.inj hh
            exact ⟨j', h1, by rw [← this]; exact h2⟩
          | _ => cases hh
      obtain ⟨k, hk, hl⟩ := free
      refine ⟨k, hk, fun hu => ?_⟩
      rcases (h.reach k).inv.step (.run u) with e | ⟨s', e, _⟩
      · exfalso
        obtain ⟨v, hv⟩ := C29_shard_exists (h.reach k) t
        simp only [step, hu, run, hv, hl, Option.isSome_none, Bool.false_eq_true, if_false] at e
        split at e <;> cases e
      · exact ⟨s', e⟩
    have hE : ∀ m, i ≤ m → m < j + 1 → Executing (σ m) u t code := fun m a b => ⟨_, hst m a (by omega), rfl⟩
    rcases h.move hm with ⟨e, hs⟩ | ⟨e, hs⟩
    · obtain ⟨pos, h1⟩ := own_want (hst j hj (Nat.le_refl _)) hs
      exact (h.inside_ends hf code 0 (j + 1) h1).1.earlier (by omega) hE
    · obtain ⟨_, _, _, _, _, e1, _⟩ := own_panic (hst j hj (Nat.le_refl _)) hs
      cases e1

end

/-! ### The hypotheses are met -/
namespace Demo

/-- The states an infinite list of actions goes through. -/
def play (α : Nat → Option (Act demo)) : Nat → State demo
  | 0 => init demo
  | i + 1 => match α i with
    | none => play α i
    | some a => match step (play α i) a with
      | .ok s => s
      | _ => play α i

theorem exec_append (l l' : List (Act demo)) (s : State demo) :
    exec s (l ++ l') = (exec s l).bind fun s' => exec s' l' := by
  induction l generalizing s with
  | nil => rfl
  | cons a l ih =>
    simp only [List.cons_append, exec]
    split
    · exact ih _
    · rfl

theorem play_exec (l : List (Act demo)) {s' : State demo} (hs : exec (init demo) l = some s') :
    ∀ i, i ≤ l.length → exec (init demo) (l.take i) = some (play (fun i => l[i]?) i) ∧
      ∀ (hi : i < l.length), step (play (fun i => l[i]?) i) l[i] = .ok (play (fun i => l[i]?) (i + 1)) := by
  have one : ∀ i, exec (init demo) (l.take i) = some (play (fun i => l[i]?) i) → ∀ (hi : i < l.length),
      step (play (fun i => l[i]?) i) l[i] = .ok (play (fun i => l[i]?) (i + 1)) := by
    intro i h hi
    have h1 : exec (init demo) (l.take i ++ l.drop i) = some s' := by rw [List.take_append_drop]; exact hs
    rw [exec_append, h, List.drop_eq_getElem_cons hi] at h1
    simp only [Option.bind_some, exec] at h1
    cases h2 : step (play (fun i => l[i]?) i) l[i] with
    | ok s1 => simp only [play, List.getElem?_eq_getElem hi, h2]
    | blocked => rw [h2] at h1; cases h1
    | bug => rw [h2] at h1; cases h1
  intro i
  induction i with
  | zero => intro _; exact ⟨rfl, one 0 rfl⟩
  | succ i ih =>
    intro hi
    have h1 := ih (by omega)
    have h2 := h1.2 (by omega)
    have h3 : exec (init demo) (l.take (i + 1)) = some (play (fun i => l[i]?) (i + 1)) := by
      rw [List.take_succ_eq_append_getElem (by omega), exec_append, h1.1]
      simp only [Option.bind_some, exec, h2]
    exact ⟨h3, one _ h3⟩

/-- Every finite list of actions at the end of which no call is running is a fair execution. -/
theorem play_fair (l : List (Act demo)) {s' : State demo} (hs : exec (init demo) l = some s')
    (hidle : ∀ pc ∈ s'.threads, pc = .idle) :
    Execution (play (fun i => l[i]?)) (fun i => l[i]?) ∧ StronglyFair (play (fun i => l[i]?)) (fun i => l[i]?) := by
  have fin : ∀ i, l.length ≤ i → play (fun i => l[i]?) i = s' := by
    intro i hi
    induction hi with
    | refl =>
      have := (play_exec l hs l.length (Nat.le_refl _)).1
      rw [List.take_length, hs] at this
      exact (Option.some.inj this).symm
    | @step i hi ih =>
      have : l[i]? = none := List.getElem?_eq_none hi
      simp only [play, this, ih]
  refine ⟨⟨rfl, fun i => ?_⟩, fun t h => ?_⟩
  · by_cases hi : i < l.length
    · simp only [List.getElem?_eq_getElem hi]
      exact (play_exec l hs i (by omega)).2 hi
    · have : l[i]? = none := List.getElem?_eq_none (by omega)
      simp only [this, play]
  · obtain ⟨j, h1, s1, h2⟩ := h l.length
    rw [fin j h1] at h2
    simp only [step] at h2
    cases ht : s'.threads[t]? with
    | none => simp [ht] at h2
    | some pc =>
      rw [hidle pc (List.mem_of_getElem? ht)] at ht
      simp [ht, run] at h2

/-- The script above: two types in one shard; at instant 4 both threads are executing calls. -/
example : ∃ σ α, Execution (cfg := demo) σ α ∧ StronglyFair σ α ∧ Executing (σ 4) 0 true (push 5) ∧
    Executing (σ 4) 1 false (push 7) := by
  obtain ⟨h1, h2⟩ := play_fair script (s' := (exec (init demo) script).get rfl) rfl (by
    intro pc hpc
    have : pc ∈ [Pc.idle, Pc.idle] := hpc
    simpa using this)
  exact ⟨_, _, h1, h2, ⟨_, rfl, rfl⟩, ⟨_, rfl, rfl⟩⟩

end Demo
end TypeMap
