import Verif.Src.PoolReach
/-
What the theorems about the model say about the code; progress.
-/
namespace Src.PoolCode
open Arc (Res)
open Pool (Tid Ptr Query Ret Obj Cfg Entry Pc)

variable {K V : Type}

/-! ### Locks -/

theorem mem_locksOf {f : Fr K V} {i : Nat} : i ∈ locksOf f ↔ .unlock i ∈ owed f := by
  simp only [locksOf, owed, List.mem_append, List.mem_filterMap, scsGlue, scGlue, List.mem_flatMap]
  rw [or_comm]
  refine or_congr ?_ ?_
  · constructor
    · rintro ⟨x, hx, e⟩
      refine ⟨x, hx, ?_⟩
      split at e
      · cases e; rfl
      · cases e
    · rintro ⟨x, hx, e⟩
      refine ⟨x, hx, ?_⟩
      cases x with
      | glue g => simp only [itGlue, Option.some.injEq] at e; subst e; rfl
      | _ => cases e
  · constructor
    · rintro ⟨sc, hsc, x, hx, e⟩
      refine ⟨sc, hsc, x, hx, ?_⟩
      split at e
      · rename_i j e'
        cases e
        exact ⟨.guard i, by rw [e']; simp, by simp [glue]⟩
      · cases e
    · rintro ⟨sc, hsc, x, hx, w, hw, e⟩
      refine ⟨sc, hsc, x, hx, ?_⟩
      have hw : x.2 = some w := by simpa using hw
      rw [hw]
      cases w <;> simp [glue] at e
      subst e; rfl

variable [DecidableEq K] [BEq V] [Hashable V] {cfg : Cfg K V} {S : State K V} {s : Pool.State K V}

omit [DecidableEq K] [BEq V] [Hashable V] in
theorem mem_calls {t : Tid} {cs : List (Running K V)} (ht : S.threads[t]? = some cs) {c : Running K V} (hc : c ∈ cs) : c ∈ S.calls :=
  List.mem_flatten.mpr ⟨cs, List.mem_of_getElem? ht, hc⟩

omit [DecidableEq K] [BEq V] [Hashable V] in
theorem calls_mem {c : Running K V} (hc : c ∈ S.calls) : ∃ (t : Tid) (cs : List (Running K V)), S.threads[t]? = some cs ∧ c ∈ cs := by
  obtain ⟨cs, h1, h2⟩ := List.mem_flatten.mp hc
  obtain ⟨t, ht⟩ := List.mem_iff_getElem?.mp h1
  exact ⟨t, cs, ht, h2⟩

omit [DecidableEq K] [BEq V] [Hashable V] in
theorem Quiet.calls (h : Quiet S) : S.calls = [] := by
  rw [State.calls, List.flatten_eq_nil_iff]
  exact h

/-- A lock that is held belongs to a call of the thread that holds it. -/
theorem Sim.lock_of (h : Sim cfg S s) {i : Nat} {t : Tid} (hl : S.mem.lock i = some t) :
    ∃ cs, S.threads[t]? = some cs ∧ ∃ c ∈ cs, i ∈ locksOf c.frame := by
  have := h.acct.owner (i := i) (by rw [hl]; rfl)
  obtain ⟨c, hc, hi⟩ := List.mem_flatMap.mp this
  obtain ⟨u, cs, hu, hc⟩ := calls_mem hc
  have e := h.holder u cs hu c hc i hi
  rw [hl] at e
  cases e
  exact ⟨cs, hu, c, hc, mem_locksOf.mpr hi⟩

/-- Functions of arenas destroy values when they have released the lock. -/
theorem Rel.destroying {id : Nat} {done : List (Entry K V)} {c : Call K V} {f : Fr K V} {pc : Pc K V} (hR : Rel cfg id done c f pc)
    (hN : NestedFr f) (ho : cfg.owns c.pool = true) (hp : f.panicking = false) (hd : Destroying f) (i : Nat) : .unlock i ∉ owed f := by
  have soft : ∀ {G : List (Glue K V)}, G.all Glue.soft = true → .unlock i ∉ G := by
    intro G hG hi
    have := List.all_eq_true.mp hG _ hi
    cases this
  cases hR with
  | «at» hA =>
    exfalso
    obtain ⟨r, hd⟩ := hd
    cases hA with
    | want hst =>
      obtain ⟨y, x, l, rfl, _⟩ := start_head hst
      rcases hd with hd | ⟨_, _, hd⟩ <;> cases hd
    | @look k q v own byRef _ => rcases hd with hd | ⟨_, _, hd⟩ <;> cases hd
    | @hit k q v own byRef p _ => cases own <;> rcases hd with hd | ⟨_, _, hd⟩ <;> cases hd
    | @«from» k q v own _ => cases own <;> rcases hd with hd | ⟨_, _, hd⟩ <;> cases hd
    | @made k q v own byRef p _ => cases own <;> rcases hd with hd | ⟨_, _, hd⟩ <;> cases hd
    | _ => rcases hd with hd | ⟨_, _, hd⟩ <;> cases hd
  | unwind _ h _ => rw [hp] at h; cases h
  | unwindBox _ _ h => rw [hp] at h; cases h
  | leave _ _ _ _ _ hw _ _ hG =>
    exfalso
    rw [hG (.inl ho)] at hw
    obtain ⟨r, hd⟩ := hd
    rcases hd with hd | ⟨_, _, hd⟩ <;> rw [hd] at hw <;> simp [windG] at hw
  | done _ _ _ _ _ hw =>
    rw [← wind_owed hN]
    exact soft hw
  | @drop k gs ps he =>
    simp only [owed, List.filterMap_append, itGlue_glue, itGlue_stmts]
    cases he <;> simp [itGlue, scsGlue, scGlue]
  | dropped => simp [owed, scsGlue]

/-! ### Values -/

theorem Sim.deref (h : Sim cfg S s) {k : K} (hk : k ∉ S.gone) (p : Ptr) : deref S k p = Pool.deref s k p := by
  simp only [PoolCode.deref, Pool.deref, h.shared.heap, List.find?_filter]
  congr 2
  funext o
  by_cases e : o.pool = k
  · subst e; simp [Obj.is, hk]
  · simp [Obj.is, e]

/-! ### Progress -/

theorem fresh_alloc {a : Nat} (hf : Fresh S a) (k : K) (v : V) : Pool.allocAt cfg S.mem.used k v a ≠ none := by
  simp only [Pool.allocAt]
  split
  · simp
  · rw [if_pos]
    · simp
    · refine ⟨hf.1, ?_⟩
      rw [List.all_eq_true]
      intro o ho
      rw [Bool.or_eq_true]
      right
      rw [bne_iff_ne]
      rcases List.mem_append.mp ho with ho | ho
      · exact hf.2.1 o ho
      · exact hf.2.2 o ho

variable [EquivBEq V] [LawfulHashable V]

/-- The innermost function of a thread can take a step, or it waits for the lock of its pool, which is held, and holds no lock itself. -/
theorem Sim.step_or_wait (lay : cfg.Layout) (h : Sim cfg S s) (hr : Pool.Reach cfg s) {t : Tid} {c : Running K V} {cs : List (Running K V)}
    (ht : S.threads[t]? = some (c :: cs)) : (∀ a, Fresh S a → ∃ S', step cfg S (.run t a) = .ok S') ∨
    (S.mem.lock (cfg.lockOf c.call.pool)).isSome = true ∧ locksOf c.frame = [] := by
  by_cases hw : ∀ a, Fresh S a → ∃ S', step cfg S (.run t a) = .ok S'
  · exact .inl hw
  · refine .inr ?_
    simp only [Classical.not_forall] at hw
    obtain ⟨a, hf, hno⟩ := hw
    have hmem := mem_calls ht List.mem_cons_self
    obtain ⟨pc, hpc, hR, hN⟩ := h.rel c hmem
    have hA := h.arena c hmem
    have hout := run_rel (a := a) (hr.inv lay) lay hpc h.shared (lock_model h (hr.inv lay)) t hN hR
      (fun k p hd => h.acct.dealloc (mem_debts hmem hd))
      (fun k hk => by simp only [ArenaOk, hk] at hA; exact hA.1)
      (fun k hk hp => by simp only [ArenaOk, hk] at hA; exact hA.2 hp)
    simp only [step, ht] at hno
    generalize hX : (lang cfg).run S.mem t a [c.frame] = X at hout hno
    cases hout with
    | ok he => exact absurd ⟨_, rfl⟩ hno
    | pop _ _ _ => exact absurd ⟨_, rfl⟩ hno
    | @wait o e hl =>
      subst e
      refine ⟨?_, ?_⟩
      · rw [hR.pool (k := o.pool) rfl]; exact hl
      · rw [List.eq_nil_iff_forall_not_mem]
        exact fun i hi => hR.want i (mem_locksOf.mp hi)
    | alloc e => exact absurd e (fresh_alloc hf _ _)

theorem sum_mem : ∀ {l : List Nat} {n : Nat}, n ∈ l → n ≤ l.sum
  | _ :: _, _, .head _ => by simp
  | a :: l, n, .tail _ h => by
    have := sum_mem h
    rw [List.sum_cons]; omega

/-- With a hierarchy of locks, some thread can go on. -/
theorem Sim.progress (lay : cfg.Layout) (h : Sim cfg S s) (hr : Pool.Reach cfg s) {rank : Nat → Nat} (hk : Ranked cfg rank S) (hq : ¬ Quiet S) :
    ∃ t, ∀ a, Fresh S a → ∃ S', step cfg S (.run t a) = .ok S' := by
  have next : ∀ (t : Tid) (c : Running K V) cs, S.threads[t]? = some (c :: cs) →
      (∃ t, ∀ a, Fresh S a → ∃ S', step cfg S (.run t a) = .ok S') ∨
      ∃ (u : Tid) (d : Running K V) (ds : List (Running K V)), S.threads[u]? = some (d :: ds) ∧ rank (cfg.lockOf c.call.pool) < rank (cfg.lockOf d.call.pool) := by
    intro t c cs ht
    rcases h.step_or_wait lay hr ht with hs | ⟨hl, _⟩
    · exact .inl ⟨t, hs⟩
    · obtain ⟨u, hu⟩ := Option.isSome_iff_exists.mp hl
      obtain ⟨ds, hd, d, hd', hi⟩ := h.lock_of hu
      cases ds with
      | nil => cases hd'
      | cons d0 ds =>
        rcases List.mem_cons.mp hd' with rfl | hm
        · rcases h.step_or_wait lay hr hd with hs | ⟨_, hno⟩
          · exact .inl ⟨u, hs⟩
          · rw [hno] at hi; cases hi
        · exact .inr ⟨u, d0, ds, hd, (List.pairwise_cons.mp (hk _ (List.mem_of_getElem? hd))).1 d hm _ hi⟩
  have key : ∀ n (t : Tid) (c : Running K V) cs, S.threads[t]? = some (c :: cs) →
      (S.calls.map fun c => rank (cfg.lockOf c.call.pool)).sum ≤ n + rank (cfg.lockOf c.call.pool) →
      ∃ t, ∀ a, Fresh S a → ∃ S', step cfg S (.run t a) = .ok S' := by
    intro n
    induction n with
    | zero =>
      intro t c cs ht hle
      rcases next t c cs ht with hs | ⟨u, d, ds, hu, hlt⟩
      · exact hs
      · have := sum_mem (List.mem_map_of_mem (f := fun c => rank (cfg.lockOf c.call.pool)) (mem_calls hu List.mem_cons_self))
        omega
    | succ n ih =>
      intro t c cs ht hle
      rcases next t c cs ht with hs | ⟨u, d, ds, hu, hlt⟩
      · exact hs
      · exact ih u d ds hu (by omega)
  simp only [Quiet, Classical.not_forall] at hq
  obtain ⟨cs, hm, hne⟩ := hq
  obtain ⟨t, ht⟩ := List.mem_iff_getElem?.mp hm
  cases cs with
  | nil => exact absurd rfl hne
  | cons c cs => exact key _ t c cs ht (Nat.le_add_right _ _)

/-! ### Termination -/

noncomputable def callsW (l : List (Running K V)) : Nat := (l.map fun (c : Running K V) => frameW c.frame).sum

omit [DecidableEq K] [BEq V] [Hashable V] [EquivBEq V] [LawfulHashable V] in
theorem callsW_perm {l l' : List (Running K V)} (h : l.Perm l') : callsW l = callsW l' := (h.map fun (c : Running K V) => frameW c.frame).sum_nat

/-- An upper bound on the number of steps that the running functions can still make. -/
noncomputable def stateW (S : State K V) : Nat := callsW S.calls

omit [DecidableEq K] [BEq V] [Hashable V] [EquivBEq V] [LawfulHashable V] in
theorem frameW_pos (f : Fr K V) : 0 < frameW f := by simp only [frameW]; omega

omit [EquivBEq V] [LawfulHashable V] in
theorem Sim.run_less (h : Sim cfg S s) {t : Tid} {a : Nat} {S' : State K V} (hs : step cfg S (.run t a) = .ok S') : stateW S' < stateW S := by
  simp only [step] at hs
  cases ht : S.threads[t]? with
  | none => rw [ht] at hs; cases hs
  | some cs =>
    cases cs with
    | nil => rw [ht] at hs; cases hs
    | cons c cs =>
      rw [ht] at hs
      obtain ⟨rest, p1, p2, p3, _⟩ := split_calls ht
      have hmem := mem_calls ht List.mem_cons_self
      obtain ⟨pc, hpc, hR, hN⟩ := h.rel c hmem
      have e1 : stateW S = frameW c.frame + callsW rest := callsW_perm p1
      simp only at hs
      cases hrun : (lang cfg).run S.mem t a [c.frame] with
      | blocked => rw [hrun] at hs; cases hs
      | ub => rw [hrun] at hs; cases hs
      | ok d =>
        obtain ⟨m', fs', x⟩ := d
        rw [hrun] at hs
        have hch := run_change (t := t) (a := a) hN (fun he st r hi => rel_simple hR he st r hi) hrun
        rcases hch with ⟨rfl, rfl, ho, hi, rfl⟩ | ⟨f', rfl, rfl, hn', hc, hp⟩
        · cases hs
          have e2 : stateW { S with threads := S.threads.set t cs, hist := ends c c.frame.ret ++ S.hist } = callsW rest :=
            callsW_perm p3
          rw [e2, e1]
          have := frameW_pos c.frame
          omega
        · cases hs
          have e2 : stateW { S with mem := m', threads := S.threads.set t ({ c with frame := f' } :: cs) } =
              frameW f' + callsW rest := callsW_perm (p2 { c with frame := f' })
          rw [e2, e1]
          have := run_weight hN (fun he st r hi => rel_simple hR he st r hi) (fun he l r => rel_again hR he l r) hrun
          omega

omit [EquivBEq V] [LawfulHashable V] in
theorem Sim.panic_less (h : Sim cfg S s) {t : Tid} {S' : State K V} (hs : step cfg S (.panic t) = .ok S') : stateW S' < stateW S := by
  simp only [step] at hs
  cases ht : S.threads[t]? with
  | none => rw [ht] at hs; cases hs
  | some cs =>
    cases cs with
    | nil => rw [ht] at hs; cases hs
    | cons c cs =>
      rw [ht] at hs
      obtain ⟨rest, p1, p2, p3, _⟩ := split_calls ht
      have hmem := mem_calls ht List.mem_cons_self
      obtain ⟨pc, hpc, hR, hN⟩ := h.rel c hmem
      have e1 : stateW S = frameW c.frame + callsW rest := callsW_perm p1
      simp only at hs
      cases hrun : (lang cfg).panic S.mem [c.frame] with
      | blocked => rw [hrun] at hs; cases hs
      | ub => rw [hrun] at hs; cases hs
      | ok fs' =>
        rw [hrun] at hs
        obtain ⟨f', rfl, _⟩ := panic_change (t := t) hN hrun
        cases hs
        have e2 : stateW { S with threads := S.threads.set t ({ c with frame := f' } :: cs) } =
            frameW f' + callsW rest := callsW_perm (p2 { c with frame := f' })
        rw [e2, e1]
        have := panic_weight hN hrun
        omega

omit [EquivBEq V] [LawfulHashable V] in
/-- A hierarchy stays one. -/
theorem ranked_run {rank : Nat → Nat} (hk : Ranked cfg rank S) {t : Tid} {a : Nat} {S' : State K V} (hs : step cfg S (.run t a) = .ok S') :
    Ranked cfg rank S' := by
  simp only [step] at hs
  cases ht : S.threads[t]? with
  | none => rw [ht] at hs; cases hs
  | some cs =>
    cases cs with
    | nil => rw [ht] at hs; cases hs
    | cons c cs =>
      rw [ht] at hs
      have hp := List.pairwise_cons.mp (hk _ (List.mem_of_getElem? ht))
      simp only at hs
      cases hrun : (lang cfg).run S.mem t a [c.frame] with
      | blocked => rw [hrun] at hs; cases hs
      | ub => rw [hrun] at hs; cases hs
      | ok d =>
        obtain ⟨m', fs', x⟩ := d
        rw [hrun] at hs
        cases fs' with
        | nil =>
          cases hs
          intro us hu
          rcases List.mem_or_eq_of_mem_set hu with hu | rfl
          · exact hk us hu
          · exact hp.2
        | cons f' fs' =>
          cases hs
          intro us hu
          rcases List.mem_or_eq_of_mem_set hu with hu | rfl
          · exact hk us hu
          · exact List.pairwise_cons.mpr ⟨hp.1, hp.2⟩

/-! ### Calls -/

omit [EquivBEq V] [LawfulHashable V] in
theorem called_lt {S : State K V} (h : Reach cfg S) : (∀ j o, Called S j o → j < S.next) ∧
    ∀ j o o', Called S j o → Called S j o' → o = o' := by
  have old : ∀ {S S' : State K V}, ((∀ j o, Called S j o → j < S.next) ∧ ∀ j o o', Called S j o → Called S j o' → o = o') →
      S.next ≤ S'.next → (∀ j o, Called S' j o → Called S j o) →
      (∀ j o, Called S' j o → j < S'.next) ∧ ∀ j o o', Called S' j o → Called S' j o' → o = o' :=
    fun ih h1 h2 => ⟨fun j o hc => Nat.lt_of_lt_of_le (ih.1 j o (h2 j o hc)) h1, fun j o o' a b => ih.2 j o o' (h2 _ _ a) (h2 _ _ b)⟩
  induction h with
  | init => exact ⟨fun j o hc => by simp [Called, init] at hc, fun j o o' hc => by simp [Called, init] at hc⟩
  | @step S S' act _ _ hs ih =>
    cases act with
    | spawn => cases hs; exact old ih (Nat.le_refl _) (fun j o hc => hc)
    | dropArena t k =>
      simp only [step] at hs
      repeat' split at hs
      all_goals cases hs
      exact old ih (Nat.le_succ _) (fun j o hc => hc)
    | panic t =>
      simp only [step] at hs
      repeat' split at hs
      all_goals cases hs
      exact old ih (Nat.le_refl _) (fun j o hc => hc)
    | run t a =>
      simp only [step] at hs
      repeat' split at hs
      all_goals cases hs
      · refine old ih (Nat.le_refl _) (fun j o hc => ?_)
        rcases List.mem_append.mp hc with hc | hc
        · exfalso
          simp only [ends] at hc
          repeat' split at hc
          all_goals simp at hc
        · exact hc
      · exact old ih (Nat.le_refl _) (fun j o hc => hc)
    | call t o byRef =>
      simp only [step] at hs
      repeat' split at hs
      all_goals cases hs
      constructor
      · intro j o' hc
        rcases List.mem_cons.mp hc with e | hc
        · cases e; exact Nat.lt_succ_self _
        · exact Nat.lt_succ_of_lt (ih.1 j o' hc)
      · intro j o1 o2 a b
        rcases List.mem_cons.mp a with e | a <;> rcases List.mem_cons.mp b with e' | b
        · cases e; cases e'; rfl
        · cases e; exact absurd (ih.1 _ _ b) (Nat.lt_irrefl _)
        · cases e'; exact absurd (ih.1 _ _ a) (Nat.lt_irrefl _)
        · exact ih.2 j o1 o2 a b

omit [DecidableEq K] [BEq V] [Hashable V] [EquivBEq V] [LawfulHashable V] in
/-- Without calls inside calls, there is a hierarchy. -/
theorem ranked_flat {S : State K V} (h : ∀ cs ∈ S.threads, cs.length ≤ 1) (rank : Nat → Nat) : Ranked cfg rank S := by
  intro cs hcs
  match cs, h cs hcs with
  | [], _ => exact .nil
  | [c], _ => exact List.pairwise_singleton _ _

omit [DecidableEq K] [BEq V] [Hashable V] [EquivBEq V] [LawfulHashable V] in
/-- Nor is one needed if functions call user code without a lock. -/
theorem ranked_empty {S : State K V} (h : ∀ cs ∈ S.threads, ∀ c ∈ cs.tail, locksOf c.frame = []) (rank : Nat → Nat) : Ranked cfg rank S := by
  intro cs hcs
  have := h cs hcs
  cases cs with
  | nil => exact .nil
  | cons c cs =>
    refine List.pairwise_cons.mpr ⟨fun c' hc' i hi => ?_, ?_⟩
    · rw [this c' hc'] at hi; cases hi
    · refine List.Pairwise.imp_of_mem ?_ (List.pairwise_iff_getElem.mpr fun _ _ _ _ _ => trivial : cs.Pairwise fun _ _ => True)
      intro a b _ hb _ i hi
      rw [this b hb] at hi; cases hi

end Src.PoolCode
