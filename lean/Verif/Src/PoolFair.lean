import Verif.Src.PoolMain
/-
Infinite executions of the code of `Intern` and `Arena`, with calls inside calls, under a fair scheduler (C85): vocabulary and proof.
-/
namespace Src.PoolCode
open Arc (Res)
open Pool (Tid Ptr Query Ret Obj Cfg Entry)

variable {K V : Type}

/-- The calls that thread `t` is executing, innermost first; none if there is no such thread yet. -/
def stackOf (S : State K V) (t : Tid) : List (Running K V) := S.threads[t]?.getD []

/-- Thread `t` is between two calls of clients. -/
def Idle (S : State K V) (t : Tid) : Prop := stackOf S t = []

/-- Thread `t` takes a step of its innermost function at instant `i`. -/
def RunsAt (α : Nat → Option (Act K V)) (t : Tid) (i : Nat) : Prop := ∃ a, α i = some (.run t a)

/-- Thread `t` starts a function. -/
def Act.StartsOn (t : Tid) : Act K V → Prop
  | .call u _ _ | .dropArena u _ => u = t
  | _ => False

/-- User code comes to an end: there is no call of a client that makes infinitely many calls inside itself. A thread becomes idle again
and again, or it starts finitely many functions. -/
def UserCodeEnds (σ : Nat → State K V) (α : Nat → Option (Act K V)) : Prop :=
  ∀ t, (∀ i, ∃ j, i ≤ j ∧ Idle (σ j) t) ∨ ∃ i, ∀ j, i ≤ j → ∀ a, α j = some a → ¬ a.StartsOn t

section
variable [DecidableEq K] [BEq V] [Hashable V]

/-- An infinite execution from the start of the process: at every instant some action happens, or nothing does. -/
def Execution (cfg : Cfg K V) (σ : Nat → State K V) (α : Nat → Option (Act K V)) : Prop :=
  σ 0 = init ∧ ∀ i, match α i with
    | none => σ (i + 1) = σ i
    | some a => a.Lawful ∧ step cfg (σ i) a = .ok (σ (i + 1))

/-- Thread `t` can take a step of the innermost function that it is executing. -/
def Enabled (cfg : Cfg K V) (t : Tid) (S : State K V) : Prop := ∃ a S', step cfg S (.run t a) = .ok S'

/-- A thread that can step again and again does step again and again: the operating system runs every thread, and no thread loses the
competition for a lock for ever. -/
def StronglyFair (cfg : Cfg K V) (σ : Nat → State K V) (α : Nat → Option (Act K V)) : Prop :=
  ∀ t, (∀ i, ∃ j, i ≤ j ∧ Enabled cfg t (σ j)) → ∀ i, ∃ j, i ≤ j ∧ RunsAt α t j

end

/-! ### One step -/

variable [DecidableEq K] [BEq V] [Hashable V] {cfg : Cfg K V} {S S' : State K V} {s : Pool.State K V}

omit [DecidableEq K] [BEq V] [Hashable V] in
theorem stack_set {l : List (List (Running K V))} {u : Tid} {x y : List (Running K V)} (h : l[u]? = some x) (t : Tid) :
    (l.set u y)[t]?.getD [] = if t = u then y else l[t]?.getD [] := by
  have hu : u < l.length := (List.getElem?_eq_some_iff.mp h).1
  rw [List.getElem?_set]
  by_cases e : u = t
  · subst e; simp [hu]
  · rw [if_neg e, if_neg (fun h => e h.symm)]

omit [DecidableEq K] [BEq V] [Hashable V] in
theorem callsW_cons (c : Running K V) (cs : List (Running K V)) : callsW (c :: cs) = frameW c.frame + callsW cs := by
  simp [callsW]

omit [DecidableEq K] [BEq V] [Hashable V] in
theorem callsW_zero {cs : List (Running K V)} (h : callsW cs = 0) : cs = [] := by
  cases cs with
  | nil => rfl
  | cons c cs => rw [callsW_cons] at h; have := frameW_pos c.frame; omega

/-- What a step of thread `u` does to a thread. -/
theorem Sim.stack_run (h : Sim cfg S s) {u : Tid} {a : Nat} (hs : step cfg S (.run u a) = .ok S') (t : Tid) :
    if t = u then callsW (stackOf S' t) < callsW (stackOf S t) else stackOf S' t = stackOf S t := by
  simp only [step] at hs
  cases ht : S.threads[u]? with
  | none => rw [ht] at hs; cases hs
  | some cs =>
    cases cs with
    | nil => rw [ht] at hs; cases hs
    | cons c cs =>
      rw [ht] at hs
      have hmem := mem_calls ht List.mem_cons_self
      obtain ⟨pc, hpc, hR, hN⟩ := h.rel c hmem
      simp only at hs
      cases hrun : (lang cfg).run S.mem u a [c.frame] with
      | blocked => rw [hrun] at hs; cases hs
      | ub => rw [hrun] at hs; cases hs
      | ok d =>
        obtain ⟨m', fs', x⟩ := d
        rw [hrun] at hs
        have hch := run_change (t := u) (a := a) hN (fun he st r hi => rel_simple hR he st r hi) hrun
        have hS : stackOf S u = c :: cs := by rw [stackOf, ht]; rfl
        rcases hch with ⟨rfl, rfl, ho, hi, rfl⟩ | ⟨f', rfl, rfl, hn', hc, hp⟩
        · cases hs
          split
          · rename_i e; subst e
            rw [hS, stackOf, stack_set ht, if_pos rfl, callsW_cons]
            have := frameW_pos c.frame
            omega
          · rename_i e
            rw [stackOf, stack_set ht, if_neg e]; rfl
        · cases hs
          split
          · rename_i e; subst e
            rw [hS, stackOf, stack_set ht, if_pos rfl, callsW_cons, callsW_cons]
            exact Nat.add_lt_add_right (run_weight hN (fun he st r hi => rel_simple hR he st r hi) (fun he l r => rel_again hR he l r) hrun) _
          · rename_i e
            rw [stackOf, stack_set ht, if_neg e]; rfl

theorem Sim.stack_panic (h : Sim cfg S s) {u : Tid} (hs : step cfg S (.panic u) = .ok S') (t : Tid) :
    if t = u then callsW (stackOf S' t) < callsW (stackOf S t) else stackOf S' t = stackOf S t := by
  simp only [step] at hs
  cases ht : S.threads[u]? with
  | none => rw [ht] at hs; cases hs
  | some cs =>
    cases cs with
    | nil => rw [ht] at hs; cases hs
    | cons c cs =>
      rw [ht] at hs
      have hmem := mem_calls ht List.mem_cons_self
      obtain ⟨pc, hpc, hR, hN⟩ := h.rel c hmem
      simp only at hs
      cases hrun : (lang cfg).panic S.mem [c.frame] with
      | blocked => rw [hrun] at hs; cases hs
      | ub => rw [hrun] at hs; cases hs
      | ok fs' =>
        rw [hrun] at hs
        obtain ⟨f', rfl, _⟩ := panic_change (t := u) hN hrun
        have hS : stackOf S u = c :: cs := by rw [stackOf, ht]; rfl
        cases hs
        split
        · rename_i e; subst e
          rw [hS, stackOf, stack_set ht, if_pos rfl, callsW_cons, callsW_cons]
          exact Nat.add_lt_add_right (panic_weight hN hrun) _
        · rename_i e
          rw [stackOf, stack_set ht, if_neg e]; rfl

/-- An action that starts no function on thread `t` leaves its calls alone, or makes them shorter. -/
theorem Sim.stack_step (h : Sim cfg S s) {act : Act K V} (hs : step cfg S act = .ok S') {t : Tid} (hn : ¬ act.StartsOn t) :
    stackOf S' t = stackOf S t ∧ (¬ ∃ a, act = .run t a) ∨ callsW (stackOf S' t) < callsW (stackOf S t) := by
  cases act with
  | spawn =>
    cases hs
    refine .inl ⟨?_, by rintro ⟨a, e⟩; cases e⟩
    simp only [stackOf]
    by_cases hl : t < S.threads.length
    · rw [List.getElem?_append_left hl]
    · rw [List.getElem?_append_right (Nat.not_lt.mp hl), List.getElem?_eq_none (Nat.not_lt.mp hl)]
      cases hd : t - S.threads.length <;> simp
  | call u o byRef =>
    refine .inl ⟨?_, by rintro ⟨a, e⟩; cases e⟩
    have hne : t ≠ u := fun e => hn e.symm
    simp only [step] at hs
    repeat' split at hs
    all_goals cases hs
    rename_i hc _ _
    rw [stackOf, stack_set hc, if_neg hne]; rfl
  | dropArena u k =>
    refine .inl ⟨?_, by rintro ⟨a, e⟩; cases e⟩
    have hne : t ≠ u := fun e => hn e.symm
    simp only [step] at hs
    repeat' split at hs
    all_goals cases hs
    rename_i hc _
    rw [stackOf, stack_set hc, if_neg hne]; rfl
  | run u a =>
    have := h.stack_run hs t
    split at this
    · exact .inr this
    · rename_i e
      exact .inl ⟨this, by rintro ⟨b, e'⟩; cases e'; exact e rfl⟩
  | panic u =>
    have := h.stack_panic hs t
    split at this
    · exact .inr this
    · exact .inl ⟨this, by rintro ⟨b, e'⟩; cases e'⟩

/-- Starting a function. -/
theorem stack_start {act : Act K V} (hs : step cfg S act = .ok S') {t : Tid} (ha : act.StartsOn t) : ∃ d, stackOf S' t = d :: stackOf S t := by
  cases act with
  | call u o byRef =>
    cases ha
    simp only [step] at hs
    repeat' split at hs
    all_goals cases hs
    rename_i hc _ _
    simp only [stackOf]
    rw [stack_set hc, if_pos rfl, hc]
    exact ⟨_, rfl⟩
  | dropArena u k =>
    cases ha
    simp only [step] at hs
    repeat' split at hs
    all_goals cases hs
    rename_i hc _
    simp only [stackOf]
    rw [stack_set hc, if_pos rfl, hc]
    exact ⟨_, rfl⟩
  | _ => cases ha

/-- A lock passes from one thread to another only by being released. -/
theorem Sim.lock_step (h : Sim cfg S s) {act : Act K V} (hs : step cfg S act = .ok S') {i : Nat} {u : Tid} (hl : S.mem.lock i = some u) :
    S'.mem.lock i = some u ∨ S'.mem.lock i = none := by
  cases act with
  | spawn => cases hs; exact .inl hl
  | call t o byRef =>
    simp only [step] at hs
    repeat' split at hs
    all_goals cases hs
    exact .inl hl
  | dropArena t k =>
    simp only [step] at hs
    repeat' split at hs
    all_goals cases hs
    exact .inl hl
  | panic t =>
    simp only [step] at hs
    repeat' split at hs
    all_goals cases hs
    exact .inl hl
  | run t a =>
    simp only [step] at hs
    cases ht : S.threads[t]? with
    | none => rw [ht] at hs; cases hs
    | some cs =>
      cases cs with
      | nil => rw [ht] at hs; cases hs
      | cons c cs =>
        rw [ht] at hs
        obtain ⟨pc, hpc, hR, hN⟩ := h.rel c (mem_calls ht List.mem_cons_self)
        simp only at hs
        cases hrun : (lang cfg).run S.mem t a [c.frame] with
        | blocked => rw [hrun] at hs; cases hs
        | ub => rw [hrun] at hs; cases hs
        | ok d =>
          obtain ⟨m', fs', x⟩ := d
          rw [hrun] at hs
          have hch := run_change (t := t) (a := a) hN (fun he st r hi => rel_simple hR he st r hi) hrun
          rcases hch with ⟨rfl, rfl, ho, hi, rfl⟩ | ⟨f', rfl, rfl, hn', hc, hp⟩
          · cases hs; exact .inl hl
          · cases hs
            obtain ⟨l, g, r, _, _, hT⟩ := hc
            cases hT with
            | lock hfree =>
              left
              show (if i = _ then _ else S.mem.lock i) = some u
              rw [if_neg, hl]
              rintro rfl
              rw [hl] at hfree; cases hfree
            | unlock j =>
              by_cases e : i = j
              · right; show (if i = j then _ else S.mem.lock i) = none; rw [if_pos e]
              · left; show (if i = j then _ else S.mem.lock i) = some u; rw [if_neg e, hl]
            | _ => exact .inl hl

/-! ### Infinite executions -/

variable {σ : Nat → State K V} {α : Nat → Option (Act K V)}

theorem Execution.reach (h : Execution cfg σ α) (i : Nat) : Reach cfg (σ i) := by
  induction i with
  | zero => rw [h.1]; exact .init
  | succ i ih =>
    have := h.2 i
    cases e : α i with
    | none => rw [e] at this; rw [this]; exact ih
    | some a => rw [e] at this; exact .step ih this.1 this.2

/-- A sequence of numbers that never grows is constant in the end. -/
theorem settle {w : Nat → Nat} {n : Nat} (h : ∀ i, n ≤ i → w (i + 1) ≤ w i) : ∃ m, n ≤ m ∧ ∀ i, m ≤ i → w i = w m := by
  have key : ∀ b m, n ≤ m → w m ≤ b → ∃ m', n ≤ m' ∧ ∀ i, m' ≤ i → w i = w m' := by
    intro b
    induction b with
    | zero =>
      intro m hm hb
      refine ⟨m, hm, fun i hi => ?_⟩
      induction hi with
      | refl => rfl
      | @step i hi ih =>
        replace hi : m ≤ i := hi
        have h1 : w (i + 1) ≤ w i := h i (by omega)
        show w (i + 1) = w m
        omega
    | succ b ih =>
      intro m hm hb
      by_cases hc : ∃ i, m ≤ i ∧ w i < w m
      · obtain ⟨i, h1, h2⟩ := hc
        exact ih i (by omega) (by omega)
      · refine ⟨m, hm, fun i hi => ?_⟩
        have h1 : ¬ w i < w m := fun hlt => hc ⟨i, hi, hlt⟩
        have h2 : w i ≤ w m := by
          clear h1
          induction hi with
          | refl => exact Nat.le_refl _
          | @step i hi ih =>
            replace hi : m ≤ i := hi
            have h1 : w (i + 1) ≤ w i := h i (by omega)
            show w (i + 1) ≤ w m
            omega
        omega
  exact key _ n (Nat.le_refl _) (Nat.le_refl _)

variable [EquivBEq V] [LawfulHashable V]

theorem fresh_exists (S : State K V) : ∃ a, Fresh S a := by
  refine ⟨(S.mem.heap.map (·.ptr.addr)).sum + (S.mem.husks.map (·.ptr.addr)).sum + 1, by omega, fun o ho e => ?_, fun o ho e => ?_⟩
  · have := sum_mem (List.mem_map_of_mem (f := fun o : Obj K V => o.ptr.addr) ho)
    omega
  · have := sum_mem (List.mem_map_of_mem (f := fun o : Obj K V => o.ptr.addr) ho)
    omega

/-- From instant `m` on thread `t` waits for lock `l`, in vain. -/
def Stuck (cfg : Cfg K V) (σ : Nat → State K V) (t : Tid) (l : Nat) : Prop :=
  ∃ m c cs, cfg.lockOf c.call.pool = l ∧ locksOf c.frame = [] ∧
    ∀ i, m ≤ i → stackOf (σ i) t = c :: cs ∧ ((σ i).mem.lock l).isSome = true

omit [DecidableEq K] [BEq V] [Hashable V] [EquivBEq V] [LawfulHashable V] in
theorem stack_get {S : State K V} {t : Tid} {c : Running K V} {cs : List (Running K V)} (h : stackOf S t = c :: cs) :
    S.threads[t]? = some (c :: cs) := by
  simp only [stackOf] at h
  cases e : S.threads[t]? with
  | none => rw [e] at h; cases h
  | some x => rw [e] at h; rw [← h]; rfl

/-- A thread that starts finitely many functions becomes idle, or is stuck. -/
theorem idle_or_stuck (lay : cfg.Layout) (h : Execution cfg σ α) (hf : StronglyFair cfg σ α) {t : Tid} {n : Nat}
    (hn : ∀ j, n ≤ j → ∀ a, α j = some a → ¬ a.StartsOn t) : (∀ i, ∃ j, i ≤ j ∧ Idle (σ j) t) ∨ ∃ l, Stuck cfg σ t l := by
  have one : ∀ i, n ≤ i → stackOf (σ (i + 1)) t = stackOf (σ i) t ∧ ¬ RunsAt α t i ∨
      callsW (stackOf (σ (i + 1)) t) < callsW (stackOf (σ i) t) := by
    intro i hi
    have := h.2 i
    cases e : α i with
    | none =>
      rw [e] at this; rw [this]
      exact .inl ⟨rfl, by rintro ⟨a, ha⟩; rw [e] at ha; cases ha⟩
    | some a =>
      rw [e] at this
      obtain ⟨s, hs, _⟩ := (h.reach i).sim lay
      rcases hs.stack_step this.2 (hn i hi a e) with ⟨h1, h2⟩ | h1
      · refine .inl ⟨h1, ?_⟩
        rintro ⟨b, hb⟩
        rw [e] at hb; cases hb
        exact h2 ⟨b, rfl⟩
      · exact .inr h1
  obtain ⟨m, hm, hc⟩ := settle (w := fun i => callsW (stackOf (σ i) t)) (n := n) (fun i hi => by
    rcases one i hi with ⟨h1, _⟩ | h1
    · rw [h1]; exact Nat.le_refl _
    · omega)
  have same : ∀ i, m ≤ i → stackOf (σ (i + 1)) t = stackOf (σ i) t ∧ ¬ RunsAt α t i := by
    intro i hi
    rcases one i (by omega) with h1 | h1
    · exact h1
    · have := hc i hi; have := hc (i + 1) (by omega); omega
  have const : ∀ i, m ≤ i → stackOf (σ i) t = stackOf (σ m) t := by
    intro i hi
    induction hi with
    | refl => rfl
    | @step i hi ih => rw [(same i hi).1, ih]
  cases hst : stackOf (σ m) t with
  | nil =>
    left
    intro i
    exact ⟨max i m, Nat.le_max_left _ _, by rw [Idle, const _ (Nat.le_max_right _ _), hst]⟩
  | cons c cs =>
    right
    have hno : ¬ ∀ i, ∃ j, i ≤ j ∧ Enabled cfg t (σ j) := by
      intro he
      obtain ⟨j, h1, h2⟩ := hf t he m
      exact (same j h1).2 h2
    simp only [Classical.not_forall, not_exists, not_and] at hno
    obtain ⟨k, hk⟩ := hno
    have wait : ∀ i, k ≤ i → m ≤ i → ((σ i).mem.lock (cfg.lockOf c.call.pool)).isSome = true ∧ locksOf c.frame = [] := by
      intro i h1 h2
      obtain ⟨s, hs, hr⟩ := (h.reach i).sim lay
      have hget : (σ i).threads[t]? = some (c :: cs) := stack_get (by rw [const i h2, hst])
      rcases hs.step_or_wait lay hr hget with hw | hw
      · obtain ⟨a, ha⟩ := fresh_exists (σ i)
        obtain ⟨S', hS'⟩ := hw a ha
        exact absurd ⟨a, S', hS'⟩ (hk i h1)
      · exact hw
    refine ⟨cfg.lockOf c.call.pool, max k m, c, cs, rfl, (wait _ (Nat.le_max_left _ _) (Nat.le_max_right _ _)).2, fun i hi => ⟨?_, ?_⟩⟩
    · rw [const i (by omega), hst]
    · exact (wait i (by omega) (by omega)).1

/-- If a thread is stuck, so is one that waits for a lock further up. -/
theorem stuck_next (lay : cfg.Layout) (h : Execution cfg σ α) (hf : StronglyFair cfg σ α) (hu : UserCodeEnds σ α) {rank : Nat → Nat}
    (hk : ∀ i, Ranked cfg rank (σ i)) {t : Tid} {l : Nat} (hst : Stuck cfg σ t l) : ∃ t' l', Stuck cfg σ t' l' ∧ rank l < rank l' := by
  obtain ⟨m, c, cs, _, _, hw⟩ := hst
  obtain ⟨u, hl⟩ := Option.isSome_iff_exists.mp (hw m (Nat.le_refl _)).2
  have held : ∀ i, m ≤ i → (σ i).mem.lock l = some u := by
    intro i hi
    induction hi with
    | refl => exact hl
    | @step i hi ih =>
      replace hi : m ≤ i := hi
      have := h.2 i
      cases e : α i with
      | none => rw [e] at this; rw [this]; exact ih
      | some a =>
        rw [e] at this
        obtain ⟨s, hs, _⟩ := (h.reach i).sim lay
        rcases hs.lock_step this.2 ih with h1 | h1
        · exact h1
        · have := (hw (i + 1) (by omega)).2
          rw [h1] at this; cases this
  have busy : ∀ i, m ≤ i → ∃ d ∈ stackOf (σ i) u, l ∈ locksOf d.frame := by
    intro i hi
    obtain ⟨s, hs, _⟩ := (h.reach i).sim lay
    obtain ⟨ds, h1, d, h2, h3⟩ := hs.lock_of (held i hi)
    exact ⟨d, by rw [stackOf, h1]; exact h2, h3⟩
  have never : ¬ ∀ i, ∃ j, i ≤ j ∧ Idle (σ j) u := by
    intro hi
    obtain ⟨j, h1, h2⟩ := hi m
    obtain ⟨d, h3, _⟩ := busy j h1
    rw [h2] at h3; cases h3
  obtain ⟨l', hst'⟩ : ∃ l', Stuck cfg σ u l' := by
    rcases hu u with h1 | ⟨n, h1⟩
    · exact absurd h1 never
    · rcases idle_or_stuck lay h hf h1 with h2 | h2
      · exact absurd h2 never
      · exact h2
  refine ⟨u, l', hst', ?_⟩
  obtain ⟨m', c', cs', rfl, hno, hw'⟩ := hst'
  obtain ⟨d, h1, h2⟩ := busy (max m m') (Nat.le_max_left _ _)
  have h3 := (hw' (max m m') (Nat.le_max_right _ _)).1
  rw [h3] at h1
  rcases List.mem_cons.mp h1 with rfl | h1
  · rw [hno] at h2; cases h2
  · exact (List.pairwise_cons.mp (hk _ _ (List.mem_of_getElem? (stack_get h3)))).1 d h1 l h2

/-- No thread is stuck if the locks that threads are stuck at are not arbitrarily high. -/
theorem not_stuck (lay : cfg.Layout) (h : Execution cfg σ α) (hf : StronglyFair cfg σ α) (hu : UserCodeEnds σ α) {rank : Nat → Nat}
    (hk : ∀ i, Ranked cfg rank (σ i)) {B : Nat} (hB : ∀ t l, Stuck cfg σ t l → rank l ≤ B) (t : Tid) (l : Nat) : ¬ Stuck cfg σ t l := by
  have key : ∀ n t l, B < rank l + n → ¬ Stuck cfg σ t l := by
    intro n
    induction n with
    | zero => intro t l hn hst; have := hB t l hst; omega
    | succ n ih =>
      intro t l hn hst
      obtain ⟨t', l', h1, h2⟩ := stuck_next lay h hf hu hk hst
      exact ih t' l' (by omega) h1
  exact key (B + 1) t l (by omega)

omit [DecidableEq K] [BEq V] [Hashable V] [EquivBEq V] [LawfulHashable V] in
theorem stuck_unique {t : Tid} {l l' : Nat} (h : Stuck cfg σ t l) (h' : Stuck cfg σ t l') : l = l' := by
  obtain ⟨m, c, cs, rfl, _, hw⟩ := h
  obtain ⟨m', c', cs', rfl, _, hw'⟩ := h'
  have := (hw (max m m') (Nat.le_max_left _ _)).1
  rw [(hw' (max m m') (Nat.le_max_right _ _)).1] at this
  cases this; rfl

omit [DecidableEq K] [BEq V] [Hashable V] [EquivBEq V] [LawfulHashable V] in
/-- With finitely many threads there is a bound. -/
theorem stuck_bound {n : Nat} (hn : ∀ i, (σ i).threads.length ≤ n) (rank : Nat → Nat) : ∃ B, ∀ t l, Stuck cfg σ t l → rank l ≤ B := by
  have key : ∀ n, ∃ B, ∀ t l, t < n → Stuck cfg σ t l → rank l ≤ B := by
    intro n
    induction n with
    | zero => exact ⟨0, fun t l ht => absurd ht (Nat.not_lt_zero _)⟩
    | succ n ih =>
      obtain ⟨B, hB⟩ := ih
      by_cases hs : ∃ l, Stuck cfg σ n l
      · obtain ⟨l, hl⟩ := hs
        refine ⟨max B (rank l), fun t l' ht h => ?_⟩
        rcases Nat.lt_succ_iff_lt_or_eq.mp ht with ht | rfl
        · have := hB t l' ht h; omega
        · rw [stuck_unique h hl]; omega
      · refine ⟨B, fun t l' ht h => ?_⟩
        rcases Nat.lt_succ_iff_lt_or_eq.mp ht with ht | rfl
        · exact hB t l' ht h
        · exact absurd ⟨l', h⟩ hs
  obtain ⟨B, hB⟩ := key n
  refine ⟨B, fun t l h => hB t l ?_ h⟩
  obtain ⟨m, c, cs, _, _, hw⟩ := h
  have := stack_get (hw m (Nat.le_refl _)).1
  exact Nat.lt_of_lt_of_le (List.getElem?_eq_some_iff.mp this).1 (hn m)

/-- Every thread becomes idle again and again. -/
theorem fair_idle (lay : cfg.Layout) (h : Execution cfg σ α) (hf : StronglyFair cfg σ α) (hu : UserCodeEnds σ α) {rank : Nat → Nat}
    (hk : ∀ i, Ranked cfg rank (σ i)) {B : Nat} (hB : ∀ t l, Stuck cfg σ t l → rank l ≤ B) (t : Tid) (i : Nat) :
    ∃ j, i ≤ j ∧ Idle (σ j) t := by
  rcases hu t with h1 | ⟨n, h1⟩
  · exact h1 i
  · rcases idle_or_stuck lay h hf h1 with h2 | ⟨l, h2⟩
    · exact h2 i
    · exact absurd h2 (not_stuck lay h hf hu hk hB t l)

end Src.PoolCode
