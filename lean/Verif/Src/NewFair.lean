import Verif.Src.NewMain
import Verif.Src.PoolFair
/-
Infinite executions of the code of `NewIntern`, with calls inside calls, under a fair scheduler (C87): vocabulary and proof.
-/
namespace Src.NewCode
open Arc (Res)
open Pool (Tid Ptr Query Ret Obj Entry)

variable {K V : Type}

/-- The calls that thread `t` is executing, innermost first; none if there is no such thread yet. -/
def stackOf (S : State K V) (t : Tid) : List (Running K V) := S.threads[t]?.getD []

/-- Thread `t` is between two calls of clients. -/
def Idle (S : State K V) (t : Tid) : Prop := stackOf S t = []

/-- Thread `t` takes a step of its innermost function at instant `i`. -/
def RunsAt (α : Nat → Option (Act K V)) (t : Tid) (i : Nat) : Prop := ∃ a, α i = some (.run t a)

/-- Thread `t` starts a function. -/
def Act.StartsOn (t : Tid) : Act K V → Prop
  | .call u _ _ _ => u = t
  | _ => False

/-- User code comes to an end: there is no call of a client that makes infinitely many calls inside itself. A thread becomes idle again
and again, or it starts finitely many functions. -/
def UserCodeEnds (σ : Nat → State K V) (α : Nat → Option (Act K V)) : Prop :=
  ∀ t, (∀ i, ∃ j, i ≤ j ∧ Idle (σ j) t) ∨ ∃ i, ∀ j, i ≤ j → ∀ a, α j = some a → ¬ a.StartsOn t

section
variable [DecidableEq K] [BEq V] [Hashable V]

/-- An infinite execution from the start of the process: at every instant some action happens, or nothing does. -/
def Execution (cfg : Cfg K V) (σ : Nat → State K V) (α : Nat → Option (Act K V)) : Prop :=
  σ 0 = init ∧ ∀ i, match α i with
    | none => σ (i + 1) = σ i
    | some a => a.Lawful ∧ step cfg (σ i) a = .ok (σ (i + 1))

/-- Thread `t` can take a step of the innermost function that it is executing. -/
def Enabled (cfg : Cfg K V) (t : Tid) (S : State K V) : Prop := ∃ a S', step cfg S (.run t a) = .ok S'

/-- A thread that can step again and again does step again and again: the operating system runs every thread, and no thread loses the
competition for a mutex for ever. -/
def StronglyFair (cfg : Cfg K V) (σ : Nat → State K V) (α : Nat → Option (Act K V)) : Prop :=
  ∀ t, (∀ i, ∃ j, i ≤ j ∧ Enabled cfg t (σ j)) → ∀ i, ∃ j, i ≤ j ∧ RunsAt α t j

end

/-! ### One step -/

variable {cfg : Cfg K V} {N N' : State K V}

theorem stack_set {l : List (List (Running K V))} {u : Tid} {x y : List (Running K V)} (h : l[u]? = some x) (t : Tid) :
    (l.set u y)[t]?.getD [] = if t = u then y else l[t]?.getD [] := by
  have hu : u < l.length := (List.getElem?_eq_some_iff.mp h).1
  rw [List.getElem?_set]
  by_cases e : u = t
  · subst e; simp [hu]
  · rw [if_neg e, if_neg (fun h => e h.symm)]

theorem stack_spawn (l : List (List (Running K V))) (t : Tid) : (l ++ [[]])[t]?.getD [] = l[t]?.getD [] := by
  by_cases hl : t < l.length
  · rw [List.getElem?_append_left hl]
  · rw [List.getElem?_append_right (Nat.not_lt.mp hl), List.getElem?_eq_none (Nat.not_lt.mp hl)]
    cases hd : t - l.length <;> simp

theorem callsW_cons (c : Running K V) (cs : List (Running K V)) : callsW (c :: cs) = frameW c.frame + callsW cs := by
  simp [callsW]

theorem stack_get {t : Tid} {c : Running K V} {cs : List (Running K V)} (h : stackOf N t = c :: cs) : N.threads[t]? = some (c :: cs) := by
  simp only [stackOf] at h
  cases e : N.threads[t]? with
  | none => rw [e] at h; cases h
  | some x => rw [e] at h; rw [← h]; rfl

/-- One thread has a lighter innermost function, or one less. -/
theorem stack_frame {u : Tid} {c : Running K V} {cs : List (Running K V)} (ht : N.threads[u]? = some (c :: cs)) {f : Fr K V} (hf : frameW f < frameW c.frame)
    (e : N'.threads = N.threads.set u ({ c with frame := f } :: cs)) (t : Tid) :
    if t = u then callsW (stackOf N' t) < callsW (stackOf N t) else stackOf N' t = stackOf N t := by
  have hS : stackOf N u = c :: cs := by rw [stackOf, ht]; rfl
  split
  · rename_i e'; subst e'
    rw [hS, stackOf, e, stack_set ht, if_pos rfl, callsW_cons, callsW_cons]
    exact Nat.add_lt_add_right hf _
  · rename_i e'
    rw [stackOf, e, stack_set ht, if_neg e']; rfl

theorem stack_pop {u : Tid} {c : Running K V} {cs : List (Running K V)} (ht : N.threads[u]? = some (c :: cs)) (e : N'.threads = N.threads.set u cs) (t : Tid) :
    if t = u then callsW (stackOf N' t) < callsW (stackOf N t) else stackOf N' t = stackOf N t := by
  have hS : stackOf N u = c :: cs := by rw [stackOf, ht]; rfl
  split
  · rename_i e'; subst e'
    rw [hS, stackOf, e, stack_set ht, if_pos rfl, callsW_cons, frameW]
    omega
  · rename_i e'
    rw [stackOf, e, stack_set ht, if_neg e']; rfl

variable [DecidableEq K] [BEq V] [Hashable V]

theorem stack_panic {u : Tid} (hs : step cfg N (.panic u) = .ok N') (t : Tid) :
    if t = u then callsW (stackOf N' t) < callsW (stackOf N t) else stackOf N' t = stackOf N t := by
  simp only [step] at hs
  split at hs
  · rename_i c cs ht
    split at hs
    · simp only [unwind] at hs
      split at hs <;> cases hs
      rename_i he
      exact stack_frame ht (panic_weight he) rfl t
    · cases hs
  · cases hs

/-- Starting a function. -/
theorem stack_start {act : Act K V} (hs : step cfg N act = .ok N') {t : Tid} (ha : act.StartsOn t) : ∃ d, stackOf N' t = d :: stackOf N t := by
  cases act with
  | call u o byRef unw =>
    cases ha
    simp only [step] at hs
    repeat' split at hs
    all_goals cases hs
    rename_i hc _ _
    simp only [stackOf]
    rw [stack_set hc, if_pos rfl, hc]
    exact ⟨_, rfl⟩
  | _ => cases ha

/-! ### What becomes of a call -/

/-- Thread `t` is executing call `j`. -/
def Open (N : State K V) (t : Tid) (j : Nat) (o : Pool.Op K V) : Prop := ∃ c ∈ stackOf N t, c.id = j ∧ c.op = o

/-- Call `j` is over. -/
def Over (N : State K V) (j : Nat) (o : Pool.Op K V) : Prop := (∃ r, Returned N ⟨j, o, r⟩) ∨ Panicked N j o

section
variable [EquivBEq V] [LawfulHashable V] {σ : Nat → State K V} {α : Nat → Option (Act K V)}

theorem Reach.stack_run (lay : cfg.Layout) (h : Reach cfg N) {u : Tid} {a : Nat} (hs : NewCode.step cfg N (.run u a) = .ok N') (t : Tid) :
    if t = u then callsW (stackOf N' t) < callsW (stackOf N t) else stackOf N' t = stackOf N t := by
  obtain ⟨S, num, Ls, D, h1, h2⟩ := h.nsim lay
  simp only [NewCode.step] at hs
  split at hs
  · rename_i c cs ht
    obtain ⟨ps, L, hps, hL, hst⟩ := h1.stacks u _ ht
    have hp : PlainFr c.frame := by
      cases hst with
      | pre g _ _ _ _ => exact g.plain
      | post _ g _ _ _ _ _ => exact g.plain
    split at hs
    · simp only [unwind] at hs
      split at hs <;> cases hs
      rename_i he
      exact stack_frame ht (panic_weight he) rfl t
    · split at hs <;> cases hs
      · exact stack_pop ht rfl t
      · rename_i he
        exact stack_frame ht (run_weight hp he) rfl t
  · cases hs

/-- An action that starts no function on thread `t` leaves its calls alone, or makes them shorter. -/
theorem Reach.stack_step (lay : cfg.Layout) (h : Reach cfg N) {act : Act K V} (hs : NewCode.step cfg N act = .ok N') {t : Tid} (hn : ¬ act.StartsOn t) :
    stackOf N' t = stackOf N t ∧ (¬ ∃ a, act = .run t a) ∨ callsW (stackOf N' t) < callsW (stackOf N t) := by
  cases act with
  | spawn =>
    cases hs
    exact .inl ⟨stack_spawn _ t, by rintro ⟨a, e⟩; cases e⟩
  | call u o byRef unw =>
    refine .inl ⟨?_, by rintro ⟨a, e⟩; cases e⟩
    have hne : t ≠ u := fun e => hn e.symm
    simp only [NewCode.step] at hs
    repeat' split at hs
    all_goals cases hs
    rename_i hc _ _
    rw [stackOf, stack_set hc, if_neg hne]; rfl
  | run u a =>
    have := h.stack_run lay hs t
    split at this
    · exact .inr this
    · rename_i e
      exact .inl ⟨this, by rintro ⟨b, e'⟩; cases e'; exact e rfl⟩
  | panic u =>
    have := stack_panic hs t
    split at this
    · exact .inr this
    · exact .inl ⟨this, by rintro ⟨b, e'⟩; cases e'⟩

/-- The mutex of a type passes from one thread to another only by being released. -/
theorem Reach.lock_step (lay : cfg.Layout) (h : Reach cfg N) {act : Act K V} (hs : NewCode.step cfg N act = .ok N') {k : K} {u : Tid}
    (hl : (tableOf cfg N k).bind (·.owner) = some u) : (tableOf cfg N' k).bind (·.owner) = some u ∨ (tableOf cfg N' k).bind (·.owner) = none := by
  rcases (h.kind lay hs).cm with e | ⟨t, c, cs, f, ht, hf, e1, e2, hc⟩
  · rw [show tableOf cfg N' k = tableOf cfg N k from firstCell_of e]; exact .inl hl
  · cases hd : tableOf cfg N k with
    | none => rw [hd] at hl; cases hl
    | some d =>
      rw [hd] at hl
      simp only [Option.bind_some] at hl
      rcases hc.first lay hd with g | ⟨_, d', g, hb⟩
      · rw [show tableOf cfg N' k = some d from g]; exact .inl hl
      · rw [show tableOf cfg N' k = some d' from g]
        simp only [Option.bind_some]
        cases hb with
        | lock h1 _ => rw [hl] at h1; cases h1
        | insert h1 => exact .inl hl
        | unlock h1 => exact .inr rfl

/-- A call goes on, or it is over. -/
theorem Reach.open_step (lay : cfg.Layout) (h : Reach cfg N) {act : Act K V} (hs : NewCode.step cfg N act = .ok N') {t : Tid} {j : Nat} {o : Pool.Op K V}
    (ho : Open N t j o) : Open N' t j o ∨ Over N' j o := by
  have same : stackOf N' t = stackOf N t → Open N' t j o := fun e => by rw [Open, e]; exact ho
  have hsh := step_shape hs
  obtain ⟨c0, hc0, hid, hop⟩ := ho
  cases act with
  | run u a =>
    simp only [NewCode.step] at hs
    cases ht : N.threads[u]? with
    | none => rw [ht] at hs; cases hs
    | some l =>
      cases l with
      | nil => rw [ht] at hs; cases hs
      | cons c cs =>
        have frame : ∀ {f : Fr K V} {N1 : State K V}, N1.threads = N.threads.set u ({ c with frame := f } :: cs) → Open N1 t j o := by
          intro f N1 e
          rw [Open, stackOf, e, stack_set ht]
          split
          · rename_i e'; subst e'
            rw [stackOf, ht] at hc0
            rcases List.mem_cons.mp hc0 with rfl | hc0
            · exact ⟨_, List.mem_cons_self, hid, hop⟩
            · exact ⟨_, List.mem_cons_of_mem _ hc0, hid, hop⟩
          · exact ⟨_, hc0, hid, hop⟩
        have hs0 : NewCode.step cfg N (.run u a) = .ok N' := by simp only [NewCode.step]; exact hs
        rw [ht] at hs
        simp only at hs
        split at hs
        · simp only [unwind] at hs
          split at hs <;> cases hs
          exact .inl (frame rfl)
        · split at hs
          · rename_i m r _
            by_cases e : t = u
            · subst e
              rw [stackOf, ht] at hc0
              rcases List.mem_cons.mp hc0 with rfl | hc0
              · right
                by_cases hp : c0.frame.panicking = true
                · right
                  cases hs
                  simp only [Panicked, ends, hp, if_true, hid, hop]
                  exact List.mem_cons_self
                · left
                  obtain ⟨r', hr'⟩ := h.returns lay ht hs0 (by cases hs; exact Pool.getElem?_set_self' ht) (by simpa using hp)
                  exact ⟨r', by rw [Returned, hr', ← hid, ← hop]; exact List.mem_cons_self⟩
              · left
                cases hs
                exact ⟨_, by rw [stackOf, stack_set ht, if_pos rfl]; exact hc0, hid, hop⟩
            · left
              cases hs
              exact ⟨_, by rw [stackOf, stack_set ht, if_neg e]; exact hc0, hid, hop⟩
          · cases hs; exact .inl (frame rfl)
          · cases hs
          · cases hs
  | spawn => cases hs; exact .inl (same (stack_spawn _ t))
  | call u o' byRef unw =>
    left
    simp only [NewCode.step] at hs
    repeat' split at hs
    all_goals cases hs
    rename_i hc _ _
    rw [Open, stackOf, stack_set hc]
    split
    · rename_i e; subst e
      rw [stackOf, hc] at hc0
      exact ⟨_, List.mem_cons_of_mem _ hc0, hid, hop⟩
    · exact ⟨_, hc0, hid, hop⟩
  | panic u =>
    left
    simp only [NewCode.step] at hs
    split at hs
    · rename_i c cs ht
      split at hs
      · simp only [unwind] at hs
        split at hs <;> cases hs
        rw [Open, stackOf, stack_set ht]
        split
        · rename_i e'; subst e'
          rw [stackOf, ht] at hc0
          rcases List.mem_cons.mp hc0 with rfl | hc0
          · exact ⟨_, List.mem_cons_self, hid, hop⟩
          · exact ⟨_, List.mem_cons_of_mem _ hc0, hid, hop⟩
        · exact ⟨_, hc0, hid, hop⟩
      · cases hs
    · cases hs

omit [DecidableEq K] [BEq V] [Hashable V] [EquivBEq V] [LawfulHashable V] in
theorem Shape.hist (h : Shape N N') : ∃ l, N'.hist = l ++ N.hist := by
  cases h with
  | spawn _ h _ => exact ⟨[], h⟩
  | call _ _ _ _ h _ => exact ⟨[_], h⟩
  | frame _ _ h _ => exact ⟨[], h⟩
  | pop _ _ h _ => exact ⟨_, h⟩

omit [DecidableEq K] [BEq V] [Hashable V] [EquivBEq V] [LawfulHashable V] in
theorem Over.step (hsh : Shape N N') {j : Nat} {o : Pool.Op K V} (h : Over N j o) : Over N' j o := by
  obtain ⟨l, e⟩ := hsh.hist
  rcases h with ⟨r, h⟩ | h
  · exact .inl ⟨r, by rw [Returned, e]; exact List.mem_append_right _ h⟩
  · exact .inr (by rw [Panicked, e]; exact List.mem_append_right _ h)

/-- Every call that was made is going on, or it is over. -/
theorem Reach.open_or_over (lay : cfg.Layout) (h : Reach cfg N) {j : Nat} {o : Pool.Op K V} (hc : Called N j o) : (∃ t, Open N t j o) ∨ Over N j o := by
  induction h with
  | init => cases hc
  | @step N N' act hr hl hs ih =>
    have old : Called N j o → (∃ t, Open N' t j o) ∨ Over N' j o := by
      intro hc
      rcases ih hc with ⟨t, ht⟩ | ho
      · rcases hr.open_step lay hs ht with g | g
        · exact .inl ⟨t, g⟩
        · exact .inr g
      · exact .inr (ho.step (step_shape hs))
    cases step_shape hs with
    | spawn _ e _ => exact old (by rw [Called, e] at hc; exact hc)
    | call ht _ _ e1 e2 _ =>
      rw [Called, e2] at hc
      rcases List.mem_cons.mp hc with e | hc
      · cases e
        exact .inl ⟨_, _, by rw [stackOf, e1, stack_set ht, if_pos rfl]; exact List.mem_cons_self, rfl, rfl⟩
      · exact old hc
    | frame _ _ e _ => exact old (by rw [Called, e] at hc; exact hc)
    | pop _ _ e _ =>
      rw [Called, e] at hc
      rcases List.mem_append.mp hc with hc | hc
      · exact absurd hc mem_ends
      · exact old hc

/-! ### Infinite executions -/

omit [EquivBEq V] [LawfulHashable V] in
theorem Execution.reach (h : Execution cfg σ α) (i : Nat) : Reach cfg (σ i) := by
  induction i with
  | zero => rw [h.1]; exact .init
  | succ i ih =>
    have := h.2 i
    cases e : α i with
    | none => rw [e] at this; rw [this]; exact ih
    | some a => rw [e] at this; exact .step ih this.1 this.2

omit [EquivBEq V] [LawfulHashable V] in
theorem Execution.later (h : Execution cfg σ α) {i j : Nat} (hij : i ≤ j) : Later cfg (σ i) (σ j) := by
  induction hij with
  | refl => exact .refl _
  | @step j _ ih =>
    have := h.2 j
    cases e : α j with
    | none => rw [e] at this; rw [this]; exact ih
    | some a => rw [e] at this; exact .step ih this.1 this.2

theorem Execution.over (lay : cfg.Layout) (h : Execution cfg σ α) {t : Tid} {i i' : Nat} (hi : i ≤ i') {j : Nat} {o : Pool.Op K V} (ho : Open (σ i) t j o)
    (hid : Idle (σ i') t) : Over (σ i') j o := by
  have key : Open (σ i') t j o ∨ Over (σ i') j o := by
    clear hid
    induction hi with
    | refl => exact .inl ho
    | @step i' _ ih =>
      have := h.2 i'
      cases e : α i' with
      | none => rw [e] at this; rw [this]; exact ih
      | some a =>
        rw [e] at this
        rcases ih with g | g
        · exact (h.reach i').open_step lay this.2 g
        · exact .inr (g.step (step_shape this.2))
  rcases key with ⟨c, hc, _⟩ | g
  · rw [hid] at hc; cases hc
  · exact g

/-- From instant `m` on thread `t` waits for the mutex of type `k`, in vain. -/
def Stuck (cfg : Cfg K V) (σ : Nat → State K V) (t : Tid) (k : K) : Prop :=
  ∃ m c cs, c.op.pool = k ∧ locksOf c.frame = [] ∧
    ∀ i, m ≤ i → stackOf (σ i) t = c :: cs ∧ ((tableOf cfg (σ i) k).bind (·.owner)).isSome = true

/-- A thread that starts finitely many functions becomes idle, or is stuck. -/
theorem idle_or_stuck (lay : cfg.Layout) (h : Execution cfg σ α) (hf : StronglyFair cfg σ α) {t : Tid} {n : Nat}
    (hn : ∀ j, n ≤ j → ∀ a, α j = some a → ¬ a.StartsOn t) : (∀ i, ∃ j, i ≤ j ∧ Idle (σ j) t) ∨ ∃ k, Stuck cfg σ t k := by
  have one : ∀ i, n ≤ i → stackOf (σ (i + 1)) t = stackOf (σ i) t ∧ ¬ RunsAt α t i ∨
      callsW (stackOf (σ (i + 1)) t) < callsW (stackOf (σ i) t) := by
    intro i hi
    have := h.2 i
    cases e : α i with
    | none =>
      rw [e] at this; rw [this]
      exact .inl ⟨rfl, by rintro ⟨a, ha⟩; rw [e] at ha; cases ha⟩
    | some a =>
      rw [e] at this
      rcases (h.reach i).stack_step lay this.2 (hn i hi a e) with ⟨h1, h2⟩ | h1
      · refine .inl ⟨h1, ?_⟩
        rintro ⟨b, hb⟩
        rw [e] at hb; cases hb
        exact h2 ⟨b, rfl⟩
      · exact .inr h1
  obtain ⟨m, hm, hc⟩ := PoolCode.settle (w := fun i => callsW (stackOf (σ i) t)) (n := n) (fun i hi => by
    rcases one i hi with ⟨h1, _⟩ | h1
    · rw [h1]; exact Nat.le_refl _
    · omega)
  have same : ∀ i, m ≤ i → stackOf (σ (i + 1)) t = stackOf (σ i) t ∧ ¬ RunsAt α t i := by
    intro i hi
    rcases one i (by omega) with h1 | h1
    · exact h1
    · have := hc i hi; have := hc (i + 1) (by omega); omega
  have const : ∀ i, m ≤ i → stackOf (σ i) t = stackOf (σ m) t := by
    intro i hi
    induction hi with
    | refl => rfl
    | @step i hi ih => rw [(same i hi).1, ih]
  cases hst : stackOf (σ m) t with
  | nil =>
    left
    intro i
    exact ⟨max i m, Nat.le_max_left _ _, by rw [Idle, const _ (Nat.le_max_right _ _), hst]⟩
  | cons c cs =>
    right
    have hno : ¬ ∀ i, ∃ j, i ≤ j ∧ Enabled cfg t (σ j) := by
      intro he
      obtain ⟨j, h1, h2⟩ := hf t he m
      exact (same j h1).2 h2
    simp only [Classical.not_forall, not_exists, not_and] at hno
    obtain ⟨k, hk⟩ := hno
    have wait : ∀ i, k ≤ i → m ≤ i → ((tableOf cfg (σ i) c.op.pool).bind (·.owner)).isSome = true ∧ locksOf c.frame = [] := by
      intro i h1 h2
      have hget : (σ i).threads[t]? = some (c :: cs) := stack_get (by rw [const i h2, hst])
      rcases (h.reach i).step_or_wait lay hget with hw | ⟨⟨d, hw, hd⟩, hl⟩
      · exact absurd hw (hk i h1)
      · exact ⟨by rw [hw]; exact hd, hl⟩
    refine ⟨c.op.pool, max k m, c, cs, rfl, (wait _ (Nat.le_max_left _ _) (Nat.le_max_right _ _)).2, fun i hi => ⟨?_, ?_⟩⟩
    · rw [const i (by omega), hst]
    · exact (wait i (by omega) (by omega)).1

/-- If a thread is stuck, so is one that waits for a mutex further up. -/
theorem stuck_next (lay : cfg.Layout) (h : Execution cfg σ α) (hf : StronglyFair cfg σ α) (hu : UserCodeEnds σ α) {rank : K → Nat}
    (hk : ∀ i, Ranked rank (σ i)) {t : Tid} {k : K} (hst : Stuck cfg σ t k) : ∃ t' k', Stuck cfg σ t' k' ∧ rank k < rank k' := by
  obtain ⟨m, c, cs, _, _, hw⟩ := hst
  obtain ⟨u, hl⟩ := Option.isSome_iff_exists.mp (hw m (Nat.le_refl _)).2
  have held : ∀ i, m ≤ i → (tableOf cfg (σ i) k).bind (·.owner) = some u := by
    intro i hi
    induction hi with
    | refl => exact hl
    | @step i hi ih =>
      replace hi : m ≤ i := hi
      have := h.2 i
      cases e : α i with
      | none => rw [e] at this; rw [this]; exact ih
      | some a =>
        rw [e] at this
        rcases (h.reach i).lock_step lay this.2 ih with h1 | h1
        · exact h1
        · have := (hw (i + 1) (by omega)).2
          rw [h1] at this; cases this
  have busy : ∀ i, m ≤ i → ∃ d ∈ stackOf (σ i) u, locksOf d.frame ≠ [] ∧ d.op.pool = k := by
    intro i hi
    have g := held i hi
    cases hd : tableOf cfg (σ i) k with
    | none => rw [hd] at g; cases g
    | some d =>
      rw [hd] at g
      obtain ⟨pos, hfst, hcell⟩ := firstCell_first hd
      obtain ⟨ds, hds, c', hc', hlk, _, hty⟩ := (h.reach i).lock_of lay hcell g
      obtain ⟨d1, k1, k2, k3⟩ := hfst.cell
      rw [hcell] at k1; cases k1
      exact ⟨c', by rw [stackOf, hds]; exact hc', List.ne_nil_of_mem hlk, lay.types _ _ (by rw [hty, k2])⟩
  have never : ¬ ∀ i, ∃ j, i ≤ j ∧ Idle (σ j) u := by
    intro hi
    obtain ⟨j, h1, h2⟩ := hi m
    obtain ⟨d, h3, _⟩ := busy j h1
    rw [h2] at h3; cases h3
  obtain ⟨k', hst'⟩ : ∃ k', Stuck cfg σ u k' := by
    rcases hu u with h1 | ⟨n, h1⟩
    · exact absurd h1 never
    · rcases idle_or_stuck lay h hf h1 with h2 | h2
      · exact absurd h2 never
      · exact h2
  refine ⟨u, k', hst', ?_⟩
  obtain ⟨m', c', cs', rfl, hno, hw'⟩ := hst'
  obtain ⟨d, h1, h2, h2'⟩ := busy (max m m') (Nat.le_max_left _ _)
  have h3 := (hw' (max m m') (Nat.le_max_right _ _)).1
  rw [h3] at h1
  rcases List.mem_cons.mp h1 with rfl | h1
  · exact absurd hno h2
  · rw [← h2']
    exact (List.pairwise_cons.mp (hk _ _ (List.mem_of_getElem? (stack_get h3)))).1 d h1 h2

/-- No thread is stuck if the types that threads are stuck at are not arbitrarily high. -/
theorem not_stuck (lay : cfg.Layout) (h : Execution cfg σ α) (hf : StronglyFair cfg σ α) (hu : UserCodeEnds σ α) {rank : K → Nat}
    (hk : ∀ i, Ranked rank (σ i)) {B : Nat} (hB : ∀ t k, Stuck cfg σ t k → rank k ≤ B) (t : Tid) (k : K) : ¬ Stuck cfg σ t k := by
  have key : ∀ n t k, B < rank k + n → ¬ Stuck cfg σ t k := by
    intro n
    induction n with
    | zero => intro t k hn hst; have := hB t k hst; omega
    | succ n ih =>
      intro t k hn hst
      obtain ⟨t', k', h1, h2⟩ := stuck_next lay h hf hu hk hst
      exact ih t' k' (by omega) h1
  exact key (B + 1) t k (by omega)

omit [DecidableEq K] [BEq V] [Hashable V] [EquivBEq V] [LawfulHashable V] in
theorem stuck_unique {t : Tid} {k k' : K} (h : Stuck cfg σ t k) (h' : Stuck cfg σ t k') : k = k' := by
  obtain ⟨m, c, cs, rfl, _, hw⟩ := h
  obtain ⟨m', c', cs', rfl, _, hw'⟩ := h'
  have := (hw (max m m') (Nat.le_max_left _ _)).1
  rw [(hw' (max m m') (Nat.le_max_right _ _)).1] at this
  cases this; rfl

omit [DecidableEq K] [BEq V] [Hashable V] [EquivBEq V] [LawfulHashable V] in
/-- With finitely many threads there is a bound. -/
theorem stuck_bound {n : Nat} (hn : ∀ i, (σ i).threads.length ≤ n) (rank : K → Nat) : ∃ B, ∀ t k, Stuck cfg σ t k → rank k ≤ B := by
  have key : ∀ n, ∃ B, ∀ t k, t < n → Stuck cfg σ t k → rank k ≤ B := by
    intro n
    induction n with
    | zero => exact ⟨0, fun t l ht => absurd ht (Nat.not_lt_zero _)⟩
    | succ n ih =>
      obtain ⟨B, hB⟩ := ih
      by_cases hs : ∃ l, Stuck cfg σ n l
      · obtain ⟨l, hl⟩ := hs
        refine ⟨max B (rank l), fun t l' ht h => ?_⟩
        rcases Nat.lt_succ_iff_lt_or_eq.mp ht with ht | rfl
        · have := hB t l' ht h; omega
        · rw [stuck_unique h hl]; omega
      · refine ⟨B, fun t l' ht h => ?_⟩
        rcases Nat.lt_succ_iff_lt_or_eq.mp ht with ht | rfl
        · exact hB t l' ht h
        · exact absurd ⟨l', h⟩ hs
  obtain ⟨B, hB⟩ := key n
  refine ⟨B, fun t l h => hB t l ?_ h⟩
  obtain ⟨m, c, cs, _, _, hw⟩ := h
  have := stack_get (hw m (Nat.le_refl _)).1
  exact Nat.lt_of_lt_of_le (List.getElem?_eq_some_iff.mp this).1 (hn m)

/-- Every thread becomes idle again and again. -/
theorem fair_idle (lay : cfg.Layout) (h : Execution cfg σ α) (hf : StronglyFair cfg σ α) (hu : UserCodeEnds σ α) {rank : K → Nat}
    (hk : ∀ i, Ranked rank (σ i)) {B : Nat} (hB : ∀ t k, Stuck cfg σ t k → rank k ≤ B) (t : Tid) (i : Nat) :
    ∃ j, i ≤ j ∧ Idle (σ j) t := by
  rcases hu t with h1 | ⟨n, h1⟩
  · exact h1 i
  · rcases idle_or_stuck lay h hf h1 with h2 | ⟨l, h2⟩
    · exact h2 i
    · exact absurd h2 (not_stuck lay h hf hu hk hB t l)

/-- Every call ends. -/
theorem fair_over (lay : cfg.Layout) (h : Execution cfg σ α) (hidle : ∀ t i, ∃ j, i ≤ j ∧ Idle (σ j) t) {i j : Nat} {o : Pool.Op K V} (hc : Called (σ i) j o) :
    ∃ i', i ≤ i' ∧ Over (σ i') j o := by
  rcases (h.reach i).open_or_over lay hc with ⟨t, ht⟩ | ho
  · obtain ⟨i', h1, h2⟩ := hidle t i
    exact ⟨i', h1, h.over lay h1 ht h2⟩
  · exact ⟨i, Nat.le_refl _, ho⟩

end
end Src.NewCode
