import Verif.Src.PoolLasso
/-!
C85: with the functions of `Intern` and `Arena` as they are written, called also by user code inside other calls, no call waits for ever under
a fair scheduler. Vocabulary (`Execution`, `Idle`, `Enabled`, `RunsAt`, `StronglyFair`, `UserCodeEnds`) at the top of `Verif/Src/PoolFair.lean`,
`Ranked` in `Verif/Src/PoolSpec.lean`.
-/
namespace Src.PoolCode
open Arc (Res)
open Pool (Tid Ptr Query Ret Obj Cfg Entry)

section
variable {K V : Type} [DecidableEq K] [BEq V] [Hashable V] [EquivBEq V] [LawfulHashable V] {cfg : Cfg K V}
  {σ : Nat → State K V} {α : Nat → Option (Act K V)}

/-- C85 (a). In every infinite execution with finitely many threads, a fair scheduler and fair locks, in which calls inside calls respect a
hierarchy of locks and user code comes to an end, every call ends, however many calls all threads make meanwhile and wherever user code panics:
whatever thread `t` is executing at instant `i`, at some later instant it is idle. -/
theorem C85_starvation_free (lay : cfg.Layout) (h : Execution cfg σ α) (hf : StronglyFair cfg σ α) (hu : UserCodeEnds σ α)
    {rank : Nat → Nat} (hk : ∀ i, Ranked cfg rank (σ i)) {n : Nat} (hn : ∀ i, (σ i).threads.length ≤ n) (t : Tid) (i : Nat) :
    ∃ j, i ≤ j ∧ Idle (σ j) t := by
  obtain ⟨B, hB⟩ := stuck_bound (cfg := cfg) hn rank
  exact fair_idle lay h hf hu hk hB t i

/-- C85 (b). Also with infinitely many threads, if the hierarchy has finitely many levels. -/
theorem C85_finite_hierarchy (lay : cfg.Layout) (h : Execution cfg σ α) (hf : StronglyFair cfg σ α) (hu : UserCodeEnds σ α)
    {rank : Nat → Nat} (hk : ∀ i, Ranked cfg rank (σ i)) {B : Nat} (hB : ∀ l, rank l ≤ B) (t : Tid) (i : Nat) :
    ∃ j, i ≤ j ∧ Idle (σ j) t :=
  fair_idle lay h hf hu hk (fun _ l _ => hB l) t i

/-- C85 (c). If user code makes no calls, fairness is all that is needed. -/
theorem C85_flat (lay : cfg.Layout) (h : Execution cfg σ α) (hf : StronglyFair cfg σ α) (hc : ∀ i, ∀ cs ∈ (σ i).threads, cs.length ≤ 1)
    (t : Tid) (i : Nat) : ∃ j, i ≤ j ∧ Idle (σ j) t := by
  refine C85_finite_hierarchy lay h hf (fun t => ?_) (rank := fun _ => 0) (fun i => ranked_flat (hc i) _) (B := 0) (fun _ => Nat.le_refl _) t i
  by_cases hi : ∀ i, ∃ j, i ≤ j ∧ Idle (σ j) t
  · exact .inl hi
  · right
    simp only [Classical.not_forall, not_exists, not_and] at hi
    obtain ⟨i, hi⟩ := hi
    refine ⟨i, fun j hj a ha hs => ?_⟩
    have h1 := h.2 j
    rw [ha] at h1
    have h2 := hi j hj
    obtain ⟨d, hd⟩ := stack_start h1.2 hs
    cases hst : stackOf (σ j) t with
    | nil => exact h2 hst
    | cons c cs =>
      rw [hst] at hd
      have := hc (j + 1) _ (List.mem_of_getElem? (stack_get hd))
      simp at this

/-- C85 (d). The same if user code is called only by functions that hold no lock, such as destructors run by functions of arenas that are not
unwinding (C81): no hierarchy is needed. -/
theorem C85_unlocked (lay : cfg.Layout) (h : Execution cfg σ α) (hf : StronglyFair cfg σ α) (hu : UserCodeEnds σ α)
    (hl : ∀ i, ∀ cs ∈ (σ i).threads, ∀ c ∈ cs.tail, locksOf c.frame = []) (t : Tid) (i : Nat) : ∃ j, i ≤ j ∧ Idle (σ j) t :=
  C85_finite_hierarchy lay h hf hu (rank := fun _ => 0) (fun i => ranked_empty (hl i) _) (B := 0) (fun _ => Nat.le_refl _) t i

end

/-! ### Examples -/

open Pool.Demo (cfg)

/-- Two threads between calls. -/
def calm (n : Nat) (h : List (Event Nat Pool.Demo.Val)) : State Nat Pool.Demo.Val :=
  { mem := { heap := [], husks := [], table := fun _ => [], lock := fun _ => none, born := [], dead := [] }
    gone := [], threads := [[], []], next := n, hist := h }

/-- `Arena::intern_ref` on thread 0 takes its lock and calls `Hash`, which calls `Intern::num_objects_interned`; meanwhile thread 1 calls this, too,
and has to wait. The inner call returns, `Hash` panics, the outer call unwinds. Then thread 1 goes on. -/
def round : List Cmd := [.new 0 2 ⟨5, 2⟩ true] ++ runs 0 0 1 ++ [.len 0 0] ++ runs 0 0 1 ++ [.len 1 0] ++ runs 0 0 7 ++ [.panic 0] ++
  runs 0 0 8 ++ runs 1 0 8

/-- What clients have seen after `k` rounds. -/
def roundHist : Nat → List (Event Nat Pool.Demo.Val)
  | 0 => []
  | k + 1 => .ret ⟨3 * k + 2, .len 0, .num 0⟩ :: .ret ⟨3 * k + 1, .len 0, .num 0⟩ :: .call (3 * k + 2) (.len 0) ::
      .call (3 * k + 1) (.len 0) :: .call (3 * k) (.intern 2 (.ofVal ⟨5, 2⟩) ⟨5, 2⟩) :: roundHist k

theorem calm_locks (n : Nat) (h : List (Event Nat Pool.Demo.Val)) (l : Nat → Option Tid) (hl : ∀ i, l i = none) :
    { calm n h with mem := { (calm n h).mem with lock := l } } = calm n h := by
  have : l = fun _ => none := funext hl
  rw [this]; rfl

theorem round_step (n : Nat) (h : List (Event Nat Pool.Demo.Val)) : script (calm n h) round =
    some (calm (n + 3) (.ret ⟨n + 2, .len 0, .num 0⟩ :: .ret ⟨n + 1, .len 0, .num 0⟩ :: .call (n + 2) (.len 0) ::
      .call (n + 1) (.len 0) :: .call n (.intern 2 (.ofVal ⟨5, 2⟩) ⟨5, 2⟩) :: h)) := by
  rw [← calm_locks (n + 3) _ (fun j => if j = 7 then none else if j = 7 then some 1 else if j = 102 then none else if j = 7 then none else
    if j = 7 then some 0 else if j = 102 then some 0 else none) (fun i => by by_cases h1 : i = 7 <;> by_cases h2 : i = 102 <;> simp [h1, h2])]
  conv => lhs; cbv
  rfl

theorem round_loops : Loops [.spawn, .spawn] round (fun k => calm (3 * k) (roundHist k)) :=
  ⟨rfl, fun _ => round_step _ _⟩

/-- There are at most two threads. -/
def twoThreads (S : State Nat Pool.Demo.Val) : Bool := decide (S.threads.length ≤ 2)

/-- `Intern` above the arenas. -/
def internTop (l : Nat) : Nat := if l = 7 then 1 else 0

theorem round_check (n : Nat) (h : List (Event Nat Pool.Demo.Val)) : along (fun S => twoThreads S && rankedB internTop S) (calm n h) round = true := by
  cbv

theorem round_always (i : Nat) : (twoThreads (play (lasso [.spawn, .spawn] round) i) && rankedB internTop (play (lasso [.spawn, .spawn] round) i)) = true := by
  by_cases hi : i < 2
  · exact round_loops.before (f := fun S => twoThreads S && rankedB internTop S) (by decide +kernel) i hi
  · exact round_loops.around (f := fun S => twoThreads S && rankedB internTop S) (by decide) (fun _ => round_check _ _) i (Nat.not_lt.mp hi)

theorem small_top {S : State Nat Pool.Demo.Val} (h : twoThreads S = true) {t : Tid} (he : Enabled cfg t S) : t = 0 ∨ t = 1 := by
  obtain ⟨c, cs, ht⟩ := enabled_top he
  have h1 := (List.getElem?_eq_some_iff.mp ht).1
  have h2 : S.threads.length ≤ 2 := by simpa [twoThreads] using h
  have h3 : t < 2 := Nat.lt_of_lt_of_le h1 h2
  match t, h3 with
  | 0, _ => exact .inl rfl
  | 1, _ => exact .inr rfl

theorem round_fair : StronglyFair cfg (play (lasso [.spawn, .spawn] round)) (acts (lasso [.spawn, .spawn] round)) := by
  intro t h
  obtain ⟨j, _, h2⟩ := h 0
  have := round_always j
  rw [Bool.and_eq_true] at this
  rcases small_top this.1 h2 with rfl | rfl
  · exact Loops.runs_again (r := 1) (by decide) (by decide) rfl
  · exact Loops.runs_again (r := 21) (by decide) (by decide) rfl

theorem round_ends : UserCodeEnds (play (lasso [.spawn, .spawn] round)) (acts (lasso [.spawn, .spawn] round)) := by
  intro t
  refine .inl (round_loops.recurs (P := fun S => Idle S t) (by decide) (r := 0) (by decide) (fun k S hS => ?_))
  have : S = calm (3 * k) (roundHist k) := by simpa [script] using hS.symm
  subst this
  match t with
  | 0 => rfl
  | 1 => rfl
  | _ + 2 => rfl

/-- The hypotheses of (a) and (b) are met by an execution with infinitely many calls, in which again and again a function called by user code runs
under the lock of another one, while a second thread waits. -/
example : ∃ σ α, Execution cfg σ α ∧ StronglyFair cfg σ α ∧ UserCodeEnds σ α ∧ (∀ i, Ranked cfg internTop (σ i)) ∧ (∀ i, (σ i).threads.length ≤ 2) ∧
    (∀ l, internTop l ≤ 1) ∧ ∀ i, ∃ j, i ≤ j ∧ (σ j).threads.map List.length = [2, 1] ∧ (σ j).mem.lock 102 = some 0 ∧ (σ j).mem.lock 7 = some 0 ∧
      ¬ Enabled cfg 1 (σ j) := by
  refine ⟨_, _, round_loops.execution, round_fair, round_ends, fun i => ?_, fun i => ?_, fun l => ?_, fun i => ?_⟩
  · have := round_always i
    rw [Bool.and_eq_true] at this
    exact ranked_of this.2
  · have := round_always i
    rw [Bool.and_eq_true] at this
    simpa [twoThreads] using this.1
  · simp only [internTop]; split <;> omega
  · refine round_loops.recurs (P := fun S => S.threads.map List.length = [2, 1] ∧ S.mem.lock 102 = some 0 ∧ S.mem.lock 7 = some 0 ∧
      ¬ Enabled cfg 1 S) (by decide) (r := 5) (by decide) (fun k S hS => ?_) i
    have e : S = (script (calm (3 * k) (roundHist k)) (round.take 5)).getD init := by rw [hS]; rfl
    refine ⟨?_, ?_, ?_, ?_⟩
    · rw [e]; rfl
    · rw [e]; rfl
    · rw [e]; rfl
    · rintro ⟨a, S', h⟩
      rw [e] at h
      revert h
      show ¬ (Res.blocked = Res.ok S')
      intro h; cases h

/-- A finite execution, after which nothing happens. -/
theorem finite_loops {l : List Cmd} (h : (script init l).isSome = true) : Loops l [] (fun _ => demo l) := by
  refine ⟨?_, fun _ => rfl⟩
  simp only [demo]; rw [Option.eq_some_iff_get_eq]; exact ⟨h, by rw [Option.get_eq_getD]⟩

theorem finite_fair {l : List Cmd} (h : (script init l).isSome = true) (hq : (demo l).threads.all (·.isEmpty) = true) :
    StronglyFair cfg (play (lasso l [])) (acts (lasso l [])) ∧ UserCodeEnds (play (lasso l [])) (acts (lasso l [])) := by
  refine ⟨fun t he => ?_, fun t => .inr ⟨l.length, fun j hj a ha => ?_⟩⟩
  · obtain ⟨j, h1, h2⟩ := he l.length
    rw [(finite_loops h).play_end j h1] at h2
    obtain ⟨c, cs, h3⟩ := enabled_top h2
    cases quiet_of hq _ (List.mem_of_getElem? h3)
  · simp [acts, lasso, Nat.not_lt.mpr hj] at ha

/-- The hypotheses of (c) are met: two threads intern equal values, one waits for the other. -/
example : ∃ σ α, Execution cfg σ α ∧ StronglyFair cfg σ α ∧ (∀ i, ∀ cs ∈ (σ i).threads, cs.length ≤ 1) ∧ (σ 10).threads.map List.length = [1, 1] := by
  have hl : (script init race).isSome = true := by decide +kernel
  refine ⟨_, _, (finite_loops hl).execution, (finite_fair hl (by decide +kernel)).1, fun i => ?_, ?_⟩
  · have key : (play (lasso race []) i).threads.all (fun cs => decide (cs.length ≤ 1)) = true := by
      by_cases hi : i < race.length
      · exact (finite_loops hl).before (f := fun S => S.threads.all fun cs => decide (cs.length ≤ 1)) (by decide +kernel) i hi
      · rw [(finite_loops hl).play_end i (Nat.not_lt.mp hi)]; decide +kernel
    intro cs hcs
    simpa using List.all_eq_true.mp key cs hcs
  · have h1 := (finite_loops hl).play_pre 10 (by decide)
    have h2 : ((script init (race.take 10)).map fun S => S.threads.map List.length) = some [1, 1] := by decide +kernel
    rw [← h1] at h2
    simpa using h2

/-- And those of (d): the destructor of an argument of `Arena::intern` interns a value in the same arena, and one in `Intern`. -/
example : ∃ σ α, Execution cfg σ α ∧ StronglyFair cfg σ α ∧ UserCodeEnds σ α ∧
    (∀ i, ∀ cs ∈ (σ i).threads, ∀ c ∈ cs.tail, locksOf c.frame = []) ∧ ∃ i, (σ i).threads.map List.length = [2, 0] := by
  have hl : (script init nested).isSome = true := by decide +kernel
  refine ⟨_, _, (finite_loops hl).execution, (finite_fair hl (by decide +kernel)).1, (finite_fair hl (by decide +kernel)).2, fun i => ?_,
    arenaDtor.length + 5, ?_⟩
  · have key : (play (lasso nested []) i).threads.all (fun cs => cs.tail.all fun c => (locksOf c.frame).isEmpty) = true := by
      by_cases hi : i < nested.length
      · exact (finite_loops hl).before (f := fun S => S.threads.all fun cs => cs.tail.all fun c => (locksOf c.frame).isEmpty) (by decide +kernel) i hi
      · rw [(finite_loops hl).play_end i (Nat.not_lt.mp hi)]; decide +kernel
    intro cs hcs c hc
    simpa using List.all_eq_true.mp (List.all_eq_true.mp key cs hcs) c hc
  · have h1 := (finite_loops hl).play_pre (arenaDtor.length + 5) (by decide)
    have h2 : ((script init (nested.take (arenaDtor.length + 5))).map fun S => S.threads.map List.length) = some [2, 0] := by decide +kernel
    rw [← h1] at h2
    simpa using h2

/-- Only the scheduler is fair: a thread that from some instant on could step at every instant does step. -/
def WeaklyFair {K V : Type} [DecidableEq K] [BEq V] [Hashable V] (cfg : Cfg K V) (σ : Nat → State K V) (α : Nat → Option (Act K V)) : Prop :=
  ∀ t, (∃ i, ∀ j, i ≤ j → Enabled cfg t (σ j)) → ∀ i, ∃ j, i ≤ j ∧ RunsAt α t j

/-- Thread 1 is going to take the lock of `Intern`, thread 0 is between calls. -/
def waiting (n : Nat) (h : List (Event Nat Pool.Demo.Val)) : State Nat Pool.Demo.Val :=
  { calm n h with threads := [[], (demo [.spawn, .spawn, .len 1 0]).threads[1]?.getD []] }

/-- Meanwhile thread 0 calls `num_objects_interned`. -/
def lens : List Cmd := [.len 0 0] ++ runs 0 0 8

/-- What clients have seen after `k` such calls. -/
def lensHist : Nat → List (Event Nat Pool.Demo.Val)
  | 0 => [.call 0 (.len 0)]
  | k + 1 => .ret ⟨k + 1, .len 0, .num 0⟩ :: .call (k + 1) (.len 0) :: lensHist k

theorem lens_step (n : Nat) (h : List (Event Nat Pool.Demo.Val)) : script (waiting n h) lens =
    some (waiting (n + 1) (.ret ⟨n, .len 0, .num 0⟩ :: .call n (.len 0) :: h)) := by
  have e : ∀ n h, waiting n h = { waiting n h with
      mem := { (waiting n h).mem with lock := fun j => if j = 7 then none else if j = 7 then some 0 else none } } := by
    intro n h
    have : (fun j => if j = 7 then none else if j = 7 then some 0 else none : Nat → Option Tid) = fun _ => none := by
      funext j; by_cases h1 : j = 7 <;> simp [h1]
    rw [this]; rfl
  rw [e (n + 1)]
  conv => lhs; cbv
  rfl

theorem lens_loops : Loops [.spawn, .spawn, .len 1 0] lens (fun k => waiting (k + 1) (lensHist k)) :=
  ⟨rfl, fun _ => lens_step _ _⟩

/-- Thread 1 does not move. -/
def halted (S : State Nat Pool.Demo.Val) : Bool := twoThreads S && (S.threads.all fun cs => decide (cs.length ≤ 1)) &&
  decide ((S.threads[1]?.getD []).map (·.id) = [0])

theorem lens_check (n : Nat) (h : List (Event Nat Pool.Demo.Val)) : along halted (waiting n h) lens = true := by
  cbv

theorem lens_always : ∀ i, 3 ≤ i → halted (play (lasso [.spawn, .spawn, .len 1 0] lens) i) = true :=
  lens_loops.around (by decide) (fun _ => lens_check _ _)

/-- C85 (e). Fair locks are needed: with a fair scheduler alone, a call of `num_objects_interned` can wait for ever, while another thread calls
it again and again; no call is made inside a call. -/
theorem C85_weak_fairness_is_not_enough : ∃ (σ : Nat → State Nat Pool.Demo.Val) (α : Nat → Option (Act Nat Pool.Demo.Val)),
    Execution cfg σ α ∧ WeaklyFair cfg σ α ∧ (∀ i, (σ i).threads.length ≤ 2) ∧ (∀ i, ∀ cs ∈ (σ i).threads, cs.length ≤ 1) ∧
    ∀ i, 3 ≤ i → (stackOf (σ i) 1).map (·.id) = [0] := by
  have early : ∀ i, i < 3 → (twoThreads (play (lasso [.spawn, .spawn, .len 1 0] lens) i) &&
      (play (lasso [.spawn, .spawn, .len 1 0] lens) i).threads.all fun cs => decide (cs.length ≤ 1)) = true :=
    lens_loops.before (f := fun S => twoThreads S && S.threads.all fun cs => decide (cs.length ≤ 1)) (by decide +kernel)
  have all : ∀ i, (twoThreads (play (lasso [.spawn, .spawn, .len 1 0] lens) i) &&
      (play (lasso [.spawn, .spawn, .len 1 0] lens) i).threads.all fun cs => decide (cs.length ≤ 1)) = true := by
    intro i
    by_cases hi : i < 3
    · exact early i hi
    · have := lens_always i (Nat.not_lt.mp hi)
      simp only [halted, Bool.and_eq_true] at this
      rw [Bool.and_eq_true]; exact this.1
  refine ⟨_, _, lens_loops.execution, fun t h => ?_, fun i => ?_, fun i cs hcs => ?_, fun i hi => ?_⟩
  · obtain ⟨i, h⟩ := h
    have h0 := h i (Nat.le_refl _)
    have := all i
    rw [Bool.and_eq_true] at this
    rcases small_top this.1 h0 with rfl | rfl
    · exact Loops.runs_again (r := 1) (by decide) (by decide) rfl
    · exfalso
      obtain ⟨j, h1, h2⟩ := lens_loops.recurs (P := fun S => ¬ Enabled cfg 1 S) (by decide) (r := 2) (by decide) (fun k S hS => by
        have e : S = (script (waiting (k + 1) (lensHist k)) (lens.take 2)).getD init := by rw [hS]; rfl
        rintro ⟨a, S', h⟩
        rw [e] at h
        revert h
        show ¬ (Res.blocked = Res.ok S')
        intro h; cases h) i
      exact h2 (h j h1)
  · have := all i
    rw [Bool.and_eq_true] at this
    simpa [twoThreads] using this.1
  · have := all i
    rw [Bool.and_eq_true] at this
    simpa using List.all_eq_true.mp this.2 cs hcs
  · have := lens_always i hi
    simp only [halted, Bool.and_eq_true, decide_eq_true_eq] at this
    exact this.2

theorem stuck_loops : Loops stuck [] (fun _ => demo stuck) := finite_loops (by decide +kernel)

/-- C85 (f). The hierarchy is needed: the destructor of an argument of `Intern::new` interns a value, and this call never ends, although scheduler
and locks are fair and only finitely many calls are made. -/
theorem C85_hierarchy_needed : ∃ (σ : Nat → State Nat Pool.Demo.Val) (α : Nat → Option (Act Nat Pool.Demo.Val)),
    Execution cfg σ α ∧ StronglyFair cfg σ α ∧ UserCodeEnds σ α ∧ ∃ n, ∀ i, n ≤ i → (stackOf (σ i) 0).length = 2 := by
  refine ⟨_, _, stuck_loops.execution, fun t h => ?_, fun t => .inr ⟨stuck.length, fun j hj a ha => ?_⟩, stuck.length, fun i hi => ?_⟩
  · exfalso
    obtain ⟨j, h1, h2⟩ := h stuck.length
    rw [stuck_loops.play_end j h1] at h2
    obtain ⟨a, S', h2⟩ := h2
    have : ∀ t a, step cfg (demo stuck) (.run t a) = .blocked := by
      intro t a
      match t with
      | 0 => rfl
      | 1 => rfl
      | _ + 2 => rfl
    rw [this] at h2; cases h2
  · simp [acts, lasso, Nat.not_lt.mpr hj] at ha
  · rw [stuck_loops.play_end i hi]; decide +kernel

end Src.PoolCode
