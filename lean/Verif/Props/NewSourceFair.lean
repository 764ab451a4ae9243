import Verif.Src.NewLasso
/-!
C87: with the functions of `NewIntern` as they are written, called also by user code inside other calls, no call waits for ever under a fair
scheduler. Vocabulary (`Execution`, `Idle`, `Enabled`, `RunsAt`, `StronglyFair`, `UserCodeEnds`) at the top of `Verif/Src/NewFair.lean`,
`Ranked`, `Called`, `Returned`, `Panicked`, `Poisoned` in `Verif/Src/NewSpec.lean`.
-/
namespace Src.NewCode
open Arc (Res)
open Pool (Tid Ptr Query Ret Obj Entry)

section
variable {K V : Type} [DecidableEq K] [BEq V] [Hashable V] [EquivBEq V] [LawfulHashable V] {cfg : Cfg K V}
  {σ : Nat → State K V} {α : Nat → Option (Act K V)}

/-- C87 (a). In every infinite execution with finitely many threads, a fair scheduler and fair mutexes, in which calls inside calls respect a
hierarchy of types and user code comes to an end, every thread becomes idle again and again, however many calls all threads make meanwhile,
wherever user code panics and whichever mutexes are poisoned. -/
theorem C87_starvation_free (lay : cfg.Layout) (h : Execution cfg σ α) (hf : StronglyFair cfg σ α) (hu : UserCodeEnds σ α)
    {rank : K → Nat} (hk : ∀ i, Ranked rank (σ i)) {n : Nat} (hn : ∀ i, (σ i).threads.length ≤ n) (t : Tid) (i : Nat) :
    ∃ j, i ≤ j ∧ Idle (σ j) t := by
  obtain ⟨B, hB⟩ := stuck_bound (cfg := cfg) hn rank
  exact fair_idle lay h hf hu hk hB t i

/-- C87 (b). Also with infinitely many threads, if the hierarchy has finitely many levels. -/
theorem C87_finite_hierarchy (lay : cfg.Layout) (h : Execution cfg σ α) (hf : StronglyFair cfg σ α) (hu : UserCodeEnds σ α)
    {rank : K → Nat} (hk : ∀ i, Ranked rank (σ i)) {B : Nat} (hB : ∀ k, rank k ≤ B) (t : Tid) (i : Nat) :
    ∃ j, i ≤ j ∧ Idle (σ j) t :=
  fair_idle lay h hf hu hk (fun _ k _ => hB k) t i

/-- C87 (c). So every call that is made returns or ends by a panic, also one that is made by user code inside another call. -/
theorem C87_every_call_ends (lay : cfg.Layout) (h : Execution cfg σ α) (hf : StronglyFair cfg σ α) (hu : UserCodeEnds σ α)
    {rank : K → Nat} (hk : ∀ i, Ranked rank (σ i)) {n : Nat} (hn : ∀ i, (σ i).threads.length ≤ n) {i j : Nat} {o : Pool.Op K V}
    (hc : Called (σ i) j o) : ∃ i', i ≤ i' ∧ ((∃ r, Returned (σ i') ⟨j, o, r⟩) ∨ Panicked (σ i') j o) :=
  fair_over lay h (fun t i => C87_starvation_free lay h hf hu hk hn t i) hc

/-- C87 (d). A call for a type that is made after the mutex of the type was poisoned ends by a panic: it does not return, and it does not hang. -/
theorem C87_poisoned_calls_panic (lay : cfg.Layout) (h : Execution cfg σ α) (hf : StronglyFair cfg σ α) (hu : UserCodeEnds σ α)
    {rank : K → Nat} (hk : ∀ i, Ranked rank (σ i)) {n : Nat} (hn : ∀ i, (σ i).threads.length ≤ n) {i i' j : Nat} {o : Pool.Op K V}
    (hp : Poisoned cfg (σ i) o.pool) (hj : ∀ o', ¬ Called (σ i) j o') (hi : i ≤ i') (hc : Called (σ i') j o) : ∃ i'', i' ≤ i'' ∧ Panicked (σ i'') j o := by
  obtain ⟨i'', h1, ⟨r, h2⟩ | h2⟩ := C87_every_call_ends lay h hf hu hk hn hc
  · exfalso
    refine ((h.later (Nat.le_trans hi h1)).late lay (h.reach i) hp).2 _ h2 ?_ rfl
    rcases Nat.lt_or_ge j (σ i).next with g | g
    · obtain ⟨o', ho'⟩ := (h.reach i).called_of g
      exact absurd ho' (hj o')
    · exact g
  · exact ⟨i'', h1, h2⟩

omit [DecidableEq K] [BEq V] [Hashable V] [EquivBEq V] [LawfulHashable V] in
theorem ranked_flat {N : State K V} (h : ∀ cs ∈ N.threads, cs.length ≤ 1) (rank : K → Nat) : Ranked rank N := by
  intro cs hcs
  have := h cs hcs
  match cs with
  | [] => exact .nil
  | [c] => exact List.pairwise_singleton _ _
  | _ :: _ :: _ => simp at this

/-- C87 (e). If user code makes no calls, fairness is all that is needed. -/
theorem C87_flat (lay : cfg.Layout) (h : Execution cfg σ α) (hf : StronglyFair cfg σ α) (hc : ∀ i, ∀ cs ∈ (σ i).threads, cs.length ≤ 1)
    (t : Tid) (i : Nat) : ∃ j, i ≤ j ∧ Idle (σ j) t := by
  refine C87_finite_hierarchy lay h hf (fun t => ?_) (rank := fun _ => 0) (fun i => ranked_flat (hc i) _) (B := 0) (fun _ => Nat.le_refl _) t i
  by_cases hi : ∀ i, ∃ j, i ≤ j ∧ Idle (σ j) t
  · exact .inl hi
  · right
    simp only [Classical.not_forall, not_exists, not_and] at hi
    obtain ⟨i, hi⟩ := hi
    refine ⟨i, fun j hj a ha hs => ?_⟩
    have h1 := h.2 j
    rw [ha] at h1
    have h2 := hi j hj
    obtain ⟨d, hd⟩ := stack_start h1.2 hs
    cases hst : stackOf (σ j) t with
    | nil => exact h2 hst
    | cons c cs =>
      rw [hst] at hd
      have := hc (j + 1) _ (List.mem_of_getElem? (stack_get hd))
      simp at this

end

/-! ### Examples -/

/-- A value of type 0 has been interned, and the values of type 1 have been counted. -/
def before : List Cmd := [.spawn, .spawn, .new 0 0 ⟨5, 2⟩ true false] ++ runs 0 0 3 ++ [.run 0 1] ++ runs 0 10 16 ++ [.len 0 1, .run 0 1, .run 0 0, .run 0 0, .run 0 2] ++
  runs 0 0 10

/-- The tables between rounds: one with a value, and an empty one. -/
def tables : List Cell := [{ tid := 50, set := [⟨10, 0⟩], owner := none, poisoned := false }, { tid := 51, set := [], owner := none, poisoned := false }]

/-- A state between rounds. -/
def resting (n : Nat) (h : List (Event Nat Pool.Demo.Val)) (c : Nat → List Cell) : State Nat Pool.Demo.Val :=
  { mem := { heap := [⟨0, ⟨10, 0⟩, ⟨5, 2⟩⟩], husks := [], cells := c, panicking := false, born := [(0, ⟨5, 2⟩)], dead := [] }
    threads := [[], []], next := n, hist := h }

def calm (n : Nat) (h : List (Event Nat Pool.Demo.Val)) (c : Nat → List Cell) : State Nat Pool.Demo.Val :=
  resting n h fun j => if j = 7 then tables else c j

theorem resting_calm {n : Nat} {h : List (Event Nat Pool.Demo.Val)} {c : Nat → List Cell} (hc : c 7 = tables) : resting n h c = calm n h c := by
  rw [calm]; congr 1; funext j; split
  · rename_i e; rw [e, hc]
  · rfl

/-- `intern_ref` of type 0 on thread 0 takes its mutex and calls `Hash`, which counts the values of type 1; meanwhile thread 1 does this, too, and has
to wait. -/
def round : List Cmd := [.new 0 0 ⟨5, 3⟩ true false, .run 0 2] ++ runs 0 0 3 ++ [.len 0 1, .run 0 2] ++ runs 0 0 1 ++ [.len 1 1, .run 1 2] ++ runs 0 0 27 ++ runs 1 0 12

/-- What clients see in a round. -/
def seen (n : Nat) : List (Event Nat Pool.Demo.Val) := [.ret ⟨n + 2, .len 1, .num 0⟩, .ret ⟨n, .intern 0 (.ofVal ⟨5, 3⟩) ⟨5, 3⟩, .ptr ⟨10, 0⟩⟩, .ret ⟨n + 1, .len 1, .num 0⟩,
  .call (n + 2) (.len 1), .call (n + 1) (.len 1), .call n (.intern 0 (.ofVal ⟨5, 3⟩) ⟨5, 3⟩)]

theorem round_step (n : Nat) (h : List (Event Nat Pool.Demo.Val)) (c : Nat → List Cell) : ∃ c', script (calm n h c) round = some (calm (n + 3) (seen n ++ h) c') := by
  have : ∃ c', script (calm n h c) round = some (resting (n + 3) (seen n ++ h) c') ∧ c' 7 = tables := by
    refine ⟨?c, ?a, ?b⟩
    case a =>
      conv => lhs; cbv
      rfl
    case b => rfl
  obtain ⟨c', h1, h2⟩ := this
  exact ⟨c', by rw [h1, resting_calm h2]⟩

theorem before_step : ∃ c, script init before = some (calm 2 (demo before).hist c) := by
  have : ∃ c, script init before = some (resting 2 (demo before).hist c) ∧ c 7 = tables := ⟨_, rfl, rfl⟩
  obtain ⟨c, h1, h2⟩ := this
  exact ⟨c, by rw [h1, resting_calm h2]⟩

/-- What clients have seen after `k` rounds. -/
def roundHist : Nat → List (Event Nat Pool.Demo.Val)
  | 0 => (demo before).hist
  | k + 1 => seen (3 * k + 2) ++ roundHist k

/-- The vectors after `k` rounds. -/
noncomputable def roundCells : Nat → Nat → List Cell
  | 0 => before_step.choose
  | k + 1 => (round_step (3 * k + 2) (roundHist k) (roundCells k)).choose

theorem round_loops : Loops before round (fun k => calm (3 * k + 2) (roundHist k) (roundCells k)) :=
  ⟨before_step.choose_spec, fun k => (round_step (3 * k + 2) (roundHist k) (roundCells k)).choose_spec⟩

/-- There are at most two threads. -/
def twoThreads (S : State Nat Pool.Demo.Val) : Bool := decide (S.threads.length ≤ 2)

/-- User code that runs inside a call uses types with a higher number. -/
def upwards (S : State Nat Pool.Demo.Val) : Bool := S.threads.all go
where go : List (Running Nat Pool.Demo.Val) → Bool
  | [] => true
  | c :: cs => cs.all (fun c' => decide (c'.op.pool < c.op.pool)) && go cs

theorem ranked_up {S : State Nat Pool.Demo.Val} (h : upwards S = true) : Ranked id S := by
  refine ranked_of fun cs hcs => ?_
  have := List.all_eq_true.mp h cs hcs
  clear h hcs
  induction cs with
  | nil => exact .nil
  | cons c cs ih =>
    simp only [upwards.go, Bool.and_eq_true] at this
    exact List.pairwise_cons.mpr ⟨fun c' hc' => by simpa using List.all_eq_true.mp this.1 c' hc', ih this.2⟩

theorem round_check (n : Nat) (h : List (Event Nat Pool.Demo.Val)) (c : Nat → List Cell) : along (fun S => twoThreads S && upwards S) (calm n h c) round = true := by
  cbv

theorem round_always (i : Nat) : (twoThreads (play (lasso before round) i) && upwards (play (lasso before round) i)) = true := by
  by_cases hi : i < before.length
  · exact round_loops.before (f := fun S => twoThreads S && upwards S) (by decide +kernel) i hi
  · exact round_loops.around (f := fun S => twoThreads S && upwards S) (by decide) (fun _ => round_check _ _ _) i (Nat.not_lt.mp hi)

theorem small_top {S : State Nat Pool.Demo.Val} (h : twoThreads S = true) {t : Tid} (he : Enabled dcfg t S) : t = 0 ∨ t = 1 := by
  obtain ⟨c, cs, ht⟩ := enabled_top he
  have h1 := (List.getElem?_eq_some_iff.mp ht).1
  have h2 : S.threads.length ≤ 2 := by simpa [twoThreads] using h
  have h3 : t < 2 := Nat.lt_of_lt_of_le h1 h2
  match t, h3 with
  | 0, _ => exact .inl rfl
  | 1, _ => exact .inr rfl

theorem round_fair : StronglyFair dcfg (play (lasso before round)) (acts (lasso before round)) := by
  intro t h
  obtain ⟨j, _, h2⟩ := h 0
  have := round_always j
  rw [Bool.and_eq_true] at this
  rcases small_top this.1 h2 with rfl | rfl
  · exact Loops.runs_again (r := 1) (by decide) (by decide) rfl
  · exact Loops.runs_again (r := 40) (by decide) (by decide) rfl

theorem round_ends : UserCodeEnds (play (lasso before round)) (acts (lasso before round)) := by
  intro t
  refine .inl (round_loops.recurs (P := fun S => Idle S t) (by decide) (r := 0) (by decide) (fun k S hS => ?_))
  have : S = calm (3 * k + 2) (roundHist k) (roundCells k) := by simpa [script] using hS.symm
  subst this
  match t with
  | 0 => rfl
  | 1 => rfl
  | _ + 2 => rfl

/-- The hypotheses of (a), (b) and (c) are met by an execution with infinitely many calls, in which again and again a function called by user code runs
under the mutex of another one, while a second thread waits. -/
example : ∃ σ α, Execution dcfg σ α ∧ StronglyFair dcfg σ α ∧ UserCodeEnds σ α ∧ (∀ i, Ranked id (σ i)) ∧ (∀ i, (σ i).threads.length ≤ 2) ∧
    ∀ i, ∃ j, i ≤ j ∧ (σ j).threads.map List.length = [2, 1] ∧ (tableOf dcfg (σ j) 0).bind (·.owner) = some 0 ∧
      (tableOf dcfg (σ j) 1).bind (·.owner) = some 0 ∧ ¬ Enabled dcfg 1 (σ j) := by
  refine ⟨_, _, round_loops.execution, round_fair, round_ends, fun i => ?_, fun i => ?_, fun i => ?_⟩
  · have := round_always i
    rw [Bool.and_eq_true] at this
    exact ranked_up this.2
  · have := round_always i
    rw [Bool.and_eq_true] at this
    simpa [twoThreads] using this.1
  · refine round_loops.recurs (P := fun S => S.threads.map List.length = [2, 1] ∧ (tableOf dcfg S 0).bind (·.owner) = some 0 ∧
      (tableOf dcfg S 1).bind (·.owner) = some 0 ∧ ¬ Enabled dcfg 1 S) (by decide) (r := 10) (by decide) (fun k S hS => ?_) i
    generalize roundHist k = H at hS
    generalize roundCells k = C at hS
    have e : S = (script (calm (3 * k + 2) H C) (round.take 10)).getD init := by rw [hS]; rfl
    refine ⟨?_, ?_, ?_, ?_⟩
    · rw [e]; rfl
    · rw [e]; rfl
    · rw [e]; rfl
    · rintro ⟨a, S', h⟩
      rw [e] at h
      revert h
      show ¬ (Res.blocked = Res.ok S')
      intro h; cases h

/-- A finite execution, after which nothing happens. -/
theorem finite_loops {l : List Cmd} (h : (script init l).isSome = true) : Loops l [] (fun _ => demo l) := by
  refine ⟨?_, fun _ => rfl⟩
  simp only [demo]; rw [Option.eq_some_iff_get_eq]; exact ⟨h, by rw [Option.get_eq_getD]⟩

theorem finite_fair {l : List Cmd} (h : (script init l).isSome = true) (hq : (demo l).threads.all (·.isEmpty) = true) :
    StronglyFair dcfg (play (lasso l [])) (acts (lasso l [])) ∧ UserCodeEnds (play (lasso l [])) (acts (lasso l [])) := by
  refine ⟨fun t he => ?_, fun t => .inr ⟨l.length, fun j hj a ha => ?_⟩⟩
  · obtain ⟨j, h1, h2⟩ := he l.length
    rw [(finite_loops h).play_end j h1] at h2
    obtain ⟨c, cs, h3⟩ := enabled_top h2
    cases quiet_of hq _ (List.mem_of_getElem? h3)
  · simp [acts, lasso, Nat.not_lt.mpr hj] at ha

theorem finite_always {l : List Cmd} (h : (script init l).isSome = true) {f : State Nat Pool.Demo.Val → Bool} (h1 : along f init l = true) (h2 : f (demo l) = true)
    (i : Nat) : f (play (lasso l []) i) = true := by
  by_cases hi : i < l.length
  · exact (finite_loops h).before h1 i hi
  · rw [(finite_loops h).play_end i (Nat.not_lt.mp hi)]; exact h2

/-- All calls of `late` come to an end. -/
def full : List Cmd := late ++ runs 0 0 5

theorem full_ok : (script init full).isSome = true := by decide +kernel

theorem full_at (n : Nat) (h : n ≤ full.length) : play (lasso full []) n = demo (full.take n) := by
  have := (finite_loops full_ok).play_pre n h
  rw [demo, ← this]; rfl

/-- The hypotheses of (d) are met: a call of type 0 panics in `Hash` and poisons the mutex; then thread 1 makes call 3, for the same type. -/
example : ∃ σ α, Execution dcfg σ α ∧ StronglyFair dcfg σ α ∧ UserCodeEnds σ α ∧ (∀ i, Ranked id (σ i)) ∧ (∀ i, (σ i).threads.length ≤ 2) ∧
    Poisoned dcfg (σ 59) 0 ∧ (∀ o', ¬ Called (σ 59) 3 o') ∧ Called (σ 60) 3 (.intern 0 (.ofVal ⟨5, 4⟩) ⟨5, 4⟩) := by
  have all : ∀ i, (twoThreads (play (lasso full []) i) && upwards (play (lasso full []) i)) = true :=
    finite_always full_ok (f := fun S => twoThreads S && upwards S) (by decide +kernel) (by decide +kernel)
  refine ⟨_, _, (finite_loops full_ok).execution, (finite_fair full_ok (by decide +kernel)).1, (finite_fair full_ok (by decide +kernel)).2, fun i => ?_, fun i => ?_, ?_, ?_, ?_⟩
  · have := all i
    rw [Bool.and_eq_true] at this
    exact ranked_up this.2
  · have := all i
    rw [Bool.and_eq_true] at this
    simpa [twoThreads] using this.1
  · rw [full_at 59 (by decide)]; exact ⟨_, rfl, rfl⟩
  · intro o' ho
    have h1 := ((finite_loops full_ok).execution.reach 59).ids.lt _ _ ho
    have h2 : (play (lasso full []) 59).next = 3 := by rw [full_at 59 (by decide)]; decide +kernel
    omega
  · rw [full_at 60 (by decide)]; exact List.mem_cons_self

/-- The hypotheses of (e) are met: two threads intern equal values. -/
example : ∃ σ α, Execution dcfg σ α ∧ StronglyFair dcfg σ α ∧ (∀ i, ∀ cs ∈ (σ i).threads, cs.length ≤ 1) ∧ (σ 10).threads.map List.length = [1, 1] := by
  have hl : (script init race).isSome = true := by decide +kernel
  refine ⟨_, _, (finite_loops hl).execution, (finite_fair hl (by decide +kernel)).1, fun i => ?_, ?_⟩
  · have key := finite_always hl (f := fun S => S.threads.all fun cs => decide (cs.length ≤ 1)) (by decide +kernel) (by decide +kernel) i
    intro cs hcs
    simpa using List.all_eq_true.mp key cs hcs
  · have h1 := (finite_loops hl).play_pre 10 (by decide)
    have h2 : ((script init (race.take 10)).map fun S => S.threads.map List.length) = some [1, 1] := by decide +kernel
    rw [← h1] at h2
    simpa using h2

/-- Only the scheduler is fair: a thread that from some instant on could step at every instant does step. -/
def WeaklyFair {K V : Type} [DecidableEq K] [BEq V] [Hashable V] (cfg : Cfg K V) (σ : Nat → State K V) (α : Nat → Option (Act K V)) : Prop :=
  ∀ t, (∃ i, ∀ j, i ≤ j → Enabled cfg t (σ j)) → ∀ i, ∃ j, i ≤ j ∧ RunsAt α t j

/-- Thread 1 is going to count the values of type 1: it has found the table, and will take its mutex. -/
def onset : List Cmd := before ++ [.len 1 1, .run 1 2]

/-- Thread 1 as in `onset`. -/
def waiting (n : Nat) (h : List (Event Nat Pool.Demo.Val)) (c : Nat → List Cell) : State Nat Pool.Demo.Val :=
  { calm n h c with threads := [[], (demo onset).threads[1]?.getD []] }

/-- Meanwhile thread 0 counts them. -/
def lens : List Cmd := [.len 0 1, .run 0 2] ++ runs 0 0 12

theorem lens_step (n : Nat) (h : List (Event Nat Pool.Demo.Val)) (c : Nat → List Cell) : ∃ c', script (waiting n h c) lens =
    some (waiting (n + 1) (.ret ⟨n, .len 1, .num 0⟩ :: .call n (.len 1) :: h) c') := by
  have : ∃ c', script (waiting n h c) lens = some { resting (n + 1) (.ret ⟨n, .len 1, .num 0⟩ :: .call n (.len 1) :: h) c' with
      threads := [[], (demo onset).threads[1]?.getD []] } ∧ c' 7 = tables := by
    refine ⟨?c, ?a, ?b⟩
    case a =>
      conv => lhs; cbv
      rfl
    case b => rfl
  obtain ⟨c', h1, h2⟩ := this
  exact ⟨c', by rw [h1, resting_calm h2]; rfl⟩

theorem onset_step : ∃ c, script init onset = some (waiting 3 (demo onset).hist c) := by
  have : ∃ c, script init onset = some { resting 3 (demo onset).hist c with threads := [[], (demo onset).threads[1]?.getD []] } ∧ c 7 = tables := ⟨_, rfl, rfl⟩
  obtain ⟨c, h1, h2⟩ := this
  exact ⟨c, by rw [h1, resting_calm h2]; rfl⟩

/-- What clients have seen after `k` such calls. -/
def lensHist : Nat → List (Event Nat Pool.Demo.Val)
  | 0 => (demo onset).hist
  | k + 1 => .ret ⟨k + 3, .len 1, .num 0⟩ :: .call (k + 3) (.len 1) :: lensHist k

noncomputable def lensCells : Nat → Nat → List Cell
  | 0 => onset_step.choose
  | k + 1 => (lens_step (k + 3) (lensHist k) (lensCells k)).choose

theorem lens_loops : Loops onset lens (fun k => waiting (k + 3) (lensHist k) (lensCells k)) :=
  ⟨onset_step.choose_spec, fun k => (lens_step (k + 3) (lensHist k) (lensCells k)).choose_spec⟩

/-- At most two threads, no call inside a call. -/
def narrow (S : State Nat Pool.Demo.Val) : Bool := twoThreads S && S.threads.all fun cs => decide (cs.length ≤ 1)

/-- Thread 1 does not move. -/
def halted (S : State Nat Pool.Demo.Val) : Bool := narrow S && decide ((S.threads[1]?.getD []).map (·.id) = [2])

theorem lens_check (n : Nat) (h : List (Event Nat Pool.Demo.Val)) (c : Nat → List Cell) : along halted (waiting n h c) lens = true := by
  cbv

theorem lens_always : ∀ i, onset.length ≤ i → halted (play (lasso onset lens) i) = true :=
  lens_loops.around (by decide) (fun _ => lens_check _ _ _)

/-- C87 (f). Fair mutexes are needed: with a fair scheduler alone, a call of `num_objects_interned` can wait for ever, while another thread calls
it again and again; no call is made inside a call. -/
theorem C87_weak_fairness_is_not_enough : ∃ (σ : Nat → State Nat Pool.Demo.Val) (α : Nat → Option (Act Nat Pool.Demo.Val)),
    Execution dcfg σ α ∧ WeaklyFair dcfg σ α ∧ (∀ i, (σ i).threads.length ≤ 2) ∧ (∀ i, ∀ cs ∈ (σ i).threads, cs.length ≤ 1) ∧
    ∃ n, ∀ i, n ≤ i → (stackOf (σ i) 1).map (·.id) = [2] := by
  have all : ∀ i, narrow (play (lasso onset lens) i) = true := by
    intro i
    by_cases hi : i < onset.length
    · exact lens_loops.before (by decide +kernel) i hi
    · have := lens_always i (Nat.not_lt.mp hi)
      simp only [halted, Bool.and_eq_true] at this
      exact this.1
  refine ⟨_, _, lens_loops.execution, fun t h => ?_, fun i => ?_, fun i cs hcs => ?_, onset.length, fun i hi => ?_⟩
  · obtain ⟨i, h⟩ := h
    have h0 := h i (Nat.le_refl _)
    have := all i
    rw [narrow, Bool.and_eq_true] at this
    rcases small_top this.1 h0 with rfl | rfl
    · exact Loops.runs_again (r := 1) (by decide) (by decide) rfl
    · exfalso
      obtain ⟨j, h1, h2⟩ := lens_loops.recurs (P := fun S => ¬ Enabled dcfg 1 S) (by decide) (r := 3) (by decide) (fun k S hS => by
        generalize lensHist k = H at hS
        generalize lensCells k = C at hS
        have e : S = (script (waiting (k + 3) H C) (lens.take 3)).getD init := by rw [hS]; rfl
        rintro ⟨a, S', h⟩
        rw [e] at h
        revert h
        show ¬ (Res.blocked = Res.ok S')
        intro h; cases h) i
      exact h2 (h j h1)
  · have := all i
    rw [narrow, Bool.and_eq_true] at this
    simpa [twoThreads] using this.1
  · have := all i
    rw [narrow, Bool.and_eq_true] at this
    simpa using List.all_eq_true.mp this.2 cs hcs
  · have := lens_always i hi
    simp only [halted, Bool.and_eq_true, decide_eq_true_eq] at this
    exact this.2

theorem stuck_loops : Loops stuck [] (fun _ => demo stuck) := finite_loops (by decide +kernel)

/-- C87 (g). The hierarchy is needed: the destructor of an argument of `new` interns a value of the same type, and this call never ends, although scheduler
and mutexes are fair and only finitely many calls are made. -/
theorem C87_hierarchy_needed : ∃ (σ : Nat → State Nat Pool.Demo.Val) (α : Nat → Option (Act Nat Pool.Demo.Val)),
    Execution dcfg σ α ∧ StronglyFair dcfg σ α ∧ UserCodeEnds σ α ∧ ∃ n, ∀ i, n ≤ i → (stackOf (σ i) 0).length = 2 := by
  refine ⟨_, _, stuck_loops.execution, fun t h => ?_, fun t => .inr ⟨stuck.length, fun j hj a ha => ?_⟩, stuck.length, fun i hi => ?_⟩
  · exfalso
    obtain ⟨j, h1, h2⟩ := h stuck.length
    rw [stuck_loops.play_end j h1] at h2
    obtain ⟨a, S', h2⟩ := h2
    have : ∀ t a, step dcfg (demo stuck) (.run t a) = .blocked := by
      intro t a
      match t with
      | 0 => rfl
      | 1 => rfl
      | _ + 2 => rfl
    rw [this] at h2; cases h2
  · simp [acts, lasso, Nat.not_lt.mpr hj] at ha
  · rw [stuck_loops.play_end i hi]; decide +kernel

end Src.NewCode
