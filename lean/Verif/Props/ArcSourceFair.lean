import Verif.Src.ArcNestLasso
import Verif.Props.ArcSourceNested
/-!
C84: `ArcIntern`, with the functions as they are written and called by destructors inside other calls, finishes every call under a fair
scheduler. Vocabulary (`Execution`, `Enabled`, `RunsAt`, `StronglyFair`, `FinitelyManyCalls`) at the top of `Verif/Src/ArcNestFair.lean`.
-/
namespace Src.ArcNest
open Arc (Addr Tid Cell Cfg Res demoCfg)

variable {V : Type} [BEq V] [Hashable V] [EquivBEq V] [LawfulHashable V] {cfg : Cfg V}

/-- C84 (a). In every infinite execution in which the scheduler and the shard locks are strongly fair, only destructors make calls inside
calls, finitely many calls are made and no removal of a drop panics, all calls finish: from some instant on no call is running. -/
theorem C84_fair_termination (hv : cfg.Valid) {σ : Nat → State V} {α : Nat → Option (Act V)} (h : Execution cfg σ α)
    (hd : ∀ i, ByDestructors (σ i)) (hf : StronglyFair cfg σ α) (hn : FinitelyManyCalls α) : ∃ n, ∀ i, n ≤ i → Quiet (σ i) :=
  fair_quiet hv h hd hf hn

/-- A destructor interns a value equal to the one that is being destroyed; both calls are completed, and the new handle is dropped. -/
def wholeTrace : List (Act Arc.Val) := reviveTrace ++ runs 1 30 17 ++ runs 1 0 4 ++ [.drop 0 30] ++ runs 0 0 27

theorem whole_loops : Loops demoCfg wholeTrace [] (demo wholeTrace) :=
  ⟨by simp only [demo]; rw [Option.eq_some_iff_get_eq]; exact ⟨by decide +kernel, by rw [Option.get_eq_getD]⟩, rfl⟩

theorem whole_fair : StronglyFair demoCfg (play demoCfg (lasso wholeTrace [])) (lasso wholeTrace []) := by
  intro t h
  obtain ⟨j, h1, h2⟩ := h wholeTrace.length
  rw [whole_loops.play_end rfl j h1] at h2
  obtain ⟨c, cs, h3⟩ := enabled_top h2
  have := quiet_of (N := demo wholeTrace) (by decide +kernel) _ (List.mem_of_getElem? h3)
  cases this

theorem whole_finite : FinitelyManyCalls (lasso wholeTrace []) :=
  ⟨wholeTrace.length, fun i hi a ha => by simp [lasso, Nat.not_lt.mpr hi] at ha⟩

/-- Can be computed. -/
def byDestructors (N : State Arc.Val) : Bool := N.threads.all fun cs => cs.tail.all fun c => c.stack.head?.any inDestructor

theorem byDestructors_of {N : State Arc.Val} (h : byDestructors N = true) : ByDestructors N :=
  fun cs hcs c hc => List.all_eq_true.mp (List.all_eq_true.mp h cs hcs) c hc

theorem whole_destructors (i : Nat) : ByDestructors (play demoCfg (lasso wholeTrace []) i) := by
  refine byDestructors_of ?_
  by_cases hi : i < wholeTrace.length
  · exact whole_loops.before (f := byDestructors) (by decide +kernel) i hi
  · rw [whole_loops.play_end rfl i (Nat.not_lt.mp hi)]; decide +kernel

/-- The hypotheses are met. Two calls are running inside each other at instant 50. -/
example : ∃ σ α, Execution demoCfg σ α ∧ (∀ i, ByDestructors (σ i)) ∧ StronglyFair demoCfg σ α ∧ FinitelyManyCalls α ∧
    depths (σ 50) = [0, 2] := by
  refine ⟨_, _, whole_loops.execution, whole_destructors, whole_fair, whole_finite, ?_⟩
  have h := whole_loops.play_pre 50 (by decide)
  have : (checked demoCfg init (wholeTrace.take 50)).all (fun N => depths N == [0, 2]) = true := by decide +kernel
  rw [← h] at this
  simpa using this

/-- C84 (b). And from some instant on, whenever clients own no handle, everything has been released. -/
theorem C84_released (hv : cfg.Valid) {σ : Nat → State V} {α : Nat → Option (Act V)} (h : Execution cfg σ α)
    (hd : ∀ i, ByDestructors (σ i)) (hf : StronglyFair cfg σ α) (hn : FinitelyManyCalls α) :
    ∃ n, ∀ i, n ≤ i → (σ i).handles = [] → (σ i).mem.heap = [] ∧ (σ i).mem.table = [] := by
  obtain ⟨n, hn⟩ := fair_quiet hv h hd hf hn
  exact ⟨n, fun i hi hh => C82_no_leak hv (h.reachND i) (hn i hi) hh⟩

/-- It happens: after the last step the heap and the table are empty, while there were two objects at instant 50. -/
example : ∃ σ α, Execution demoCfg σ α ∧ (∀ i, ByDestructors (σ i)) ∧ StronglyFair demoCfg σ α ∧ FinitelyManyCalls α ∧
    (σ 50).mem.heap.length = 2 ∧ ∀ i, wholeTrace.length ≤ i → (σ i).handles = [] := by
  refine ⟨_, _, whole_loops.execution, whole_destructors, whole_fair, whole_finite, ?_, fun i hi => ?_⟩
  · have h := whole_loops.play_pre 50 (by decide)
    have : (checked demoCfg init (wholeTrace.take 50)).all (fun N => N.mem.heap.length == 2) = true := by decide +kernel
    rw [← h] at this
    simpa using this
  · rw [whole_loops.play_end rfl i hi]; decide +kernel

/-- Only the scheduler is fair: a thread that from some instant on could step at every instant does step. -/
def WeaklyFair (cfg : Cfg V) (σ : Nat → State V) (α : Nat → Option (Act V)) : Prop :=
  ∀ t, (∃ i, ∀ j, i ≤ j → Enabled cfg t (σ j)) → ∀ i, ∃ j, i ≤ j ∧ RunsAt α t j

/-- A drop is about to remove the last object; the `new` of an equal value meets its entry, again and again. -/
def waitTrace : List (Act Arc.Val) :=
  [.spawn, .spawn, .new 0 ⟨5, 1, []⟩ false] ++ runs 0 10 17 ++ [.drop 0 10] ++ runs 0 0 6 ++ [.new 1 ⟨5, 2, []⟩ false] ++ runs 1 0 3

/-- The start of that loop. -/
def waitS : State Arc.Val := { demo waitTrace with mem := { (demo waitTrace).mem with locks := fun _ => none } }


theorem wait_start : demo waitTrace = waitS := by
  have h : Reach demoCfg (demo waitTrace) := (demo_reach (by decide +kernel)).reach
  have hl : (demo waitTrace).mem.locks = fun _ => none := by
    funext i
    cases hi : (demo waitTrace).mem.locks i with
    | none => rfl
    | some j =>
      obtain ⟨t, c, cs, h1, _, h2⟩ := C82_lock_holder Arc.demoCfg_valid h hi
      have hall : (demo waitTrace).threads.all (fun cs => cs.head?.all Running.inUser) = true := by decide +kernel
      have := List.all_eq_true.mp hall _ (List.mem_of_getElem? h1)
      simp only [List.head?_cons, Option.all_some, h2] at this
      cases this
  show demo waitTrace = { demo waitTrace with mem := { (demo waitTrace).mem with locks := fun _ => none } }
  rw [← hl]

theorem wait_loops : Loops demoCfg waitTrace (runs 1 0 13) waitS := by
  refine ⟨?_, ?_⟩
  · rw [← wait_start]
    simp only [demo]; rw [Option.eq_some_iff_get_eq]; exact ⟨by decide +kernel, by rw [Option.get_eq_getD]⟩
  · have h1 : checked demoCfg waitS (runs 1 0 13) =
        some { waitS with mem := { waitS.mem with locks := fun i => if i = 1 then none else if i = 1 then some 2 else none } } := rfl
    have h2 : (fun i => if i = 1 then none else if i = 1 then some 2 else none : Nat → Option Tid) = fun _ => none := by
      funext i; split <;> rfl
    rw [h1, h2]; rfl

/-- On a loop in which one thread steps, no calls are made. -/
theorem finite_of_runs {p : List (Act Arc.Val)} {t : Tid} {n : Nat} (hn : 0 < n) : FinitelyManyCalls (lasso p (runs t 0 n)) := by
  refine ⟨p.length, fun i hi a ha => ?_⟩
  obtain ⟨k, q, hq, rfl⟩ := Loops.split (c := runs t 0 n) (by simpa [runs] using hn) hi
  rw [Loops.lasso_cyc k hq] at ha
  simp only [Option.some.injEq] at ha
  exact ⟨t, 0, by rw [← ha]; simp [runs]⟩

/-- C84 (c). A fair scheduler alone is not enough: with locks that may favour the same thread for ever, a drop can wait for its shard lock
for ever while the `new` of an equal value retries for ever, although nothing else happens. -/
theorem C84_weak_fairness_is_not_enough : ∃ (σ : Nat → State Arc.Val) (α : Nat → Option (Act Arc.Val)), Execution demoCfg σ α ∧
    (∀ i, ByDestructors (σ i)) ∧ WeaklyFair demoCfg σ α ∧ FinitelyManyCalls α ∧ ∃ n, ∀ i, n ≤ i → depths (σ i) = [1, 1] := by
  have L := wait_loops
  have hdep : ∀ i, waitTrace.length ≤ i → depths (play demoCfg (lasso waitTrace (runs 1 0 13)) i) = [1, 1] := fun i hi => by
    simpa using L.around (by decide) (f := fun N => depths N == [1, 1]) (by decide +kernel) i hi
  refine ⟨_, _, L.execution, fun i => byDestructors_of ?_, fun t h => ?_, finite_of_runs (by decide), waitTrace.length, hdep⟩
  · by_cases hi : i < waitTrace.length
    · exact L.before (f := byDestructors) (by decide +kernel) i hi
    · exact L.around (by decide) (f := byDestructors) (by decide +kernel) i (Nat.not_lt.mp hi)
  · obtain ⟨n, hn⟩ := h
    have hlt : t < 2 := by
      obtain ⟨c, cs, h1⟩ := enabled_top (hn (max n waitTrace.length) (Nat.le_max_left _ _))
      have h2 := hdep (max n waitTrace.length) (Nat.le_max_right _ _)
      have := (List.getElem?_eq_some_iff.mp h1).1
      have h3 := congrArg List.length h2
      simp only [depths, List.length_map, List.length_cons, List.length_nil] at h3
      rwa [h3] at this
    match t, hlt with
    | 0, _ =>
      obtain ⟨j, h1, h2⟩ := L.recurs (by decide) (P := fun N => ¬ Enabled demoCfg 0 N) (r := 2) (by decide)
        (N' := (checked demoCfg waitS ((runs 1 0 13).take 2)).get (by decide +kernel)) (Option.some_get _).symm (by
          rintro ⟨a, N', h⟩
          cases h) n
      exact absurd (hn j h1) h2
    | 1, _ => exact Loops.runs_again (by decide) (r := 0) (by decide) rfl

/-- C84 (d). Nor may `Hash` make calls: if `Hash`, called to find the value to be removed, interns an equal value, then this call waits for
ever, although scheduler and locks are strongly fair. -/
theorem C84_hash_waits_for_ever : ∃ (σ : Nat → State Arc.Val) (α : Nat → Option (Act Arc.Val)), Execution demoCfg σ α ∧
    StronglyFair demoCfg σ α ∧ FinitelyManyCalls α ∧ ∃ n, ∀ i, n ≤ i → depths (σ i) = [2] := by
  have L : Loops demoCfg spinTrace (runs 0 0 13) (spin 0) := by
    refine ⟨?_, ?_⟩
    · rw [← spin_start]
      simp only [demo]; rw [Option.eq_some_iff_get_eq]; exact ⟨by decide +kernel, by rw [Option.get_eq_getD]⟩
    · have h1 : checked demoCfg (spin 0) (runs 0 0 13) =
          some { spin 0 with mem := { (spin 0).mem with locks := fun i => if i = 1 then none else if i = 1 then some 2 else none } } := rfl
      have h2 : (fun i => if i = 1 then none else if i = 1 then some 2 else none : Nat → Option Tid) = fun _ => none := by
        funext i; split <;> rfl
      rw [h1, h2]; rfl
  have hdep : ∀ i, spinTrace.length ≤ i → depths (play demoCfg (lasso spinTrace (runs 0 0 13)) i) = [2] := fun i hi => by
    simpa using L.around (by decide) (f := fun N => depths N == [2]) (by decide +kernel) i hi
  refine ⟨_, _, L.execution, fun t h => ?_, finite_of_runs (by decide), spinTrace.length, hdep⟩
  obtain ⟨j, h1, h2⟩ := h spinTrace.length
  obtain ⟨c, cs, h3⟩ := enabled_top h2
  have h4 := congrArg List.length (hdep j h1)
  have h5 := (List.getElem?_eq_some_iff.mp h3).1
  simp only [depths, List.length_map, List.length_cons, List.length_nil] at h4
  have ht : t = 0 := by
    rw [h4] at h5
    exact Nat.lt_one_iff.mp h5
  subst ht
  exact Loops.runs_again (by decide) (r := 0) (by decide) rfl

end Src.ArcNest
