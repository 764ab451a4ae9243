import Verif.Arc.Lasso
/-!
C54: under a fair scheduler every call of `new` and `drop` finishes, if finitely many calls are made. Vocabulary
(`Execution`, `Enabled`, `RunsAt`, `StronglyFair`, `FinitelyManyCalls`) at the top of `Verif/Arc/Schedule.lean`.
-/
namespace Arc
variable {V : Type} [BEq V] [Hashable V] [EquivBEq V] [LawfulHashable V]

/-- C54 (a). In every infinite execution in which the scheduler and the shard locks are strongly fair, finitely many calls
are made and no drop panics, all calls finish: from some instant on no thread is inside a call. -/
theorem C54_fair_termination {cfg : Cfg V} (hv : cfg.Valid) {σ : Nat → State V} {α : Nat → Option (Act V)}
    (h : Execution cfg σ α) (hf : StronglyFair cfg σ α) (hn : FinitelyManyCalls α) :
    ∃ n, ∀ i, n ≤ i → Quiescent (σ i) := by
  obtain ⟨M, S⟩ := fair_settles hv h hf hn
  exact ⟨M, fun i hi => S.quiescent hv hi⟩

theorem quiescent_not_enabled {cfg : Cfg V} {s : State V} (hq : Quiescent s) (t : Tid) : ¬ Enabled cfg t s := by
  rintro ⟨a, s', h⟩
  have hR := step_R h
  cases hR with
  | run _ _ th _ ht hr =>
    have := isIdle_iff.mp (hq th (mem_of_getElem? ht))
    cases hr <;> simp_all

/-- The hypotheses are met: the execution in which a `new` meets the entry of an object whose last handle is being dropped,
retries, and finally creates the object again. -/
example : ∃ σ α, Execution demoCfg σ α ∧ StronglyFair demoCfg σ α ∧ FinitelyManyCalls α ∧
    α 2 = some (.new 0 ⟨5, 1, []⟩ false) ∧ α 11 = some (.new 1 ⟨5, 2, []⟩ false) ∧ α 9 = some (.drop 0 10) := by
  have L : Loops demoCfg reviveTrace [] (demoND reviveTrace) :=
    ⟨(Option.some_get (show (checked Act.plain demoCfg init reviveTrace).isSome = true by decide)).symm, rfl⟩
  refine ⟨_, _, L.execution, fun t h => ?_, ⟨reviveTrace.length, fun i hi a ha => ?_⟩, rfl, rfl, rfl⟩
  · obtain ⟨j, h1, h2⟩ := h reviveTrace.length
    rw [L.play_end rfl j h1] at h2
    exact absurd h2 (quiescent_not_enabled (by unfold Quiescent; decide) t)
  · simp [lasso, Nat.not_lt.mpr hi] at ha

/-- Only the scheduler is fair: a thread that from some instant on could step at every instant does step. -/
def WeaklyFair (cfg : Cfg V) (σ : Nat → State V) (α : Nat → Option (Act V)) : Prop :=
  ∀ t, (∃ i, ∀ j, i ≤ j → Enabled cfg t (σ j)) → ∀ i, ∃ j, i ≤ j ∧ RunsAt α t j

def liveP : List (Act Val) :=
  [.spawn, .spawn, .new 0 ⟨5, 1, []⟩ false, r 0, r 0 10, r 0, r 0, r 0, r 0, .drop 0 10, r 0, .new 1 ⟨5, 2, []⟩ false]
def liveC : List (Act Val) := [r 1, r 1, r 1, r 1]
def liveS : State Val :=
  { heap := [(10, ⟨0, ⟨5, 1, []⟩⟩)], table := [10], locks := fun _ => none, handles := [],
    threads := [{ pc := .dropRemove 10 }, { pc := .newLoop ⟨⟨5, 2, []⟩, false, none⟩, arg := some ⟨5, 2, []⟩ }], zombies := [] }

omit [EquivBEq V] [LawfulHashable V] in
theorem state_eq [EquivBEq V] [LawfulHashable V] {cfg : Cfg V} (hv : cfg.Valid) {s s' : State V} (h : Reach cfg s)
    (h1 : s.heap = s'.heap) (h2 : s.table = s'.table) (h3 : s.handles = s'.handles) (h4 : s.threads = s'.threads)
    (h5 : s.zombies = s'.zombies) (h6 : s'.locks = fun _ => none) (h7 : ∀ th ∈ s'.threads, th.pc.holds = none) : s = s' := by
  have hl : s.locks = s'.locks := by
    rw [h6]
    funext i
    cases hi : s.locks i with
    | none => rfl
    | some u =>
      obtain ⟨th, hu, hh⟩ := ((reach_inv hv h).lk i u).mp hi
      rw [h4] at hu
      rw [h7 th (mem_of_getElem? hu)] at hh; cases hh
  cases s; cases s'; simp_all

theorem checked_eq {cfg : Cfg V} (hv : cfg.Valid) {s s' : State V} (h : ReachND cfg s) {as : List (Act V)} {s1 : State V}
    (hc : checked Act.plain cfg s as = some s1)
    (h1 : s1.heap = s'.heap) (h2 : s1.table = s'.table) (h3 : s1.handles = s'.handles) (h4 : s1.threads = s'.threads)
    (h5 : s1.zombies = s'.zombies) (h6 : s'.locks = fun _ => none) (h7 : ∀ th ∈ s'.threads, th.pc.holds = none) :
    checked Act.plain cfg s as = some s' := by
  rw [hc, state_eq hv (checked_reachND as h hc).reach h1 h2 h3 h4 h5 h6 h7]

theorem live_loops : Loops demoCfg liveP liveC liveS := by
  have h1 : checked Act.plain demoCfg init liveP = some liveS :=
    checked_eq demoCfg_valid .init (Option.some_get (show (checked Act.plain demoCfg init liveP).isSome = true by decide)).symm
      (by decide) (by decide) (by decide) (by rfl) (by decide) rfl (by decide)
  refine ⟨h1, ?_⟩
  exact checked_eq demoCfg_valid (checked_reachND _ .init h1)
    (Option.some_get (show (checked Act.plain demoCfg liveS liveC).isSome = true by decide)).symm
      (by decide) (by decide) (by decide) (by rfl) (by decide) rfl (by decide)

theorem inCall_of {t : Tid} {s : State V} (h : (s.threads[t]?.map Thread.isIdle) = some false) : InCall t s := by
  cases ht : s.threads[t]? with
  | none => simp [ht] at h
  | some th => exact ⟨th, ht, by simpa [ht] using h⟩

/-- What a computation on the loop shows. -/
theorem around {cfg : Cfg V} {p c : List (Act V)} {s : State V} (L : Loops cfg p c s) (hc : 0 < c.length)
    {f : State V → Bool} (h : (List.range c.length).all (fun r => (checked Act.plain cfg s (c.take r)).all f) = true) :
    ∀ i, p.length ≤ i → f (play cfg (lasso p c) i) = true := by
  refine L.forever hc (P := fun s => f s = true) fun r hr s' hs' => ?_
  have := List.all_eq_true.mp h r (List.mem_range.mpr hr)
  rw [hs'] at this
  exact this

/-- C54 (b). A fair scheduler alone is not enough: with locks that may favour the same thread for ever, a `drop` can wait
for its shard lock for ever while the `new` of an equal value retries for ever, although nothing else happens. -/
theorem C54_weak_fairness_is_not_enough : ∃ σ α, Execution demoCfg σ α ∧ WeaklyFair demoCfg σ α ∧ FinitelyManyCalls α ∧
    ∃ n, ∀ i, n ≤ i → InCall 0 (σ i) ∧ InCall 1 (σ i) := by
  have L := live_loops
  have hlen := around L (by decide) (f := fun s => s.threads.length == 2) (by decide)
  refine ⟨_, _, L.execution, fun t h => ?_, ⟨liveP.length, fun i hi a ha => ?_⟩, liveP.length, fun i hi => ?_⟩
  · obtain ⟨n, hn⟩ := h
    have hlt : t < 2 := by
      have h1 := enabled_lt (hn (max n liveP.length) (Nat.le_max_left _ _))
      have h2 := hlen (max n liveP.length) (Nat.le_max_right _ _)
      simp only [beq_iff_eq] at h2
      rwa [h2] at h1
    match t, hlt with
    | 0, _ =>
      obtain ⟨j, h1, h2⟩ := L.recurs (c := liveC) (by decide) (P := fun s => ¬ Enabled demoCfg 0 s) (r := 1) (by decide)
        (s' := (checked Act.plain demoCfg liveS (liveC.take 1)).get (by decide)) (Option.some_get _).symm (by
          rintro ⟨a, s', h⟩
          cases h) n
      exact absurd (hn j h1) h2
    | 1, _ => exact Loops.runs_again (by decide) (r := 0) (by decide) rfl
  · obtain ⟨k, q, hq, rfl⟩ := Loops.split (c := liveC) (by decide) hi
    rw [Loops.lasso_cyc k hq] at ha
    simp only [Option.some.injEq] at ha
    have hm : ∀ x ∈ liveC, x = r 1 := by simp [liveC]
    exact ⟨1, 0, by rw [← ha]; exact hm _ (List.getElem_mem hq)⟩
  · exact ⟨inCall_of (by simpa using around L (by decide) (f := fun s => s.threads[0]?.map Thread.isIdle == some false) (by decide) i hi),
      inCall_of (by simpa using around L (by decide) (f := fun s => s.threads[1]?.map Thread.isIdle == some false) (by decide) i hi)⟩

def starveP : List (Act Val) :=
  [.spawn, .spawn, .new 0 ⟨5, 1, []⟩ false, r 0, r 0 10, r 0, r 0, r 0, r 0, .new 1 ⟨5, 2, []⟩ false]
def starveC : List (Act Val) :=
  [.drop 0 10, r 0, r 1, r 1, r 1, r 1, r 0, r 0, .new 0 ⟨5, 1, []⟩ false, r 0, r 0 10, r 0, r 0, r 0, r 0]
def starveS : State Val :=
  { heap := [(10, ⟨1, ⟨5, 1, []⟩⟩)], table := [10], locks := fun _ => none, handles := [10],
    threads := [{}, { pc := .newLoop ⟨⟨5, 2, []⟩, false, none⟩, arg := some ⟨5, 2, []⟩ }], zombies := [] }

theorem starve_loops : Loops demoCfg starveP starveC starveS := by
  have h1 : checked Act.plain demoCfg init starveP = some starveS :=
    checked_eq demoCfg_valid .init (Option.some_get (show (checked Act.plain demoCfg init starveP).isSome = true by decide)).symm
      (by decide) (by decide) (by decide) (by rfl) (by decide) rfl (by decide)
  refine ⟨h1, ?_⟩
  exact checked_eq demoCfg_valid (checked_reachND _ .init h1)
    (Option.some_get (show (checked Act.plain demoCfg starveS starveC).isSome = true by decide)).symm
      (by decide) (by decide) (by decide) (by rfl) (by decide) rfl (by decide)

/-- C54 (c). With infinitely many calls, `new` may starve even if scheduler and locks are strongly fair: another thread that
keeps dropping and re-creating the value can make every lookup of thread 1 meet a dying entry. -/
theorem C54_starvation_possible : ∃ σ α, Execution demoCfg σ α ∧ StronglyFair demoCfg σ α ∧
    (∃ n, ∀ i, n ≤ i → InCall 1 (σ i)) ∧ ∀ t, t < 2 → ∀ i, ∃ j, i ≤ j ∧ RunsAt α t j := by
  have L := starve_loops
  have hlen := around L (by decide) (f := fun s => s.threads.length == 2) (by decide)
  have hruns : ∀ t, t < 2 → ∀ i, ∃ j, i ≤ j ∧ RunsAt (lasso starveP starveC) t j := by
    intro t ht
    match t, ht with
    | 0, _ => exact Loops.runs_again (by decide) (r := 1) (by decide) rfl
    | 1, _ => exact Loops.runs_again (by decide) (r := 2) (by decide) rfl
  refine ⟨_, _, L.execution, fun t h => hruns t ?_, ⟨starveP.length, fun i hi => ?_⟩, hruns⟩
  · obtain ⟨j, h1, h2⟩ := h starveP.length
    have h3 := enabled_lt h2
    have h4 := hlen j h1
    simp only [beq_iff_eq] at h4
    rwa [h4] at h3
  · exact inCall_of (by simpa using around L (by decide) (f := fun s => s.threads[1]?.map Thread.isIdle == some false) (by decide) i hi)

end Arc
