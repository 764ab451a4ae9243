import Verif.Src.ArcHeldLasso
import Verif.Props.ArcSourceHeld
/-!
C89: `ArcIntern`, with the functions as they are written and called by user code also while a lock is held, finishes every call under a fair
scheduler, if the calls under locks follow a hierarchy. Vocabulary (`Execution`, `Enabled`, `StepsAt`, `StronglyFair`, `FinitelyManyCalls`,
`Blocks`, `Ranked`) at the top of `Verif/Src/ArcHeldFair.lean`.
-/
namespace Src.ArcHeld
open Arc (Addr Tid Cell Cfg Res demoCfg)
open Src.ArcNest (Running Quiet)

variable {V : Type} [BEq V] [Hashable V] [EquivBEq V] [LawfulHashable V] {cfg : Cfg V}

/-- C89 (a). In every infinite execution in which the scheduler and the shard locks are strongly fair, the calls that user code makes inside
calls follow a hierarchy of shards, finitely many calls are made and no removal of a drop panics, all calls finish: from some instant on no
call is running. -/
theorem C89_fair_termination (hv : cfg.Valid) {σ : Nat → State V} {α : Nat → Option (Act V)} (h : Execution cfg σ α) {rank : Nat → Nat}
    (ho : ∀ i, Ranked cfg rank (σ i)) (hf : StronglyFair cfg σ α) (hn : FinitelyManyCalls α) : ∃ n, ∀ i, n ≤ i → Quiet (σ i).base :=
  fair_quiet hv h ho hf hn

/-- `Eq`, called by a lookup in shard 1, interns a value of shard 0. Later `Eq`, called by the removal of the object, does it again. All
calls are completed, and the other handles are dropped. -/
def wholeTrace : List (Act Arc.Val) := expand demoCfg init (
  calmTrace ++ runs 1 20 31 ++ [.act (.drop 0 10)] ++ runs 0 0 5 ++ [.act (.drop 1 10)] ++ runs 1 0 6 ++
  [.lock 1, .act (.new 1 ⟨8, 7, []⟩ false)] ++ runs 1 0 24 ++ [.act (.drop 0 20)] ++ runs 0 0 5 ++ [.act (.drop 1 20)] ++ runs 1 0 13)

/-- The end of it. -/
def wholeEnd : State Arc.Val := (walk demoCfg init wholeTrace).getD init

theorem whole_loops : Loops demoCfg wholeTrace [] wholeEnd :=
  ⟨by simp only [wholeEnd]; rw [Option.eq_some_iff_get_eq]; exact ⟨by decide +kernel, by rw [Option.get_eq_getD]⟩, rfl⟩

theorem quiet_of {X : State Arc.Val} (h : X.base.threads.all (·.isEmpty) = true) : Quiet X.base :=
  fun cs hcs => List.isEmpty_iff.mp (List.all_eq_true.mp h cs hcs)

theorem whole_fair : StronglyFair demoCfg (play demoCfg (lasso wholeTrace [])) (lasso wholeTrace []) := by
  intro t h
  obtain ⟨j, h1, h2⟩ := h wholeTrace.length
  rw [whole_loops.play_end rfl j h1] at h2
  obtain ⟨c, cs, h3⟩ := enabled_top h2
  have := quiet_of (X := wholeEnd) (by decide +kernel) _ (List.mem_of_getElem? h3)
  cases this

theorem finite_of_nil {p : List (Act Arc.Val)} : FinitelyManyCalls (lasso p []) :=
  ⟨p.length, fun i hi a ha => by simp [lasso, Nat.not_lt.mpr hi] at ha⟩

/-- Calls in shard 0 only are made in the other shards. Can be computed. -/
def rankedB (X : State Arc.Val) : Bool := X.base.threads.all fun cs => match cs with
  | c :: cs => match lookup demoCfg X.base.mem c with
    | some sh => cs.all fun o => sh == 0 && !decide ((0, o.id) ∈ X.held) && !decide (X.base.mem.locks 0 = some o.id) &&
        !(removing demoCfg o && decide (lookup demoCfg X.base.mem o = some 0))
    | none => true
  | [] => true

theorem rankedB_of {X : State Arc.Val} (hu : ∀ cs ∈ X.base.threads, ∀ c ∈ cs, ∀ ds ∈ X.base.threads, ∀ d ∈ ds, c.id = d.id → c = d)
    (h : rankedB X = true) : Ranked demoCfg (fun sh => min sh 1) X := by
  intro c cs hcs sh hl o ho sh' hb
  have h1 := List.all_eq_true.mp h _ hcs
  simp only [hl, List.all_eq_true, Bool.and_eq_true, beq_iff_eq, Bool.not_eq_true', decide_eq_false_iff_not, Bool.and_eq_false_iff] at h1
  obtain ⟨⟨⟨rfl, h2⟩, h3⟩, h4⟩ := h1 o ho
  have : sh' ≠ 0 := by
    rintro rfl
    rcases hb with (hb | hb) | ⟨ds, g1, d, g2, g3, g4, g5⟩
    · exact h2 hb
    · exact h3 hb
    · obtain rfl := hu _ g1 d g2 _ hcs o (List.mem_cons_of_mem _ ho) g3
      rcases h4 with h4 | h4
      · rw [g4] at h4; cases h4
      · exact h4 g5
  show min 0 1 < min sh' 1
  omega

theorem whole_ranked (i : Nat) : Ranked demoCfg (fun sh => min sh 1) (play demoCfg (lasso wholeTrace []) i) := by
  refine rankedB_of (fun cs hcs c hc ds hds d hd e => ?_) ?_
  · obtain ⟨_, S, s, hG⟩ := (good_reach Arc.demoCfg_valid (whole_loops.execution.reachND i).reach).1
    obtain ⟨t, ht⟩ := List.getElem?_of_mem hcs
    obtain ⟨u, hu⟩ := List.getElem?_of_mem hds
    exact (other_id hG.flat ht hu hc hd e).2
  · by_cases hi : i < wholeTrace.length
    · exact whole_loops.before (f := rankedB) (by decide +kernel) i hi
    · rw [whole_loops.play_end rfl i (Nat.not_lt.mp hi)]; decide +kernel

/-- What a computation shows about one instant. -/
theorem whole_at {f : State Arc.Val → Bool} (k : Nat) (hk : k ≤ wholeTrace.length) (h : (walk demoCfg init (wholeTrace.take k)).all f = true) :
    f (play demoCfg (lasso wholeTrace []) k) = true := by
  rw [← whole_loops.play_pre k hk] at h
  simpa using h

/-- The hypotheses are met. At instant 30 a call is running inside a lookup, and at instant 80 one inside a removal; both hold the lock of
shard 1. -/
example : ∃ σ α, Execution demoCfg σ α ∧ (∀ i, Ranked demoCfg (fun sh => min sh 1) (σ i)) ∧ StronglyFair demoCfg σ α ∧ FinitelyManyCalls α ∧
    (depths (σ 30) = [0, 2] ∧ (1, 1) ∈ (σ 30).held) ∧ depths (σ 80) = [0, 2] ∧ (1, 4) ∈ (σ 80).held ∧
      (σ 80).base.threads.any (fun cs => cs.tail.any (removing demoCfg)) = true := by
  refine ⟨_, _, whole_loops.execution, whole_ranked, whole_fair, finite_of_nil, ?_⟩
  have h1 := whole_at (f := fun X => depths X == [0, 2] && decide ((1, 1) ∈ X.held)) 30 (by decide +kernel) (by decide +kernel)
  have h2 := whole_at (f := fun X => depths X == [0, 2] && (decide ((1, 4) ∈ X.held) && X.base.threads.any fun cs => cs.tail.any (removing demoCfg))) 80
    (by decide +kernel) (by decide +kernel)
  simp only [Bool.and_eq_true, beq_iff_eq, decide_eq_true_eq] at h1 h2
  exact ⟨h1, h2⟩

/-- C89 (b). And from some instant on, whenever clients own no handle, everything has been released. -/
theorem C89_released (hv : cfg.Valid) {σ : Nat → State V} {α : Nat → Option (Act V)} (h : Execution cfg σ α) {rank : Nat → Nat}
    (ho : ∀ i, Ranked cfg rank (σ i)) (hf : StronglyFair cfg σ α) (hn : FinitelyManyCalls α) :
    ∃ n, ∀ i, n ≤ i → (σ i).base.handles = [] → (σ i).base.mem.heap = [] ∧ (σ i).base.mem.table = [] := by
  obtain ⟨n, hn⟩ := fair_quiet hv h ho hf hn
  exact ⟨n, fun i hi hh => C88_no_leak hv (h.reachND i) (hn i hi) hh⟩

/-- It happens: in the end no handle is left, while there were two objects at instant 80. -/
example : ∃ σ α, Execution demoCfg σ α ∧ (∀ i, Ranked demoCfg (fun sh => min sh 1) (σ i)) ∧ StronglyFair demoCfg σ α ∧ FinitelyManyCalls α ∧
    (σ 80).base.mem.heap.length = 2 ∧ ∀ i, wholeTrace.length ≤ i → (σ i).base.handles = [] := by
  refine ⟨_, _, whole_loops.execution, whole_ranked, whole_fair, finite_of_nil, ?_, fun i hi => ?_⟩
  · simpa using whole_at (f := fun X => X.base.mem.heap.length == 2) 80 (by decide +kernel) (by decide +kernel)
  · rw [whole_loops.play_end rfl i hi]; decide +kernel

/-- C89 (c). In particular, no hierarchy is needed if user code makes calls only where others need not wait for it: in destructors, and where
`Hash` is called before a lock is taken, but for a removal. -/
theorem C89_outside_locks (hv : cfg.Valid) {σ : Nat → State V} {α : Nat → Option (Act V)} (h : Execution cfg σ α)
    (ho : ∀ i, ∀ cs ∈ (σ i).base.threads, ∀ o ∈ cs.tail, ∀ sh, ¬ Blocks cfg (σ i) o.id sh) (hf : StronglyFair cfg σ α)
    (hn : FinitelyManyCalls α) : ∃ n, ∀ i, n ≤ i → Quiet (σ i).base :=
  fair_quiet hv h (rank := fun _ => 0) (fun i _ _ hcs _ _ o ho' sh' hb => absurd hb (ho i _ hcs o ho' sh')) hf hn

/-- `Hash`, called by `new` before the lock is taken, interns a value of the same shard; both calls are completed. -/
def hashTrace : List (Act Arc.Val) := expand demoCfg init (
  [.act .spawn, .act (.new 0 ⟨5, 1, []⟩ false)] ++ runs 0 10 3 ++ [.act (.new 0 ⟨7, 1, []⟩ false)] ++ runs 0 20 17 ++ runs 0 10 14)

/-- Suspended calls hold no lock and remove nothing. Can be computed. -/
def outsideB (X : State Arc.Val) : Bool := X.base.threads.all fun cs => cs.tail.all fun o =>
  (lookup demoCfg X.base.mem o).isSome && (X.held.all fun h => h.2 != o.id) && !removing demoCfg o

/-- A call that is about to look a value up, and has not taken the lock, holds no lock. -/
theorem before_lookup {cfg : Cfg V} (hv : cfg.Valid) {X : State V} (h : Reach cfg X) {cs : List (Running V)} (hcs : cs ∈ X.base.threads) {o : Running V}
    (ho : o ∈ cs) (hl : (lookup cfg X.base.mem o).isSome = true) (hh : ∀ h ∈ X.held, h.2 ≠ o.id) (sh : Nat) : ¬ Holds X o.id sh := by
  obtain ⟨⟨_, S, s, hG⟩, _⟩ := good_reach hv h
  rintro (hb | hb)
  · exact hh _ hb rfl
  · obtain ⟨sh', hl⟩ := Option.isSome_iff_exists.mp hl
    obtain ⟨h1, _⟩ := hG.flat.run cs hcs o ho
    obtain ⟨th, h2, h3⟩ := hG.sim.thread h1
    have h4 := lookup_no_lock h3 hl
    have h5 : s.locks sh = some o.id := by rw [hG.sim.shared.locks, hG.flat.mem]; exact hb
    obtain ⟨th', h6, h7⟩ := (hG.inv.lk sh o.id).mp h5
    rw [h2] at h6; cases h6
    rw [h4] at h7; cases h7

/-- The hypotheses are met, with a call inside a call at instant 10. -/
example : ∃ σ α, Execution demoCfg σ α ∧ (∀ i, ∀ cs ∈ (σ i).base.threads, ∀ o ∈ cs.tail, ∀ sh, ¬ Blocks demoCfg (σ i) o.id sh) ∧
    StronglyFair demoCfg σ α ∧ FinitelyManyCalls α ∧ depths (σ 10) = [2] := by
  have L : Loops demoCfg hashTrace [] ((walk demoCfg init hashTrace).getD init) :=
    ⟨by rw [Option.eq_some_iff_get_eq]; exact ⟨by decide +kernel, by rw [Option.get_eq_getD]⟩, rfl⟩
  refine ⟨_, _, L.execution, fun i cs hcs o ho sh hb => ?_, fun t h => ?_, finite_of_nil, ?_⟩
  · have hw : outsideB (play demoCfg (lasso hashTrace []) i) = true := by
      by_cases hi : i < hashTrace.length
      · exact L.before (by decide +kernel) i hi
      · rw [L.play_end rfl i (Nat.not_lt.mp hi)]; decide +kernel
    have h1 := List.all_eq_true.mp (List.all_eq_true.mp hw _ hcs) o ho
    simp only [Bool.and_eq_true, List.all_eq_true, bne_iff_ne, Bool.not_eq_true'] at h1
    have hr := (L.execution.reachND i).reach
    rcases hb with hb | ⟨ds, g1, d, g2, g3, g4, _⟩
    · exact before_lookup Arc.demoCfg_valid hr hcs (List.mem_of_mem_tail ho) h1.1.1 h1.1.2 sh hb
    · obtain ⟨_, S, s, hG⟩ := (good_reach Arc.demoCfg_valid hr).1
      obtain ⟨t, ht⟩ := List.getElem?_of_mem hcs
      obtain ⟨u, hu⟩ := List.getElem?_of_mem g1
      obtain ⟨_, rfl⟩ := other_id hG.flat ht hu (List.mem_of_mem_tail ho) g2 g3.symm
      rw [h1.2] at g4; cases g4
  · obtain ⟨j, h1, h2⟩ := h hashTrace.length
    rw [L.play_end rfl j h1] at h2
    obtain ⟨c, cs, h3⟩ := enabled_top h2
    have := quiet_of (X := (walk demoCfg init hashTrace).getD init) (by decide +kernel) _ (List.mem_of_getElem? h3)
    cases this
  · have h := L.play_pre 10 (by decide +kernel)
    have : (walk demoCfg init (hashTrace.take 10)).all (fun X => depths X == [2]) = true := by decide +kernel
    rw [← h] at this
    simpa using this

/-- `Eq` interns a value of the same shard. -/
def selfAll : List (Act Arc.Val) := expand demoCfg init (eqTrace ++ [.act (.new 1 ⟨7, 1, []⟩ false)] ++ runs 1 20 3)

/-- C89 (d). Without a hierarchy a call may never end, however fair the scheduler and the locks are: an `Eq` that interns a value of its own
shard waits for ever. -/
theorem C89_self_waits_for_ever : ∃ (σ : Nat → State Arc.Val) (α : Nat → Option (Act Arc.Val)), Execution demoCfg σ α ∧
    StronglyFair demoCfg σ α ∧ FinitelyManyCalls α ∧ ∃ n, ∀ i, n ≤ i → depths (σ i) = [0, 2] := by
  have L : Loops demoCfg selfAll [] ((walk demoCfg init selfAll).getD init) :=
    ⟨by rw [Option.eq_some_iff_get_eq]; exact ⟨by decide +kernel, by rw [Option.get_eq_getD]⟩, rfl⟩
  have hdep : depths ((walk demoCfg init selfAll).getD init) = [0, 2] := by decide +kernel
  refine ⟨_, _, L.execution, fun t h => ?_, finite_of_nil, selfAll.length, fun i hi => by rw [L.play_end rfl i hi]; exact hdep⟩
  obtain ⟨j, h1, h2⟩ := h selfAll.length
  rw [L.play_end rfl j h1] at h2
  obtain ⟨c, cs, h3⟩ := enabled_top h2
  have hlen : ((walk demoCfg init selfAll).getD init).base.threads.length = 2 := by decide +kernel
  have ht : t < 2 := hlen ▸ (List.getElem?_eq_some_iff.mp h3).1
  exfalso
  match t, ht with
  | 0, _ =>
    have h0 : (((walk demoCfg init selfAll).getD init).base.threads[0]?.map List.length) = some 0 := by decide +kernel
    rw [h3] at h0; cases h0
  | 1, _ =>
    have n1 : needs demoCfg ((walk demoCfg init selfAll).getD init).base 1 = some (1, 2) := by decide +kernel
    have n2 : ((walk demoCfg init selfAll).getD init).taken 1 = true := by decide +kernel
    have n3 : (1, 2) ∉ ((walk demoCfg init selfAll).getD init).held := by decide +kernel
    rcases h2 with ⟨X', h2⟩ | ⟨a, X', h2⟩
    · simp [step, n1, n2] at h2
    · simp [step, n1, n3] at h2

/-- `Hash`, called by the removal of a drop before the lock is taken, interns an equal value. -/
def spinTrace : List (Act Arc.Val) := expand demoCfg init (
  [.act .spawn, .act (.new 0 ⟨5, 1, []⟩ false)] ++ runs 0 10 17 ++ [.act (.drop 0 10)] ++ runs 0 0 6 ++ [.act (.new 0 ⟨5, 1, []⟩ false)] ++ runs 0 0 3)

def spinCycle : List (Act Arc.Val) := .lock 0 :: runs 0 0 13

/-- The start of that loop. -/
def spinEnd : State Arc.Val := (walk demoCfg init spinTrace).getD init
def spinS : State Arc.Val := { spinEnd with base := { spinEnd.base with mem := { spinEnd.base.mem with locks := fun _ => none } } }

theorem spin_walk : walk demoCfg init spinTrace = some spinEnd := by
  simp only [spinEnd]; rw [Option.eq_some_iff_get_eq]; exact ⟨by decide +kernel, by rw [Option.get_eq_getD]⟩

theorem spin_start : spinEnd = spinS := by
  have h : Reach demoCfg spinEnd := by
    have L : Loops demoCfg spinTrace [] spinEnd := ⟨spin_walk, rfl⟩
    have := (L.execution.reachND spinTrace.length).reach
    rwa [L.play_mid] at this
  have hl : spinEnd.base.mem.locks = fun _ => none := by
    funext i
    cases hi : spinEnd.base.mem.locks i with
    | none => rfl
    | some j =>
      obtain ⟨_, cs, h1, c, h2, rfl⟩ := C88_lock_unique Arc.demoCfg_valid h (.inr hi)
      have hall : spinEnd.base.threads.all (fun cs => cs.all fun c => (lookup demoCfg spinEnd.base.mem c).isSome) = true := by decide +kernel
      have hheld : spinEnd.held = [] := by decide +kernel
      exact absurd (.inr hi) (before_lookup Arc.demoCfg_valid h h1 h2 (List.all_eq_true.mp (List.all_eq_true.mp hall cs h1) c h2) (by rw [hheld]; exact fun _ h => by cases h) i)
  show spinEnd = { spinEnd with base := { spinEnd.base with mem := { spinEnd.base.mem with locks := fun _ => none } } }
  rw [← hl]

theorem spin_loops : Loops demoCfg spinTrace spinCycle spinS := by
  refine ⟨by rw [← spin_start]; exact spin_walk, ?_⟩
  have h1 : walk demoCfg spinS spinCycle = some { spinS with base := { spinS.base with mem := { spinS.base.mem with
      locks := fun i => if i = 1 then none else if i = 1 then some 2 else none } } } := rfl
  have h2 : (fun i => if i = 1 then none else if i = 1 then some 2 else none : Nat → Option Tid) = fun _ => none := by
    funext i; split <;> rfl
  rw [h1, h2]; rfl

/-- Every suspended call is about to look a value up, and has not taken the lock. Can be computed. -/
def waitingB (X : State Arc.Val) : Bool := X.base.threads.all fun cs => cs.tail.all fun o =>
  (lookup demoCfg X.base.mem o).isSome && X.held.all fun h => h.2 != o.id

/-- C89 (e). The removal counts, even before it takes its lock: if `Hash`, called to find the value to be removed, interns an equal value, then
this call waits for ever, although scheduler and locks are strongly fair and calls are never made under a lock (`Ordered` holds for every
rank). -/
theorem C89_removal_counts : ∃ (σ : Nat → State Arc.Val) (α : Nat → Option (Act Arc.Val)), Execution demoCfg σ α ∧
    (∀ rank i, Ordered demoCfg rank (σ i)) ∧ StronglyFair demoCfg σ α ∧ FinitelyManyCalls α ∧ ∃ n, ∀ i, n ≤ i → depths (σ i) = [2] := by
  have L := spin_loops
  have hdep : ∀ i, spinTrace.length ≤ i → depths (play demoCfg (lasso spinTrace spinCycle) i) = [2] := fun i hi => by
    simpa using L.around (by decide) (f := fun N => depths N == [2]) (by decide +kernel) i hi
  refine ⟨_, _, L.execution, fun rank i c cs hcs sh hl o ho sh' hb => ?_, fun t h => ?_, ?_, spinTrace.length, hdep⟩
  · have hw : waitingB (play demoCfg (lasso spinTrace spinCycle) i) = true := by
      by_cases hi : i < spinTrace.length
      · exact L.before (by decide +kernel) i hi
      · exact L.around (by decide) (by decide +kernel) i (Nat.not_lt.mp hi)
    have h1 := List.all_eq_true.mp (List.all_eq_true.mp hw _ hcs) o ho
    simp only [Bool.and_eq_true, List.all_eq_true, bne_iff_ne] at h1
    exact absurd hb (before_lookup Arc.demoCfg_valid (L.execution.reachND i).reach hcs (List.mem_cons_of_mem _ ho) h1.1 h1.2 sh')
  · obtain ⟨j, h1, h2⟩ := h spinTrace.length
    obtain ⟨c, cs, h3⟩ := enabled_top h2
    have h4 := congrArg List.length (hdep j h1)
    have h5 := (List.getElem?_eq_some_iff.mp h3).1
    simp only [depths, ArcNest.depths, List.length_map, List.length_cons, List.length_nil] at h4
    have ht : t = 0 := by
      rw [h4] at h5
      exact Nat.lt_one_iff.mp h5
    subst ht
    exact Loops.runs_again (by decide) (r := 1) (by decide) rfl
  · refine ⟨spinTrace.length, fun i hi a ha => ⟨0, ?_⟩⟩
    obtain ⟨k, q, hq, rfl⟩ := Loops.split (c := spinCycle) (by decide) hi
    simp only [StepsAt]
    rw [Loops.lasso_cyc k hq]
    match q, hq with
    | 0, _ => exact .inl rfl
    | q + 1, hq => exact .inr ⟨0, by simp only [spinCycle, List.getElem_cons_succ, runs, List.getElem_replicate]⟩

end Src.ArcHeld
