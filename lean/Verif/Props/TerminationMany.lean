import Verif.Props.Termination
import Verif.Props.TransparentMany
/-
C102: as C101, for programs that use several types and several arenas at once.
-/
namespace Client
open Traits (Methods)
open Pool (Ptr)

section
variable {K V R : Type} [DecidableEq K] [BEq V] [EquivBEq V] [Hashable V] [LawfulHashable V] {ps : List (Prog (K × V) R)} {n : Nat} {ks : K → Prop}
  {M : Methods (K × V)}

theorem pools_idles {cfg : Pool.Cfg K V} (lay : cfg.Layout) {σ : Nat → Src.PoolCode.State K V}
    {α : Nat → Option (Src.PoolCode.Act K V)} (hx : Src.PoolCode.Execution cfg σ α) (hf : Src.PoolCode.StronglyFair cfg σ α)
    (hu : Src.PoolCode.UserCodeEnds σ α) {rank : Nat → Nat} (hk : ∀ i, Src.PoolCode.Ranked cfg rank (σ i)) {m : Nat}
    (hm : ∀ i, (σ i).threads.length ≤ m) {ω : Nat → World (pools cfg ks) R} {s : Nat} (hω : ∀ i, (ω i).state = σ (s + i))
    (h : Starts ps n (ω 0)) (t : Nat) (ht : t < ps.length) (i : Nat) : ∃ j, i ≤ j ∧ (pools cfg ks).idle (ω j).state t := by
  obtain ⟨j, h1, h2⟩ := Src.PoolCode.C85_starvation_free lay hx hf hu hk hm t (s + i)
  refine ⟨j - s, by omega, ?_⟩
  have h0 : (σ s).threads[t]? = some [] := by
    have := h.idle t ht
    rw [hω 0] at this
    exact this
  obtain ⟨cs, h3⟩ := pool_thread hx h0 (j - s)
  show (ω (j - s)).state.threads[t]? = some []
  rw [hω, h3]
  rw [show s + (j - s) = j by omega] at h3
  have h2 : (σ j).threads[t]?.getD [] = [] := h2
  rw [h3] at h2
  exact congrArg some h2

/-- **C102** for the `Intern`s and arenas in `ks`, which are all that the program uses. `σ` is an infinite execution of the process, as in C85, and from instant `s` on the program runs in it.
A thread that neither sends nor receives comes to its end, with the result computed with values, whatever the rest of the program and of the
process do. -/
theorem C102_pools {cfg : Pool.Cfg K V} (lay : cfg.Layout) (hM : M.Lawful) {σ : Nat → Src.PoolCode.State K V}
    {α : Nat → Option (Src.PoolCode.Act K V)} (hx : Src.PoolCode.Execution cfg σ α) (hf : Src.PoolCode.StronglyFair cfg σ α)
    (hu : Src.PoolCode.UserCodeEnds σ α) {rank : Nat → Nat} (hk : ∀ i, Src.PoolCode.Ranked cfg rank (σ i)) {m : Nat}
    (hm : ∀ i, (σ i).threads.length ≤ m) {ω : Nat → World (pools cfg ks) R} {s : Nat} (hω : ∀ i, (ω i).state = σ (s + i))
    (ho : ∀ g ∈ ps, g.Only fun x => ks x.1) (h : Starts ps n (ω 0)) (hp : Passes M ω) (ha : Attentive M ω) {t : Nat} {g : Prog (K × V) R}
    (hg : ps[t]? = some g) (hal : g.Alone) {r : R} (he : g.eval M [] = some r) : ∃ j, ∀ i, j ≤ i → (ω i).conf.progs[t]? = some (.done r) :=
  comes_to_end (pools_laws lay) hM pools_can ho h hp ha (pools_idles lay hx hf hu hk hm hω h) hg hal he

/-- **C102** for these, and programs with messages: the program comes to a stop, in a state that the program with values can
get to, and in which it cannot go on either. So a program stops before its end only if it has a deadlock of its own, or uses a variable that it
does not have. -/
theorem C102_pools_settles {cfg : Pool.Cfg K V} (lay : cfg.Layout) (hM : M.Lawful) {σ : Nat → Src.PoolCode.State K V}
    {α : Nat → Option (Src.PoolCode.Act K V)} (hx : Src.PoolCode.Execution cfg σ α) (hf : Src.PoolCode.StronglyFair cfg σ α)
    (hu : Src.PoolCode.UserCodeEnds σ α) {rank : Nat → Nat} (hk : ∀ i, Src.PoolCode.Ranked cfg rank (σ i)) {m : Nat}
    (hm : ∀ i, (σ i).threads.length ≤ m) {ω : Nat → World (pools cfg ks) R} {s : Nat} (hω : ∀ i, (ω i).state = σ (s + i))
    (ho : ∀ g ∈ ps, g.Only fun x => ks x.1) (h : Starts ps n (ω 0)) (hp : Passes M ω) (ha : Attentive M ω) :
    ∃ j c, VRun M (start ps n) c ∧ (∀ c', ¬ VStep M c c') ∧ ∀ i, j ≤ i → (ω i).conf.progs = c.progs ∧ Same (ω i) c := by
  obtain ⟨j, c, h1, h2, h3⟩ := settles (pools_laws lay) hM pools_can ho h hp ha (pools_idles lay hx hf hu hk hm hω h)
  exact ⟨j, c, h1, h2, fun i hi => ⟨(h3 i hi).progs.symm, h3 i hi⟩⟩

theorem newInterns_idles {cfg : Src.NewCode.Cfg K V} (lay : cfg.Layout) {σ : Nat → Src.NewCode.State K V}
    {α : Nat → Option (Src.NewCode.Act K V)} (hx : Src.NewCode.Execution cfg σ α) (hf : Src.NewCode.StronglyFair cfg σ α)
    (hu : Src.NewCode.UserCodeEnds σ α) {rank : K → Nat} (hk : ∀ i, Src.NewCode.Ranked rank (σ i)) {m : Nat}
    (hm : ∀ i, (σ i).threads.length ≤ m) {ω : Nat → World (newInterns cfg) R} {s : Nat} (hω : ∀ i, (ω i).state = σ (s + i))
    (h : Starts ps n (ω 0)) (t : Nat) (ht : t < ps.length) (i : Nat) : ∃ j, i ≤ j ∧ (newInterns cfg).idle (ω j).state t := by
  obtain ⟨j, h1, h2⟩ := Src.NewCode.C87_starvation_free lay hx hf hu hk hm t (s + i)
  refine ⟨j - s, by omega, ?_⟩
  have h0 : (σ s).threads[t]? = some [] := by
    have := h.idle t ht
    rw [hω 0] at this
    exact this
  obtain ⟨cs, h3⟩ := new_thread hx h0 (j - s)
  show (ω (j - s)).state.threads[t]? = some []
  rw [hω, h3]
  rw [show s + (j - s) = j by omega] at h3
  have h2 : (σ j).threads[t]?.getD [] = [] := h2
  rw [h3] at h2
  exact congrArg some h2

/-- **C102** for all `Intern`s of typearena.rs, in an execution as in C87. -/
theorem C102_new {cfg : Src.NewCode.Cfg K V} (lay : cfg.Layout) (hM : M.Lawful) {σ : Nat → Src.NewCode.State K V}
    {α : Nat → Option (Src.NewCode.Act K V)} (hx : Src.NewCode.Execution cfg σ α) (hf : Src.NewCode.StronglyFair cfg σ α)
    (hu : Src.NewCode.UserCodeEnds σ α) {rank : K → Nat} (hk : ∀ i, Src.NewCode.Ranked rank (σ i)) {m : Nat}
    (hm : ∀ i, (σ i).threads.length ≤ m) {ω : Nat → World (newInterns cfg) R} {s : Nat} (hω : ∀ i, (ω i).state = σ (s + i))
    (h : Starts ps n (ω 0)) (hp : Passes M ω) (ha : Attentive M ω) {t : Nat} {g : Prog (K × V) R}
    (hg : ps[t]? = some g) (hal : g.Alone) {r : R} (he : g.eval M [] = some r) : ∃ j, ∀ i, j ≤ i → (ω i).conf.progs[t]? = some (.done r) :=
  comes_to_end (newInterns_laws lay) hM newInterns_can (fun g _ => only_all g) h hp ha (newInterns_idles lay hx hf hu hk hm hω h) hg hal he

/-- **C102** for all `Intern`s of typearena.rs, and programs with messages. -/
theorem C102_new_settles {cfg : Src.NewCode.Cfg K V} (lay : cfg.Layout) (hM : M.Lawful) {σ : Nat → Src.NewCode.State K V}
    {α : Nat → Option (Src.NewCode.Act K V)} (hx : Src.NewCode.Execution cfg σ α) (hf : Src.NewCode.StronglyFair cfg σ α)
    (hu : Src.NewCode.UserCodeEnds σ α) {rank : K → Nat} (hk : ∀ i, Src.NewCode.Ranked rank (σ i)) {m : Nat}
    (hm : ∀ i, (σ i).threads.length ≤ m) {ω : Nat → World (newInterns cfg) R} {s : Nat} (hω : ∀ i, (ω i).state = σ (s + i))
    (h : Starts ps n (ω 0)) (hp : Passes M ω) (ha : Attentive M ω) :
    ∃ j c, VRun M (start ps n) c ∧ (∀ c', ¬ VStep M c c') ∧ ∀ i, j ≤ i → (ω i).conf.progs = c.progs ∧ Same (ω i) c := by
  obtain ⟨j, c, h1, h2, h3⟩ := settles (newInterns_laws lay) hM newInterns_can (fun g _ => only_all g) h hp ha (newInterns_idles lay hx hf hu hk hm hω h)
  exact ⟨j, c, h1, h2, fun i hi => ⟨(h3 i hi).progs.symm, h3 i hi⟩⟩

end

/-! ### The hypotheses are met -/

section
open Pool.Demo (cfg)
open Src.NewCode (dcfg dlayout)

abbrev TypedVal := Nat × Pool.Demo.Val

def pairMethods : Methods TypedVal := ofCmp (pairCmp poolMethods)

theorem pairMethods_lawful : pairMethods.Lawful := pair_lawful poolMethods_lawful

/-- Thread 0 uses type 0. -/
def sender2 : Prog TypedVal (Bool × Ordering × Nat) := .intern (0, ⟨5, 1⟩) (.clone 0 (.drop 0 (.give 0 1 (.done (false, .lt, 0)))))

/-- Thread 1 uses type 0 too. -/
def receiver2 : Prog TypedVal (Bool × Ordering × Nat) :=
  .intern (0, ⟨5, 2⟩) (.take 0 (.eq 0 1 fun b => .cmp 0 1 fun o => .read 1 fun x => .done (b, o, x.2.cls)))

/-- Thread 2 interns equal values in arena 2 (in typearena.rs, type 2) and with type 0. The handles are not the same. -/
def loner2 : Prog TypedVal (Bool × Ordering × Nat) :=
  .intern (2, ⟨6, 1⟩) (.intern (0, ⟨6, 3⟩) (.eq 0 1 fun b => .cmp 0 1 fun o => .read 1 fun x => .done (b, o, x.2.cls)))

theorem loner2_alone : loner2.Alone := by
  refine .intern (.intern (.eq fun b => .cmp fun o => .read (fun x => .done _) fun x y h => ?_))
  have h : ((x.1, x.2) == (y.1, y.2)) = true := h
  rw [eq_of_beq (show (x.2.cls == y.2.cls) = true from ((pair_beq ..).mp h).2)]

theorem progs_only : ∀ g ∈ [sender2, receiver2, loner2], g.Only fun x => x.1 ∈ [0, 2] := by
  intro g hg
  simp only [List.mem_cons, List.not_mem_nil, or_false] at hg
  rcases hg with rfl | rfl | rfl
  · exact .intern (by simp) (.clone (.drop (.give (.done _))))
  · exact .intern (by simp) (.take (.eq fun _ => .cmp fun _ => .read fun _ => .done _))
  · exact .intern (by simp) (.intern (by simp) (.eq fun _ => .cmp fun _ => .read fun _ => .done _))

/-! #### `Intern` and an arena -/

def poolsStart : World (pools cfg (· ∈ [0, 2])) (Bool × Ordering × Nat) :=
  ⟨Src.PoolCode.demo [.spawn, .spawn, .spawn], start [sender2, receiver2, loner2] 1⟩

theorem poolsStart_starts : Starts [sender2, receiver2, loner2] 1 poolsStart where
  conf := rfl
  reach := Src.PoolCode.demo_reach (l := [.spawn, .spawn, .spawn]) (by decide +kernel)
  owns := by
    refine ⟨fun k _ => ?_, fun _ h => (Nat.lt_irrefl _ h).elim⟩
    have : (Src.PoolCode.demo [.spawn, .spawn, .spawn]).gone = [] := by decide +kernel
    show k ∉ (Src.PoolCode.demo [.spawn, .spawn, .spawn]).gone
    rw [this]; exact List.not_mem_nil
  idle := by
    intro t ht
    have : ∀ t < 3, empty ((Src.PoolCode.demo [.spawn, .spawn, .spawn]).threads[t]?) = true := by decide +kernel
    exact empty_iff.mp (this t ht)

/-- The events of an example. -/
def poolsEvents : List (List Src.PoolCode.Cmd × Ev Src.PoolCode.Cmd) :=
  [([], .call 0), ([], .call 1), ([], .call 2), ([.run 0 10], .ret 0 10), ([.run 1 20], .ret 1 20), ([], .clone 0), ([], .drop 0), ([], .dropped 0),
    ([], .look 0), ([], .look 1), ([.run 2 30], .ret 2 30), ([], .look 1), ([], .call 2), ([], .look 1), ([.run 2 40], .ret 2 40), ([], .look 1),
    ([], .look 2), ([], .look 2), ([], .look 2)]

def poolsFilm (i : Nat) : World (pools cfg (· ∈ [0, 2])) (Bool × Ordering × Nat) := shot (poolsMachine [0, 2]) pairMethods i poolsStart poolsEvents

/-- The process: three threads are started, then the program. -/
def poolsProcess : Nat → Src.PoolCode.State Nat Pool.Demo.Val
  | 0 => Src.PoolCode.init
  | 1 => { Src.PoolCode.init with threads := [[]] }
  | 2 => { Src.PoolCode.init with threads := [[], []] }
  | i + 3 => (poolsFilm i).state

theorem poolsFilm_ends : ∃ w, play (poolsMachine [0, 2]) pairMethods 400 poolsStart poolsEvents = some w ∧
    (∀ th ∈ w.conf.threads, (∃ r, th.prog = .done r) ∧ th.phase = .own) ∧ ∀ cs ∈ w.state.threads, cs = [] := by
  have : (match play (poolsMachine [0, 2]) pairMethods 400 poolsStart poolsEvents with
    | some w => w.conf.threads.all isDone && w.state.threads.all List.isEmpty
    | none => false) = true := by decide +kernel
  have h := this
  split at h
  · rename_i w hw
    obtain ⟨h1, h2⟩ := Bool.and_eq_true_iff.mp h
    exact ⟨w, hw, fun th ht => isDone_done (List.all_eq_true.mp h1 th ht), fun cs hc => List.isEmpty_iff.mp (List.all_eq_true.mp h2 cs hc)⟩
  · cases h

theorem poolsFilm_flat (i : Nat) : (∀ cs ∈ (poolsFilm i).state.threads, cs.length ≤ 1) ∧
    (poolsFilm i).state.threads.length ≤ 3 := by
  have : holds (I := pools cfg (· ∈ [0, 2])) (R := Bool × Ordering × Nat)
    (fun w => w.state.threads.all (fun cs => decide (cs.length ≤ 1)) && decide (w.state.threads.length ≤ 3))
    (poolsMachine [0, 2]) pairMethods 400 poolsStart poolsEvents = true := by decide +kernel
  have h : (fun w : World (pools cfg (· ∈ [0, 2])) (Bool × Ordering × Nat) => w.state.threads.all (fun cs => decide (cs.length ≤ 1)) &&
      decide (w.state.threads.length ≤ 3)) (poolsFilm i) = true := by
    by_cases hi : i ≤ 400
    · exact holds_shot this hi
    · obtain ⟨w, hw, _⟩ := poolsFilm_ends
      obtain ⟨j, hj⟩ : ∃ j, j = 400 := ⟨_, rfl⟩
      rw [poolsFilm, shot_end hw (by omega), ← shot_end hw (i := j) (by omega)]
      exact holds_shot this (by omega)
  obtain ⟨h1, h2⟩ := Bool.and_eq_true_iff.mp h
  exact ⟨fun cs hc => of_decide_eq_true (List.all_eq_true.mp h1 cs hc), of_decide_eq_true h2⟩

theorem pools_step {R : Type} {w w' : World (pools cfg (· ∈ [0, 2])) R} {M : Methods TypedVal} (h : WStep M w w') :
    w'.state = w.state ∨ ∃ a, a.Lawful ∧ Src.PoolCode.step cfg w.state a = .ok w'.state := by
  cases h with
  | inside h _ _ => exact .inr h
  | look _ _ _ => exact .inl rfl
  | call _ _ _ h _ =>
    obtain ⟨_, _, q, byRef, hl, e⟩ := h
    exact .inr ⟨.call _ (.intern _ q _) byRef, hl, e⟩
  | ret _ _ _ h =>
    obtain ⟨_, c, a, q, v, _, e, _⟩ := h
    exact .inr ⟨.run _ a, trivial, e⟩
  | clone _ _ _ _ h => exact .inl h.2
  | drop _ _ _ _ h => exact .inl h.2
  | dropped _ _ _ => exact .inl rfl

theorem poolsProcess_step (i : Nat) : poolsProcess (i + 1) = poolsProcess i ∨
    ∃ a, a.Lawful ∧ Src.PoolCode.step cfg (poolsProcess i) a = .ok (poolsProcess (i + 1)) := by
  match i with
  | 0 => exact .inr ⟨.spawn, trivial, rfl⟩
  | 1 => exact .inr ⟨.spawn, trivial, rfl⟩
  | 2 => exact .inr ⟨.spawn, trivial, rfl⟩
  | i + 3 =>
    rcases shot_passes (poolsMachine [0, 2]) pairMethods poolsStart poolsEvents i with h | h
    · exact .inl (congrArg World.state h)
    · exact pools_step h

theorem poolsProcess_flat (i : Nat) : (∀ cs ∈ (poolsProcess i).threads, cs.length ≤ 1) ∧ (poolsProcess i).threads.length ≤ 3 := by
  match i with
  | 0 => simp [poolsProcess, Src.PoolCode.init]
  | 1 => simp [poolsProcess]
  | 2 => simp [poolsProcess]
  | i + 3 => exact poolsFilm_flat i

theorem pools_still {i : Nat} (hi : 403 ≤ i) (t : Tid) : Src.PoolCode.Idle (poolsProcess i) t := by
  obtain ⟨w, hw, _, h⟩ := poolsFilm_ends
  obtain ⟨i, rfl⟩ : ∃ m, i = m + 3 := ⟨i - 3, by omega⟩
  show ((poolsFilm i).state.threads[t]?).getD [] = []
  rw [poolsFilm, shot_end hw (by omega)]
  cases e : w.state.threads[t]? with
  | none => rfl
  | some cs => exact h cs (List.mem_of_getElem? e)

/-- The hypotheses are met, with an `Intern` and an arena in one program. -/
example : ∃ α, Src.PoolCode.Execution cfg poolsProcess α ∧ Src.PoolCode.StronglyFair cfg poolsProcess α ∧
    Src.PoolCode.UserCodeEnds poolsProcess α ∧ (∀ i, Src.PoolCode.Ranked cfg id (poolsProcess i)) ∧ (∀ i, (poolsProcess i).threads.length ≤ 3) ∧
    (∀ i, (poolsFilm i).state = poolsProcess (3 + i)) ∧ Starts [sender2, receiver2, loner2] 1 (poolsFilm 0) ∧ Passes pairMethods poolsFilm ∧
    Attentive pairMethods poolsFilm ∧ loner2.eval pairMethods [] = some (false, .gt, 6) ∧
    (poolsFilm 30).conf.results = [none, none, none] ∧ (∃ j, ∀ i, j ≤ i → (poolsFilm i).conf.progs[2]? = some (.done (false, .gt, 6))) ∧
    ∃ j c, VRun pairMethods (start [sender2, receiver2, loner2] 1) c ∧ (∀ c', ¬ VStep pairMethods c c') ∧ ∀ i, j ≤ i → (poolsFilm i).conf.progs = c.progs ∧ Same (poolsFilm i) c := by
  let ok : Nat → Option (Src.PoolCode.Act Nat Pool.Demo.Val) → Prop := fun i a => match a with
    | none => poolsProcess (i + 1) = poolsProcess i
    | some a => a.Lawful ∧ Src.PoolCode.step cfg (poolsProcess i) a = .ok (poolsProcess (i + 1))
  obtain ⟨α, hα⟩ : ∃ α : Nat → Option (Src.PoolCode.Act Nat Pool.Demo.Val), ∀ i, ok i (α i) := by
    refine Classical.axiomOfChoice fun i => ?_
    rcases poolsProcess_step i with h | ⟨a, h⟩
    · exact ⟨none, h⟩
    · exact ⟨some a, h⟩
  have hx : Src.PoolCode.Execution cfg poolsProcess α := by
    refine ⟨rfl, fun i => ?_⟩
    have h := hα i
    cases e : α i <;> rw [e] at h <;> exact h
  have hf : Src.PoolCode.StronglyFair cfg poolsProcess α := by
    intro t h
    obtain ⟨j, hj, a, S', e⟩ := h 403
    have h1 := pools_still hj t
    exfalso
    simp only [Src.PoolCode.step] at e
    have h1 : ((poolsProcess j).threads[t]?).getD [] = [] := h1
    cases h2 : (poolsProcess j).threads[t]? with
    | none => rw [h2] at e; cases e
    | some cs =>
      rw [h2] at h1 e
      have h1 : cs = [] := h1
      subst h1; cases e
  have hu : Src.PoolCode.UserCodeEnds poolsProcess α := fun t => .inl fun i => ⟨i + 403, by omega, pools_still (by omega) t⟩
  have hr : ∀ i, Src.PoolCode.Ranked cfg id (poolsProcess i) := fun i => Src.PoolCode.ranked_flat (poolsProcess_flat i).1 _
  have hm : ∀ i, (poolsProcess i).threads.length ≤ 3 := fun i => (poolsProcess_flat i).2
  have hω : ∀ i, (poolsFilm i).state = poolsProcess (3 + i) := fun i => by rw [Nat.add_comm]; rfl
  have hs : Starts [sender2, receiver2, loner2] 1 (poolsFilm 0) := poolsStart_starts
  have hp : Passes pairMethods poolsFilm := shot_passes (poolsMachine [0, 2]) pairMethods poolsStart poolsEvents
  have ha : Attentive pairMethods poolsFilm := by
    obtain ⟨w, hw, h, _⟩ := poolsFilm_ends
    exact ended_attentive (fun i hi => shot_end hw hi) h
  refine ⟨α, hx, hf, hu, hr, hm, hω, hs, hp, ha, rfl, ?_, C102_pools Pool.Demo.layout pairMethods_lawful hx hf hu hr hm hω progs_only hs hp ha (t := 2) rfl loner2_alone rfl,
    C102_pools_settles Pool.Demo.layout pairMethods_lawful hx hf hu hr hm hω progs_only hs hp ha⟩
  have : (poolsFilm 30).conf.results = [none, none, none] := by decide +kernel
  exact this

/-! #### typearena.rs -/

def newInternsStart : World (newInterns dcfg) (Bool × Ordering × Nat) :=
  ⟨Src.NewCode.demo [.spawn, .spawn, .spawn], start [sender2, receiver2, loner2] 1⟩

theorem newInternsStart_starts : Starts [sender2, receiver2, loner2] 1 newInternsStart where
  conf := rfl
  reach := Src.NewCode.demo_reach (l := [.spawn, .spawn, .spawn]) (by decide +kernel)
  owns := fun _ h => (Nat.lt_irrefl _ h).elim
  idle := by
    intro t ht
    have : ∀ t < 3, empty ((Src.NewCode.demo [.spawn, .spawn, .spawn]).threads[t]?) = true := by decide +kernel
    exact empty_iff.mp (this t ht)

/-- The events of an example. -/
def newInternsEvents : List (List Src.NewCode.Cmd × Ev Src.NewCode.Cmd) :=
  [([], .call 0), ([], .call 1), ([], .call 2), (in_ 0 10, .ret 0 10), (in_ 1 20, .ret 1 20), ([], .clone 0), ([], .drop 0), ([], .dropped 0),
    ([], .look 0), ([], .look 1), (in_ 2 30, .ret 2 30), ([], .look 1), ([], .call 2), ([], .look 1), (in_ 2 40, .ret 2 40), ([], .look 1),
    ([], .look 2), ([], .look 2), ([], .look 2)]

def newInternsFilm (i : Nat) : World (newInterns dcfg) (Bool × Ordering × Nat) := shot newInternsMachine pairMethods i newInternsStart newInternsEvents

/-- The process: three threads are started, then the program. -/
def newInternsProcess : Nat → Src.NewCode.State Nat Pool.Demo.Val
  | 0 => Src.NewCode.init
  | 1 => { Src.NewCode.init with threads := [[]] }
  | 2 => { Src.NewCode.init with threads := [[], []] }
  | i + 3 => (newInternsFilm i).state

theorem newInternsFilm_ends : ∃ w, play newInternsMachine pairMethods 400 newInternsStart newInternsEvents = some w ∧
    (∀ th ∈ w.conf.threads, (∃ r, th.prog = .done r) ∧ th.phase = .own) ∧ ∀ cs ∈ w.state.threads, cs = [] := by
  have : (match play newInternsMachine pairMethods 400 newInternsStart newInternsEvents with
    | some w => w.conf.threads.all isDone && w.state.threads.all List.isEmpty
    | none => false) = true := by decide +kernel
  have h := this
  split at h
  · rename_i w hw
    obtain ⟨h1, h2⟩ := Bool.and_eq_true_iff.mp h
    exact ⟨w, hw, fun th ht => isDone_done (List.all_eq_true.mp h1 th ht), fun cs hc => List.isEmpty_iff.mp (List.all_eq_true.mp h2 cs hc)⟩
  · cases h

theorem newInternsFilm_flat (i : Nat) : (∀ cs ∈ (newInternsFilm i).state.threads, cs.length ≤ 1) ∧
    (newInternsFilm i).state.threads.length ≤ 3 := by
  have : holds (I := newInterns dcfg) (R := Bool × Ordering × Nat)
    (fun w => w.state.threads.all (fun cs => decide (cs.length ≤ 1)) && decide (w.state.threads.length ≤ 3))
    newInternsMachine pairMethods 400 newInternsStart newInternsEvents = true := by decide +kernel
  have h : (fun w : World (newInterns dcfg) (Bool × Ordering × Nat) => w.state.threads.all (fun cs => decide (cs.length ≤ 1)) &&
      decide (w.state.threads.length ≤ 3)) (newInternsFilm i) = true := by
    by_cases hi : i ≤ 400
    · exact holds_shot this hi
    · obtain ⟨w, hw, _⟩ := newInternsFilm_ends
      obtain ⟨j, hj⟩ : ∃ j, j = 400 := ⟨_, rfl⟩
      rw [newInternsFilm, shot_end hw (by omega), ← shot_end hw (i := j) (by omega)]
      exact holds_shot this (by omega)
  obtain ⟨h1, h2⟩ := Bool.and_eq_true_iff.mp h
  exact ⟨fun cs hc => of_decide_eq_true (List.all_eq_true.mp h1 cs hc), of_decide_eq_true h2⟩

theorem newInterns_step {R : Type} {w w' : World (newInterns dcfg) R} {M : Methods TypedVal} (h : WStep M w w') :
    w'.state = w.state ∨ ∃ a, a.Lawful ∧ Src.NewCode.step dcfg w.state a = .ok w'.state := by
  cases h with
  | inside h _ _ => exact .inr h
  | look _ _ _ => exact .inl rfl
  | call _ _ _ h _ =>
    obtain ⟨_, q, byRef, unw, hl, e⟩ := h
    exact .inr ⟨.call _ (.intern _ q _) byRef unw, hl, e⟩
  | ret _ _ _ h =>
    obtain ⟨c, a, q, v, _, e, _⟩ := h
    exact .inr ⟨.run _ a, trivial, e⟩
  | clone _ _ _ _ h => exact .inl h.2
  | drop _ _ _ _ h => exact .inl h.2
  | dropped _ _ _ => exact .inl rfl

theorem newInternsProcess_step (i : Nat) : newInternsProcess (i + 1) = newInternsProcess i ∨
    ∃ a, a.Lawful ∧ Src.NewCode.step dcfg (newInternsProcess i) a = .ok (newInternsProcess (i + 1)) := by
  match i with
  | 0 => exact .inr ⟨.spawn, trivial, rfl⟩
  | 1 => exact .inr ⟨.spawn, trivial, rfl⟩
  | 2 => exact .inr ⟨.spawn, trivial, rfl⟩
  | i + 3 =>
    rcases shot_passes newInternsMachine pairMethods newInternsStart newInternsEvents i with h | h
    · exact .inl (congrArg World.state h)
    · exact newInterns_step h

theorem newInternsProcess_flat (i : Nat) : (∀ cs ∈ (newInternsProcess i).threads, cs.length ≤ 1) ∧ (newInternsProcess i).threads.length ≤ 3 := by
  match i with
  | 0 => simp [newInternsProcess, Src.NewCode.init]
  | 1 => simp [newInternsProcess]
  | 2 => simp [newInternsProcess]
  | i + 3 => exact newInternsFilm_flat i

theorem newInterns_still {i : Nat} (hi : 403 ≤ i) (t : Tid) : Src.NewCode.Idle (newInternsProcess i) t := by
  obtain ⟨w, hw, _, h⟩ := newInternsFilm_ends
  obtain ⟨i, rfl⟩ : ∃ m, i = m + 3 := ⟨i - 3, by omega⟩
  show ((newInternsFilm i).state.threads[t]?).getD [] = []
  rw [newInternsFilm, shot_end hw (by omega)]
  cases e : w.state.threads[t]? with
  | none => rfl
  | some cs => exact h cs (List.mem_of_getElem? e)

/-- And with several types of typearena.rs. -/
example : ∃ α, Src.NewCode.Execution dcfg newInternsProcess α ∧ Src.NewCode.StronglyFair dcfg newInternsProcess α ∧
    Src.NewCode.UserCodeEnds newInternsProcess α ∧ (∀ i, Src.NewCode.Ranked id (newInternsProcess i)) ∧ (∀ i, (newInternsProcess i).threads.length ≤ 3) ∧
    (∀ i, (newInternsFilm i).state = newInternsProcess (3 + i)) ∧ Starts [sender2, receiver2, loner2] 1 (newInternsFilm 0) ∧ Passes pairMethods newInternsFilm ∧
    Attentive pairMethods newInternsFilm ∧ loner2.eval pairMethods [] = some (false, .gt, 6) ∧
    (newInternsFilm 30).conf.results = [none, none, none] ∧ (∃ j, ∀ i, j ≤ i → (newInternsFilm i).conf.progs[2]? = some (.done (false, .gt, 6))) ∧
    ∃ j c, VRun pairMethods (start [sender2, receiver2, loner2] 1) c ∧ (∀ c', ¬ VStep pairMethods c c') ∧ ∀ i, j ≤ i → (newInternsFilm i).conf.progs = c.progs ∧ Same (newInternsFilm i) c := by
  let ok : Nat → Option (Src.NewCode.Act Nat Pool.Demo.Val) → Prop := fun i a => match a with
    | none => newInternsProcess (i + 1) = newInternsProcess i
    | some a => a.Lawful ∧ Src.NewCode.step dcfg (newInternsProcess i) a = .ok (newInternsProcess (i + 1))
  obtain ⟨α, hα⟩ : ∃ α : Nat → Option (Src.NewCode.Act Nat Pool.Demo.Val), ∀ i, ok i (α i) := by
    refine Classical.axiomOfChoice fun i => ?_
    rcases newInternsProcess_step i with h | ⟨a, h⟩
    · exact ⟨none, h⟩
    · exact ⟨some a, h⟩
  have hx : Src.NewCode.Execution dcfg newInternsProcess α := by
    refine ⟨rfl, fun i => ?_⟩
    have h := hα i
    cases e : α i <;> rw [e] at h <;> exact h
  have hf : Src.NewCode.StronglyFair dcfg newInternsProcess α := by
    intro t h
    obtain ⟨j, hj, a, S', e⟩ := h 403
    have h1 := newInterns_still hj t
    exfalso
    simp only [Src.NewCode.step] at e
    have h1 : ((newInternsProcess j).threads[t]?).getD [] = [] := h1
    cases h2 : (newInternsProcess j).threads[t]? with
    | none => rw [h2] at e; cases e
    | some cs =>
      rw [h2] at h1 e
      have h1 : cs = [] := h1
      subst h1; cases e
  have hu : Src.NewCode.UserCodeEnds newInternsProcess α := fun t => .inl fun i => ⟨i + 403, by omega, newInterns_still (by omega) t⟩
  have hr : ∀ i, Src.NewCode.Ranked id (newInternsProcess i) := fun i => Src.NewCode.ranked_flat (newInternsProcess_flat i).1 _
  have hm : ∀ i, (newInternsProcess i).threads.length ≤ 3 := fun i => (newInternsProcess_flat i).2
  have hω : ∀ i, (newInternsFilm i).state = newInternsProcess (3 + i) := fun i => by rw [Nat.add_comm]; rfl
  have hs : Starts [sender2, receiver2, loner2] 1 (newInternsFilm 0) := newInternsStart_starts
  have hp : Passes pairMethods newInternsFilm := shot_passes newInternsMachine pairMethods newInternsStart newInternsEvents
  have ha : Attentive pairMethods newInternsFilm := by
    obtain ⟨w, hw, h, _⟩ := newInternsFilm_ends
    exact ended_attentive (fun i hi => shot_end hw hi) h
  refine ⟨α, hx, hf, hu, hr, hm, hω, hs, hp, ha, rfl, ?_, C102_new dlayout pairMethods_lawful hx hf hu hr hm hω hs hp ha (t := 2) rfl loner2_alone rfl,
    C102_new_settles dlayout pairMethods_lawful hx hf hu hr hm hω hs hp ha⟩
  have : (newInternsFilm 30).conf.results = [none, none, none] := by decide +kernel
  exact this

end
end Client
