import Verif.Client.CopyFair
import Verif.Props.CompleteCopy
/-
C100: programs with handles that are `Copy` come to their ends. C96 says what the result of a thread is if there is one, and C97 that there can
be one; here the scheduler is fair, and there is one.
-/
namespace Client.Copy
open Arc (Tree)
open Pool (Ptr)

section
variable {L R : Type} [BEq L] [LawfulBEq L] [Hashable (Node L Ptr)] {ps : List (Prog L R)} {n : Nat} {K : Type} [DecidableEq K] {k : K}

/-- **C100** for `Intern` and `ArenaIntern`. `σ` is an infinite execution of the process, as in C85, and from instant `s` on the program runs in it.
A thread that neither sends nor receives comes to its end, with the result computed with trees, whatever the rest of the program and of the
process do. -/
theorem C100_pool {cfg : Pool.Cfg K (Node L Ptr)} (lay : cfg.Layout) {σ : Nat → Src.PoolCode.State K (Node L Ptr)}
    {α : Nat → Option (Src.PoolCode.Act K (Node L Ptr))} (hx : Src.PoolCode.Execution cfg σ α) (hf : Src.PoolCode.StronglyFair cfg σ α)
    (hu : Src.PoolCode.UserCodeEnds σ α) {rank : Nat → Nat} (hk : ∀ i, Src.PoolCode.Ranked cfg rank (σ i)) {m : Nat}
    (hm : ∀ i, (σ i).threads.length ≤ m) {ω : Nat → World (pool cfg k) R} {s : Nat} (hω : ∀ i, (ω i).state = σ (s + i))
    (h : Starts ps n (ω 0)) (hp : Passes ω) (ha : Attentive ω) {t : Nat} {g : Prog L R} (hg : ps[t]? = some g) (hal : g.Alone) {r : R}
    (he : g.eval [] = some r) : ∃ j, ∀ i, j ≤ i → (ω i).conf.progs[t]? = some (.done r) := by
  refine comes_to_end (pool_laws lay) pool_copies pool_can h hp ha (fun t i => ?_) hg hal he
  obtain ⟨j, h1, h2⟩ := Src.PoolCode.C85_starvation_free lay hx hf hu hk hm t (s + i)
  refine ⟨j - s, by omega, fun v => ?_⟩
  rw [hω, show s + (j - s) = j by omega]
  exact pool_idle h2 v

/-- **C100** for the `Intern` of typearena.rs, in an execution as in C87. -/
theorem C100_new {cfg : Src.NewCode.Cfg K (Node L Ptr)} (lay : cfg.Layout) {σ : Nat → Src.NewCode.State K (Node L Ptr)}
    {α : Nat → Option (Src.NewCode.Act K (Node L Ptr))} (hx : Src.NewCode.Execution cfg σ α) (hf : Src.NewCode.StronglyFair cfg σ α)
    (hu : Src.NewCode.UserCodeEnds σ α) {rank : K → Nat} (hk : ∀ i, Src.NewCode.Ranked rank (σ i)) {m : Nat}
    (hm : ∀ i, (σ i).threads.length ≤ m) {ω : Nat → World (newIntern cfg k) R} {s : Nat} (hω : ∀ i, (ω i).state = σ (s + i))
    (h : Starts ps n (ω 0)) (hp : Passes ω) (ha : Attentive ω) {t : Nat} {g : Prog L R} (hg : ps[t]? = some g) (hal : g.Alone) {r : R}
    (he : g.eval [] = some r) : ∃ j, ∀ i, j ≤ i → (ω i).conf.progs[t]? = some (.done r) := by
  refine comes_to_end (new_laws lay) new_copies new_can h hp ha (fun t i => ?_) hg hal he
  obtain ⟨j, h1, h2⟩ := Src.NewCode.C87_starvation_free lay hx hf hu hk hm t (s + i)
  refine ⟨j - s, by omega, fun v => ?_⟩
  rw [hω, show s + (j - s) = j by omega]
  exact new_idle h2 v

/-- **C100** for `Intern` and `ArenaIntern`, and programs with messages: the program comes to a stop, in a state that the program with trees can get
to, and in which it cannot go on either. So a program stops before its end only if it has a deadlock of its own, or an index out of range. -/
theorem C100_pool_settles {cfg : Pool.Cfg K (Node L Ptr)} (lay : cfg.Layout) {σ : Nat → Src.PoolCode.State K (Node L Ptr)}
    {α : Nat → Option (Src.PoolCode.Act K (Node L Ptr))} (hx : Src.PoolCode.Execution cfg σ α) (hf : Src.PoolCode.StronglyFair cfg σ α)
    (hu : Src.PoolCode.UserCodeEnds σ α) {rank : Nat → Nat} (hk : ∀ i, Src.PoolCode.Ranked cfg rank (σ i)) {m : Nat}
    (hm : ∀ i, (σ i).threads.length ≤ m) {ω : Nat → World (pool cfg k) R} {s : Nat} (hω : ∀ i, (ω i).state = σ (s + i))
    (h : Starts ps n (ω 0)) (hp : Passes ω) (ha : Attentive ω) :
    ∃ j c, VRun (start ps n) c ∧ (∀ c', ¬ VStep c c') ∧ ∀ i, j ≤ i → (ω i).conf.progs = c.progs ∧ Same (ω i) c := by
  obtain ⟨j, c, h1, h2, h3⟩ := settles (pool_laws lay) pool_copies pool_can h hp ha (fun t i => by
    obtain ⟨j, h1, h2⟩ := Src.PoolCode.C85_starvation_free lay hx hf hu hk hm t (s + i)
    refine ⟨j - s, by omega, fun v => ?_⟩
    rw [hω, show s + (j - s) = j by omega]
    exact pool_idle h2 v)
  exact ⟨j, c, h1, h2, fun i hi => ⟨(h3 i hi).progs.symm, h3 i hi⟩⟩

/-- **C100** for the `Intern` of typearena.rs, and programs with messages. -/
theorem C100_new_settles {cfg : Src.NewCode.Cfg K (Node L Ptr)} (lay : cfg.Layout) {σ : Nat → Src.NewCode.State K (Node L Ptr)}
    {α : Nat → Option (Src.NewCode.Act K (Node L Ptr))} (hx : Src.NewCode.Execution cfg σ α) (hf : Src.NewCode.StronglyFair cfg σ α)
    (hu : Src.NewCode.UserCodeEnds σ α) {rank : K → Nat} (hk : ∀ i, Src.NewCode.Ranked rank (σ i)) {m : Nat}
    (hm : ∀ i, (σ i).threads.length ≤ m) {ω : Nat → World (newIntern cfg k) R} {s : Nat} (hω : ∀ i, (ω i).state = σ (s + i))
    (h : Starts ps n (ω 0)) (hp : Passes ω) (ha : Attentive ω) :
    ∃ j c, VRun (start ps n) c ∧ (∀ c', ¬ VStep c c') ∧ ∀ i, j ≤ i → (ω i).conf.progs = c.progs ∧ Same (ω i) c := by
  obtain ⟨j, c, h1, h2, h3⟩ := settles (new_laws lay) new_copies new_can h hp ha (fun t i => by
    obtain ⟨j, h1, h2⟩ := Src.NewCode.C87_starvation_free lay hx hf hu hk hm t (s + i)
    refine ⟨j - s, by omega, fun v => ?_⟩
    rw [hω, show s + (j - s) = j by omega]
    exact new_idle h2 v)
  exact ⟨j, c, h1, h2, fun i hi => ⟨(h3 i hi).progs.symm, h3 i hi⟩⟩

end

/-! ### The hypotheses are met -/

section
variable {L R P : Type} [DecidableEq P] {I : Interner (Node L P) P}

/-- The world after so many steps of an execution that is described by a list of events; then nothing happens any more. -/
def shot (K : Machine I) : Nat → World I R → List (List K.Lbl × Ev K.Lbl) → World I R
  | 0, w, _ => w
  | _ + 1, w, [] => w
  | n + 1, w, (ls, e) :: r => match play1 K w e with
    | some w' => shot K n w' r
    | none => match ls.findSome? fun l => play1 K w (.inside l) with
      | some w' => shot K n w' ((ls, e) :: r)
      | none => w

theorem shot_passes (K : Machine I) (w : World I R) (l : List (List K.Lbl × Ev K.Lbl)) : Passes fun i => shot K i w l := by
  intro n
  show shot K (n + 1) w l = shot K n w l ∨ WStep (shot K n w l) (shot K (n + 1) w l)
  induction n generalizing w l with
  | zero =>
    cases l with
    | nil => exact .inl rfl
    | cons x r =>
      obtain ⟨ls, x⟩ := x
      simp only [shot]
      split
      · rename_i w1 h1
        exact .inr (play1_ok h1)
      · split
        · rename_i w1 h1
          obtain ⟨y, _, hy⟩ := List.exists_of_findSome?_eq_some h1
          exact .inr (play1_ok hy)
        · exact .inl rfl
  | succ n ih =>
    cases l with
    | nil => exact .inl rfl
    | cons x r =>
      obtain ⟨ls, x⟩ := x
      rw [show shot K (n + 1 + 1) w ((ls, x) :: r) = (match play1 K w x with
        | some w' => shot K (n + 1) w' r
        | none => match ls.findSome? fun l => play1 K w (.inside l) with
          | some w' => shot K (n + 1) w' ((ls, x) :: r)
          | none => w) from rfl, show shot K (n + 1) w ((ls, x) :: r) = (match play1 K w x with
        | some w' => shot K n w' r
        | none => match ls.findSome? fun l => play1 K w (.inside l) with
          | some w' => shot K n w' ((ls, x) :: r)
          | none => w) from rfl]
      split
      · exact ih ..
      · split
        · exact ih ..
        · exact .inl rfl

/-- At the end. -/
theorem shot_end {K : Machine I} : ∀ {n : Nat} {w w' : World I R} {l : List (List K.Lbl × Ev K.Lbl)}, play K n w l = some w' → ∀ {i : Nat}, n ≤ i →
    shot K i w l = w' := by
  intro n
  induction n with
  | zero => intro w w' l h; cases h
  | succ n ih =>
    intro w w' l h i hi
    obtain ⟨i, rfl⟩ : ∃ m, i = m + 1 := ⟨i - 1, by omega⟩
    cases l with
    | nil => cases h; rfl
    | cons x r =>
      obtain ⟨ls, x⟩ := x
      simp only [play] at h
      simp only [shot]
      split at h
      · rename_i w1 h1
        simp only [h1]
        exact ih h (by omega)
      · rename_i h1
        simp only [h1]
        split at h
        · rename_i w1 h2
          simp only [h2]
          exact ih h (by omega)
        · cases h

/-- Something is true all the time. -/
def holds (f : World I R → Bool) (K : Machine I) : Nat → World I R → List (List K.Lbl × Ev K.Lbl) → Bool
  | 0, w, _ => f w
  | _ + 1, w, [] => f w
  | n + 1, w, (ls, e) :: r => f w && match play1 K w e with
    | some w' => holds f K n w' r
    | none => match ls.findSome? fun l => play1 K w (.inside l) with
      | some w' => holds f K n w' ((ls, e) :: r)
      | none => true

theorem holds_shot {f : World I R → Bool} {K : Machine I} : ∀ {n : Nat} {w : World I R} {l : List (List K.Lbl × Ev K.Lbl)}, holds f K n w l = true →
    ∀ {i : Nat}, i ≤ n → f (shot K i w l) = true := by
  intro n
  induction n with
  | zero =>
    intro w l h i hi
    obtain rfl : i = 0 := by omega
    exact h
  | succ n ih =>
    intro w l h i hi
    cases l with
    | nil => cases i <;> exact h
    | cons x r =>
      obtain ⟨ls, x⟩ := x
      simp only [holds, Bool.and_eq_true] at h
      cases i with
      | zero => exact h.1
      | succ i =>
        obtain ⟨h0, h2⟩ := h
        simp only [shot]
        cases h1 : play1 K w x with
        | some w1 =>
          simp only [h1] at h2 ⊢
          exact ih h2 (by omega)
        | none =>
          simp only [h1] at h2 ⊢
          cases h3 : ls.findSome? fun l => play1 K w (.inside l) with
          | some w1 =>
            simp only [h3] at h2 ⊢
            exact ih h2 (by omega)
          | none =>
            exact h0

/-- If all threads have ended, they need not be given more time. -/
theorem ended_attentive {ω : Nat → World I R} {m : Nat} {w : World I R} (h : ∀ i, m ≤ i → ω i = w)
    (hd : ∀ th ∈ w.conf.threads, ∃ r, th.prog = .done r) : Attentive ω := by
  intro t i hm
  obtain ⟨w', hw⟩ := hm (i + m) (by omega)
  rw [h _ (by omega)] at hw
  exfalso
  cases hw with
  | look ht _ hl =>
    obtain ⟨r, e⟩ := hd _ (List.mem_of_getElem? ht)
    have := (look_next hl).1
    rw [e] at this; cases this
  | call ht _ hg _ _ _ =>
    obtain ⟨r, e⟩ := hd _ (List.mem_of_getElem? ht)
    rw [e] at hg; cases hg

end

section

def isDone {L R P : Type} (th : Thread L R P) : Bool := match th.prog with
  | .done _ => true
  | _ => false

theorem isDone_done {L R P : Type} {th : Thread L R P} (h : isDone th = true) : ∃ r, th.prog = .done r := by
  unfold isDone at h
  split at h
  · rename_i r e; exact ⟨r, e⟩
  · cases h

/-! #### `Intern`, and an arena -/

/-- The events of the example for C96. -/
def poolEvents (k : Nat) : List (List Cmd × Ev Cmd) :=
  [([], .call 0), ([], .call 1), ([], .inside (.new 3 k ⟨2, [⟨77, 0⟩]⟩)), ([], .call 2), ([.run 3 5, .run 0 10], .ret 0 10), ([.run 3 5, .run 1 20], .ret 1 20),
    ([], .call 0), ([.run 0 40], .ret 0 40), ([], .look 0), ([], .look 0), ([.run 2 30], .ret 2 30),
    ([], .call 1), ([.run 1 50], .ret 1 50), ([], .look 1), ([], .look 1), ([], .look 1), ([], .look 1), ([], .look 1),
    ([], .call 2), ([.run 2 60], .ret 2 60), ([], .call 2), ([.run 2 70], .ret 2 70), ([], .look 2), ([], .look 2), ([], .look 2), ([], .look 2)]

def poolFilm (k : Nat) (i : Nat) : World (pool pcfg k) (Bool × Bool × Nat) := shot (poolMachine k) i (poolStart k) (poolEvents k)

/-- The process: four threads are started, then the program. -/
def poolProcess (k : Nat) : Nat → Src.PoolCode.State Nat Term
  | 0 => Src.PoolCode.init
  | 1 => { Src.PoolCode.init with threads := [[]] }
  | 2 => { Src.PoolCode.init with threads := [[], []] }
  | 3 => { Src.PoolCode.init with threads := [[], [], []] }
  | i + 4 => (poolFilm k i).state

theorem poolFilm_ends {k : Nat} (hk : k ∈ [0, 2]) : ∃ w, play (poolMachine k) 400 (poolStart k) (poolEvents k) = some w ∧
    (∀ th ∈ w.conf.threads, ∃ r, th.prog = .done r) ∧ ∀ cs ∈ w.state.threads, cs = [] := by
  have : ∀ k ∈ [0, 2], (match play (poolMachine k) 400 (poolStart k) (poolEvents k) with
    | some w => w.conf.threads.all isDone && w.state.threads.all List.isEmpty
    | none => false) = true := by decide +kernel
  have h := this k hk
  split at h
  · rename_i w hw
    obtain ⟨h1, h2⟩ := Bool.and_eq_true_iff.mp h
    exact ⟨w, hw, fun th ht => isDone_done (List.all_eq_true.mp h1 th ht), fun cs hc => List.isEmpty_iff.mp (List.all_eq_true.mp h2 cs hc)⟩
  · cases h

theorem poolFilm_flat {k : Nat} (hk : k ∈ [0, 2]) (i : Nat) : (∀ cs ∈ (poolFilm k i).state.threads, cs.length ≤ 1) ∧
    (poolFilm k i).state.threads.length ≤ 4 := by
  have : ∀ k ∈ [0, 2], holds (I := pool pcfg k) (R := Bool × Bool × Nat)
    (fun w => w.state.threads.all (fun cs => decide (cs.length ≤ 1)) && decide (w.state.threads.length ≤ 4))
    (poolMachine k) 400 (poolStart k) (poolEvents k) = true := by decide +kernel
  have h : (fun w : World (pool pcfg k) (Bool × Bool × Nat) => w.state.threads.all (fun cs => decide (cs.length ≤ 1)) &&
      decide (w.state.threads.length ≤ 4)) (poolFilm k i) = true := by
    by_cases hi : i ≤ 400
    · exact holds_shot (this k hk) hi
    · obtain ⟨w, hw, _⟩ := poolFilm_ends hk
      rw [poolFilm, shot_end hw (by omega), ← shot_end hw (Nat.le_refl _)]
      exact holds_shot (this k hk) (Nat.le_refl _)
  obtain ⟨h1, h2⟩ := Bool.and_eq_true_iff.mp h
  exact ⟨fun cs hc => of_decide_eq_true (List.all_eq_true.mp h1 cs hc), of_decide_eq_true h2⟩

theorem pool_step {k : Nat} {R : Type} {w w' : World (pool pcfg k) R} (h : WStep w w') :
    w'.state = w.state ∨ ∃ a, a.Lawful ∧ Src.PoolCode.step pcfg w.state a = .ok w'.state := by
  cases h with
  | inside h _ _ => exact .inr h
  | look _ _ _ => exact .inl rfl
  | call _ _ _ _ h _ =>
    obtain ⟨_, q, byRef, hl, e⟩ := h
    exact .inr ⟨.call _ (.intern k q _) byRef, hl, e⟩
  | ret _ _ _ h =>
    obtain ⟨c, a, q, v, _, e, _⟩ := h
    exact .inr ⟨.run _ a, trivial, e⟩

theorem poolProcess_step (k i : Nat) : poolProcess k (i + 1) = poolProcess k i ∨
    ∃ a, a.Lawful ∧ Src.PoolCode.step pcfg (poolProcess k i) a = .ok (poolProcess k (i + 1)) := by
  match i with
  | 0 => exact .inr ⟨.spawn, trivial, rfl⟩
  | 1 => exact .inr ⟨.spawn, trivial, rfl⟩
  | 2 => exact .inr ⟨.spawn, trivial, rfl⟩
  | 3 => exact .inr ⟨.spawn, trivial, rfl⟩
  | i + 4 =>
    rcases shot_passes (poolMachine k) (poolStart k) (poolEvents k) i with h | h
    · exact .inl (congrArg World.state h)
    · exact pool_step h

theorem poolProcess_flat {k : Nat} (hk : k ∈ [0, 2]) (i : Nat) : (∀ cs ∈ (poolProcess k i).threads, cs.length ≤ 1) ∧ (poolProcess k i).threads.length ≤ 4 := by
  match i with
  | 0 => simp [poolProcess, Src.PoolCode.init]
  | 1 => simp [poolProcess]
  | 2 => simp [poolProcess]
  | 3 => simp [poolProcess]
  | i + 4 => exact poolFilm_flat hk i

theorem pool_still {k i : Nat} (hk : k ∈ [0, 2]) (hi : 404 ≤ i) (t : Tid) : Src.PoolCode.Idle (poolProcess k i) t := by
  obtain ⟨w, hw, _, h⟩ := poolFilm_ends hk
  obtain ⟨i, rfl⟩ : ∃ m, i = m + 4 := ⟨i - 4, by omega⟩
  show ((poolFilm k i).state.threads[t]?).getD [] = []
  rw [poolFilm, shot_end hw (by omega)]
  cases e : w.state.threads[t]? with
  | none => rfl
  | some cs => exact h cs (List.mem_of_getElem? e)

/-- The example for C96 meets all hypotheses, with an `Intern` and with an arena: three threads of a program, two of which send and receive, and
another thread of the process. The third comes to its end, and the program to a stop. -/
example : ∀ k ∈ [0, 2], ∃ α, Src.PoolCode.Execution pcfg (poolProcess k) α ∧ Src.PoolCode.StronglyFair pcfg (poolProcess k) α ∧
    Src.PoolCode.UserCodeEnds (poolProcess k) α ∧ (∀ i, Src.PoolCode.Ranked pcfg id (poolProcess k i)) ∧ (∀ i, (poolProcess k i).threads.length ≤ 4) ∧
    (∀ i, (poolFilm k i).state = poolProcess k (4 + i)) ∧ Starts [sender, receiver, loner] 1 (poolFilm k 0) ∧ Passes (poolFilm k) ∧
    Attentive (poolFilm k) ∧ loner.eval [] = some (false, true, 21) ∧
    (poolFilm k 30).conf.results = [none, none, none] ∧ (∃ j, ∀ i, j ≤ i → (poolFilm k i).conf.progs[2]? = some (.done (false, true, 21))) ∧
    ∃ j c, VRun (start [sender, receiver, loner] 1) c ∧ (∀ c', ¬ VStep c c') ∧ ∀ i, j ≤ i → (poolFilm k i).conf.progs = c.progs ∧ Same (poolFilm k i) c := by
  intro k hk
  let ok : Nat → Option (Src.PoolCode.Act Nat Term) → Prop := fun i a => match a with
    | none => poolProcess k (i + 1) = poolProcess k i
    | some a => a.Lawful ∧ Src.PoolCode.step pcfg (poolProcess k i) a = .ok (poolProcess k (i + 1))
  obtain ⟨α, hα⟩ : ∃ α : Nat → Option (Src.PoolCode.Act Nat Term), ∀ i, ok i (α i) := by
    refine Classical.axiomOfChoice fun i => ?_
    rcases poolProcess_step k i with h | ⟨a, h⟩
    · exact ⟨none, h⟩
    · exact ⟨some a, h⟩
  have hx : Src.PoolCode.Execution pcfg (poolProcess k) α := by
    refine ⟨rfl, fun i => ?_⟩
    have h := hα i
    cases e : α i <;> rw [e] at h <;> exact h
  have hf : Src.PoolCode.StronglyFair pcfg (poolProcess k) α := by
    intro t h
    obtain ⟨j, hj, a, S', e⟩ := h 404
    have h1 := pool_still hk hj t
    exfalso
    simp only [Src.PoolCode.step] at e
    have h1 : ((poolProcess k j).threads[t]?).getD [] = [] := h1
    cases h2 : (poolProcess k j).threads[t]? with
    | none => rw [h2] at e; cases e
    | some cs =>
      rw [h2] at h1 e
      have h1 : cs = [] := h1
      subst h1; cases e
  have hu : Src.PoolCode.UserCodeEnds (poolProcess k) α := fun t => .inl fun i => ⟨i + 404, by omega, pool_still hk (by omega) t⟩
  have hr : ∀ i, Src.PoolCode.Ranked pcfg id (poolProcess k i) := fun i => Src.PoolCode.ranked_flat (poolProcess_flat hk i).1 _
  have hm : ∀ i, (poolProcess k i).threads.length ≤ 4 := fun i => (poolProcess_flat hk i).2
  have hω : ∀ i, (poolFilm k i).state = poolProcess k (4 + i) := fun i => by rw [Nat.add_comm]; rfl
  have hs : Starts [sender, receiver, loner] 1 (poolFilm k 0) := poolStart_starts
  have hp : Passes (poolFilm k) := shot_passes (poolMachine k) (poolStart k) (poolEvents k)
  have ha : Attentive (poolFilm k) := by
    obtain ⟨w, hw, h, _⟩ := poolFilm_ends hk
    exact ended_attentive (fun i hi => shot_end hw hi) h
  refine ⟨α, hx, hf, hu, hr, hm, hω, hs, hp, ha, rfl, ?_, C100_pool playout hx hf hu hr hm hω hs hp ha (t := 2) rfl loner_alone rfl,
    C100_pool_settles playout hx hf hu hr hm hω hs hp ha⟩
  have : ∀ k ∈ [0, 2], (poolFilm k 30).conf.results = [none, none, none] := by decide +kernel
  exact this k hk

/-! #### The `Intern` of typearena.rs -/

/-- The events of the example for C96. -/
def newEvents : List (List Cmd × Ev Cmd) :=
  [([], .call 0), ([], .call 1), ([], .inside (.new 3 0 ⟨2, [⟨77, 0⟩]⟩)), ([], .call 2), (steps 3 5 ++ steps 0 10, .ret 0 10),
    (steps 3 5 ++ steps 1 20, .ret 1 20), ([], .call 0), (steps 0 40, .ret 0 40), ([], .look 0), ([], .look 0), (steps 2 30, .ret 2 30),
    ([], .call 1), (steps 1 50, .ret 1 50), ([], .look 1), ([], .look 1), ([], .look 1), ([], .look 1), ([], .look 1),
    ([], .call 2), (steps 2 60, .ret 2 60), ([], .call 2), (steps 2 70, .ret 2 70), ([], .look 2), ([], .look 2), ([], .look 2), ([], .look 2)]

def newFilm (i : Nat) : World (newIntern ncfg 0) (Bool × Bool × Nat) := shot (newMachine 0) i newStart newEvents

/-- The process: four threads are started, then the program. -/
def newProcess : Nat → Src.NewCode.State Nat Term
  | 0 => Src.NewCode.init
  | 1 => { Src.NewCode.init with threads := [[]] }
  | 2 => { Src.NewCode.init with threads := [[], []] }
  | 3 => { Src.NewCode.init with threads := [[], [], []] }
  | i + 4 => (newFilm i).state

theorem newFilm_ends : ∃ w, play (newMachine 0) 400 newStart newEvents = some w ∧
    (∀ th ∈ w.conf.threads, ∃ r, th.prog = .done r) ∧ ∀ cs ∈ w.state.threads, cs = [] := by
  have : (match play (newMachine 0) 400 newStart newEvents with
    | some w => w.conf.threads.all isDone && w.state.threads.all List.isEmpty
    | none => false) = true := by decide +kernel
  have h := this
  split at h
  · rename_i w hw
    obtain ⟨h1, h2⟩ := Bool.and_eq_true_iff.mp h
    exact ⟨w, hw, fun th ht => isDone_done (List.all_eq_true.mp h1 th ht), fun cs hc => List.isEmpty_iff.mp (List.all_eq_true.mp h2 cs hc)⟩
  · cases h

theorem newFilm_flat (i : Nat) : (∀ cs ∈ (newFilm i).state.threads, cs.length ≤ 1) ∧
    (newFilm i).state.threads.length ≤ 4 := by
  have : holds (I := newIntern ncfg 0) (R := Bool × Bool × Nat)
    (fun w => w.state.threads.all (fun cs => decide (cs.length ≤ 1)) && decide (w.state.threads.length ≤ 4))
    (newMachine 0) 400 newStart newEvents = true := by decide +kernel
  have h : (fun w : World (newIntern ncfg 0) (Bool × Bool × Nat) => w.state.threads.all (fun cs => decide (cs.length ≤ 1)) &&
      decide (w.state.threads.length ≤ 4)) (newFilm i) = true := by
    by_cases hi : i ≤ 400
    · exact holds_shot this hi
    · obtain ⟨w, hw, _⟩ := newFilm_ends
      obtain ⟨j, hj⟩ : ∃ j, j = 400 := ⟨_, rfl⟩
      rw [newFilm, shot_end hw (by omega), ← shot_end hw (i := j) (by omega)]
      exact holds_shot this (by omega)
  obtain ⟨h1, h2⟩ := Bool.and_eq_true_iff.mp h
  exact ⟨fun cs hc => of_decide_eq_true (List.all_eq_true.mp h1 cs hc), of_decide_eq_true h2⟩

theorem new_step {R : Type} {w w' : World (newIntern ncfg 0) R} (h : WStep w w') :
    w'.state = w.state ∨ ∃ a, a.Lawful ∧ Src.NewCode.step ncfg w.state a = .ok w'.state := by
  cases h with
  | inside h _ _ => exact .inr h
  | look _ _ _ => exact .inl rfl
  | call _ _ _ _ h _ =>
    obtain ⟨_, q, byRef, unw, hl, e⟩ := h
    exact .inr ⟨.call _ (.intern 0 q _) byRef unw, hl, e⟩
  | ret _ _ _ h =>
    obtain ⟨c, a, q, v, _, e, _⟩ := h
    exact .inr ⟨.run _ a, trivial, e⟩

theorem newProcess_step (i : Nat) : newProcess (i + 1) = newProcess i ∨
    ∃ a, a.Lawful ∧ Src.NewCode.step ncfg (newProcess i) a = .ok (newProcess (i + 1)) := by
  match i with
  | 0 => exact .inr ⟨.spawn, trivial, rfl⟩
  | 1 => exact .inr ⟨.spawn, trivial, rfl⟩
  | 2 => exact .inr ⟨.spawn, trivial, rfl⟩
  | 3 => exact .inr ⟨.spawn, trivial, rfl⟩
  | i + 4 =>
    rcases shot_passes (newMachine 0) newStart newEvents i with h | h
    · exact .inl (congrArg World.state h)
    · exact new_step h

theorem newProcess_flat (i : Nat) : (∀ cs ∈ (newProcess i).threads, cs.length ≤ 1) ∧ (newProcess i).threads.length ≤ 4 := by
  match i with
  | 0 => simp [newProcess, Src.NewCode.init]
  | 1 => simp [newProcess]
  | 2 => simp [newProcess]
  | 3 => simp [newProcess]
  | i + 4 => exact newFilm_flat i

theorem new_still {i : Nat} (hi : 404 ≤ i) (t : Tid) : Src.NewCode.Idle (newProcess i) t := by
  obtain ⟨w, hw, _, h⟩ := newFilm_ends
  obtain ⟨i, rfl⟩ : ∃ m, i = m + 4 := ⟨i - 4, by omega⟩
  show ((newFilm i).state.threads[t]?).getD [] = []
  rw [newFilm, shot_end hw (by omega)]
  cases e : w.state.threads[t]? with
  | none => rfl
  | some cs => exact h cs (List.mem_of_getElem? e)

/-- And with the `Intern` of typearena.rs. -/
example : ∃ α, Src.NewCode.Execution ncfg newProcess α ∧ Src.NewCode.StronglyFair ncfg newProcess α ∧
    Src.NewCode.UserCodeEnds newProcess α ∧ (∀ i, Src.NewCode.Ranked id (newProcess i)) ∧ (∀ i, (newProcess i).threads.length ≤ 4) ∧
    (∀ i, (newFilm i).state = newProcess (4 + i)) ∧ Starts [sender, receiver, loner] 1 (newFilm 0) ∧ Passes newFilm ∧
    Attentive newFilm ∧ loner.eval [] = some (false, true, 21) ∧
    (newFilm 30).conf.results = [none, none, none] ∧ (∃ j, ∀ i, j ≤ i → (newFilm i).conf.progs[2]? = some (.done (false, true, 21))) ∧
    ∃ j c, VRun (start [sender, receiver, loner] 1) c ∧ (∀ c', ¬ VStep c c') ∧ ∀ i, j ≤ i → (newFilm i).conf.progs = c.progs ∧ Same (newFilm i) c := by
  let ok : Nat → Option (Src.NewCode.Act Nat Term) → Prop := fun i a => match a with
    | none => newProcess (i + 1) = newProcess i
    | some a => a.Lawful ∧ Src.NewCode.step ncfg (newProcess i) a = .ok (newProcess (i + 1))
  obtain ⟨α, hα⟩ : ∃ α : Nat → Option (Src.NewCode.Act Nat Term), ∀ i, ok i (α i) := by
    refine Classical.axiomOfChoice fun i => ?_
    rcases newProcess_step i with h | ⟨a, h⟩
    · exact ⟨none, h⟩
    · exact ⟨some a, h⟩
  have hx : Src.NewCode.Execution ncfg newProcess α := by
    refine ⟨rfl, fun i => ?_⟩
    have h := hα i
    cases e : α i <;> rw [e] at h <;> exact h
  have hf : Src.NewCode.StronglyFair ncfg newProcess α := by
    intro t h
    obtain ⟨j, hj, a, S', e⟩ := h 404
    have h1 := new_still hj t
    exfalso
    simp only [Src.NewCode.step] at e
    have h1 : ((newProcess j).threads[t]?).getD [] = [] := h1
    cases h2 : (newProcess j).threads[t]? with
    | none => rw [h2] at e; cases e
    | some cs =>
      rw [h2] at h1 e
      have h1 : cs = [] := h1
      subst h1; cases e
  have hu : Src.NewCode.UserCodeEnds newProcess α := fun t => .inl fun i => ⟨i + 404, by omega, new_still (by omega) t⟩
  have hr : ∀ i, Src.NewCode.Ranked id (newProcess i) := fun i => Src.NewCode.ranked_flat (newProcess_flat i).1 _
  have hm : ∀ i, (newProcess i).threads.length ≤ 4 := fun i => (newProcess_flat i).2
  have hω : ∀ i, (newFilm i).state = newProcess (4 + i) := fun i => by rw [Nat.add_comm]; rfl
  have hs : Starts [sender, receiver, loner] 1 (newFilm 0) := newStart_starts
  have hp : Passes newFilm := shot_passes (newMachine 0) newStart newEvents
  have ha : Attentive newFilm := by
    obtain ⟨w, hw, h, _⟩ := newFilm_ends
    exact ended_attentive (fun i hi => shot_end hw hi) h
  refine ⟨α, hx, hf, hu, hr, hm, hω, hs, hp, ha, rfl, ?_, C100_new nlayout hx hf hu hr hm hω hs hp ha (t := 2) rfl loner_alone rfl,
    C100_new_settles nlayout hx hf hu hr hm hω hs hp ha⟩
  have : (newFilm 30).conf.results = [none, none, none] := by decide +kernel
  exact this

end
end Client.Copy
