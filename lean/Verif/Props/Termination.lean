import Verif.Client.Fair
import Verif.Props.Transparent
/-
C101: programs come to their ends, with the interners whose handles are `Copy`. C90 says what the result of a thread is if there is one, and C92
that there can be one; here the scheduler is fair, and there is one.
-/
namespace Client
open Traits (Methods)
open Pool (Ptr)

section
variable {K V R : Type} [DecidableEq K] [BEq V] [EquivBEq V] [Hashable V] [LawfulHashable V] {ps : List (Prog V R)} {n : Nat} {k : K} {M : Methods V}

theorem pool_idles {cfg : Pool.Cfg K V} (lay : cfg.Layout) {σ : Nat → Src.PoolCode.State K V}
    {α : Nat → Option (Src.PoolCode.Act K V)} (hx : Src.PoolCode.Execution cfg σ α) (hf : Src.PoolCode.StronglyFair cfg σ α)
    (hu : Src.PoolCode.UserCodeEnds σ α) {rank : Nat → Nat} (hk : ∀ i, Src.PoolCode.Ranked cfg rank (σ i)) {m : Nat}
    (hm : ∀ i, (σ i).threads.length ≤ m) {ω : Nat → World (pool cfg k) R} {s : Nat} (hω : ∀ i, (ω i).state = σ (s + i))
    (h : Starts ps n (ω 0)) (t : Nat) (ht : t < ps.length) (i : Nat) : ∃ j, i ≤ j ∧ (pool cfg k).idle (ω j).state t := by
  obtain ⟨j, h1, h2⟩ := Src.PoolCode.C85_starvation_free lay hx hf hu hk hm t (s + i)
  refine ⟨j - s, by omega, ?_⟩
  have h0 : (σ s).threads[t]? = some [] := by
    have := h.idle t ht
    rw [hω 0] at this
    exact this
  obtain ⟨cs, h3⟩ := pool_thread hx h0 (j - s)
  show (ω (j - s)).state.threads[t]? = some []
  rw [hω, h3]
  rw [show s + (j - s) = j by omega] at h3
  have h2 : (σ j).threads[t]?.getD [] = [] := h2
  rw [h3] at h2
  exact congrArg some h2

/-- **C101** for `Intern` and `ArenaIntern`. `σ` is an infinite execution of the process, as in C85, and from instant `s` on the program runs in it.
A thread that neither sends nor receives comes to its end, with the result computed with values, whatever the rest of the program and of the
process do. -/
theorem C101_pool {cfg : Pool.Cfg K V} (lay : cfg.Layout) (hM : M.Lawful) {σ : Nat → Src.PoolCode.State K V}
    {α : Nat → Option (Src.PoolCode.Act K V)} (hx : Src.PoolCode.Execution cfg σ α) (hf : Src.PoolCode.StronglyFair cfg σ α)
    (hu : Src.PoolCode.UserCodeEnds σ α) {rank : Nat → Nat} (hk : ∀ i, Src.PoolCode.Ranked cfg rank (σ i)) {m : Nat}
    (hm : ∀ i, (σ i).threads.length ≤ m) {ω : Nat → World (pool cfg k) R} {s : Nat} (hω : ∀ i, (ω i).state = σ (s + i))
    (h : Starts ps n (ω 0)) (hp : Passes M ω) (ha : Attentive M ω) {t : Nat} {g : Prog V R}
    (hg : ps[t]? = some g) (hal : g.Alone) {r : R} (he : g.eval M [] = some r) : ∃ j, ∀ i, j ≤ i → (ω i).conf.progs[t]? = some (.done r) :=
  comes_to_end (pool_laws lay) hM pool_can (fun g _ => only_all g) h hp ha (pool_idles lay hx hf hu hk hm hω h) hg hal he

/-- **C101** for `Intern` and `ArenaIntern`, and programs with messages: the program comes to a stop, in a state that the program with values can
get to, and in which it cannot go on either. So a program stops before its end only if it has a deadlock of its own, or uses a variable that it
does not have. -/
theorem C101_pool_settles {cfg : Pool.Cfg K V} (lay : cfg.Layout) (hM : M.Lawful) {σ : Nat → Src.PoolCode.State K V}
    {α : Nat → Option (Src.PoolCode.Act K V)} (hx : Src.PoolCode.Execution cfg σ α) (hf : Src.PoolCode.StronglyFair cfg σ α)
    (hu : Src.PoolCode.UserCodeEnds σ α) {rank : Nat → Nat} (hk : ∀ i, Src.PoolCode.Ranked cfg rank (σ i)) {m : Nat}
    (hm : ∀ i, (σ i).threads.length ≤ m) {ω : Nat → World (pool cfg k) R} {s : Nat} (hω : ∀ i, (ω i).state = σ (s + i))
    (h : Starts ps n (ω 0)) (hp : Passes M ω) (ha : Attentive M ω) :
    ∃ j c, VRun M (start ps n) c ∧ (∀ c', ¬ VStep M c c') ∧ ∀ i, j ≤ i → (ω i).conf.progs = c.progs ∧ Same (ω i) c := by
  obtain ⟨j, c, h1, h2, h3⟩ := settles (pool_laws lay) hM pool_can (fun g _ => only_all g) h hp ha (pool_idles lay hx hf hu hk hm hω h)
  exact ⟨j, c, h1, h2, fun i hi => ⟨(h3 i hi).progs.symm, h3 i hi⟩⟩

theorem new_idles {cfg : Src.NewCode.Cfg K V} (lay : cfg.Layout) {σ : Nat → Src.NewCode.State K V}
    {α : Nat → Option (Src.NewCode.Act K V)} (hx : Src.NewCode.Execution cfg σ α) (hf : Src.NewCode.StronglyFair cfg σ α)
    (hu : Src.NewCode.UserCodeEnds σ α) {rank : K → Nat} (hk : ∀ i, Src.NewCode.Ranked rank (σ i)) {m : Nat}
    (hm : ∀ i, (σ i).threads.length ≤ m) {ω : Nat → World (newIntern cfg k) R} {s : Nat} (hω : ∀ i, (ω i).state = σ (s + i))
    (h : Starts ps n (ω 0)) (t : Nat) (ht : t < ps.length) (i : Nat) : ∃ j, i ≤ j ∧ (newIntern cfg k).idle (ω j).state t := by
  obtain ⟨j, h1, h2⟩ := Src.NewCode.C87_starvation_free lay hx hf hu hk hm t (s + i)
  refine ⟨j - s, by omega, ?_⟩
  have h0 : (σ s).threads[t]? = some [] := by
    have := h.idle t ht
    rw [hω 0] at this
    exact this
  obtain ⟨cs, h3⟩ := new_thread hx h0 (j - s)
  show (ω (j - s)).state.threads[t]? = some []
  rw [hω, h3]
  rw [show s + (j - s) = j by omega] at h3
  have h2 : (σ j).threads[t]?.getD [] = [] := h2
  rw [h3] at h2
  exact congrArg some h2

/-- **C101** for the `Intern` of typearena.rs, in an execution as in C87. -/
theorem C101_new {cfg : Src.NewCode.Cfg K V} (lay : cfg.Layout) (hM : M.Lawful) {σ : Nat → Src.NewCode.State K V}
    {α : Nat → Option (Src.NewCode.Act K V)} (hx : Src.NewCode.Execution cfg σ α) (hf : Src.NewCode.StronglyFair cfg σ α)
    (hu : Src.NewCode.UserCodeEnds σ α) {rank : K → Nat} (hk : ∀ i, Src.NewCode.Ranked rank (σ i)) {m : Nat}
    (hm : ∀ i, (σ i).threads.length ≤ m) {ω : Nat → World (newIntern cfg k) R} {s : Nat} (hω : ∀ i, (ω i).state = σ (s + i))
    (h : Starts ps n (ω 0)) (hp : Passes M ω) (ha : Attentive M ω) {t : Nat} {g : Prog V R}
    (hg : ps[t]? = some g) (hal : g.Alone) {r : R} (he : g.eval M [] = some r) : ∃ j, ∀ i, j ≤ i → (ω i).conf.progs[t]? = some (.done r) :=
  comes_to_end (new_laws lay) hM new_can (fun g _ => only_all g) h hp ha (new_idles lay hx hf hu hk hm hω h) hg hal he

/-- **C101** for the `Intern` of typearena.rs, and programs with messages. -/
theorem C101_new_settles {cfg : Src.NewCode.Cfg K V} (lay : cfg.Layout) (hM : M.Lawful) {σ : Nat → Src.NewCode.State K V}
    {α : Nat → Option (Src.NewCode.Act K V)} (hx : Src.NewCode.Execution cfg σ α) (hf : Src.NewCode.StronglyFair cfg σ α)
    (hu : Src.NewCode.UserCodeEnds σ α) {rank : K → Nat} (hk : ∀ i, Src.NewCode.Ranked rank (σ i)) {m : Nat}
    (hm : ∀ i, (σ i).threads.length ≤ m) {ω : Nat → World (newIntern cfg k) R} {s : Nat} (hω : ∀ i, (ω i).state = σ (s + i))
    (h : Starts ps n (ω 0)) (hp : Passes M ω) (ha : Attentive M ω) :
    ∃ j c, VRun M (start ps n) c ∧ (∀ c', ¬ VStep M c c') ∧ ∀ i, j ≤ i → (ω i).conf.progs = c.progs ∧ Same (ω i) c := by
  obtain ⟨j, c, h1, h2, h3⟩ := settles (new_laws lay) hM new_can (fun g _ => only_all g) h hp ha (new_idles lay hx hf hu hk hm hω h)
  exact ⟨j, c, h1, h2, fun i hi => ⟨(h3 i hi).progs.symm, h3 i hi⟩⟩

end

/-! ### The hypotheses are met -/

section
variable {V R P : Type} [DecidableEq P] {I : Interner V P}

/-- The world after so many steps of an execution that is described by a list of events; then nothing happens any more. -/
def shot (K : Machine I) (M : Methods V) : Nat → World I R → List (List K.Lbl × Ev K.Lbl) → World I R
  | 0, w, _ => w
  | _ + 1, w, [] => w
  | n + 1, w, (ls, e) :: r => match play1 K M w e with
    | some w' => shot K M n w' r
    | none => match ls.findSome? fun l => play1 K M w (.inside l) with
      | some w' => shot K M n w' ((ls, e) :: r)
      | none => w

theorem shot_passes (K : Machine I) (M : Methods V) (w : World I R) (l : List (List K.Lbl × Ev K.Lbl)) : Passes M fun i => shot K M i w l := by
  intro n
  show shot K M (n + 1) w l = shot K M n w l ∨ WStep M (shot K M n w l) (shot K M (n + 1) w l)
  induction n generalizing w l with
  | zero =>
    cases l with
    | nil => exact .inl rfl
    | cons x r =>
      obtain ⟨ls, x⟩ := x
      simp only [shot]
      split
      · rename_i w1 h1
        exact .inr (play1_ok h1)
      · split
        · rename_i w1 h1
          obtain ⟨y, _, hy⟩ := List.exists_of_findSome?_eq_some h1
          exact .inr (play1_ok hy)
        · exact .inl rfl
  | succ n ih =>
    cases l with
    | nil => exact .inl rfl
    | cons x r =>
      obtain ⟨ls, x⟩ := x
      rw [show shot K M (n + 1 + 1) w ((ls, x) :: r) = (match play1 K M w x with
        | some w' => shot K M (n + 1) w' r
        | none => match ls.findSome? fun l => play1 K M w (.inside l) with
          | some w' => shot K M (n + 1) w' ((ls, x) :: r)
          | none => w) from rfl, show shot K M (n + 1) w ((ls, x) :: r) = (match play1 K M w x with
        | some w' => shot K M n w' r
        | none => match ls.findSome? fun l => play1 K M w (.inside l) with
          | some w' => shot K M n w' ((ls, x) :: r)
          | none => w) from rfl]
      split
      · exact ih ..
      · split
        · exact ih ..
        · exact .inl rfl

/-- At the end. -/
theorem shot_end {K : Machine I} {M : Methods V} : ∀ {n : Nat} {w w' : World I R} {l : List (List K.Lbl × Ev K.Lbl)}, play K M n w l = some w' → ∀ {i : Nat}, n ≤ i →
    shot K M i w l = w' := by
  intro n
  induction n with
  | zero => intro w w' l h; cases h
  | succ n ih =>
    intro w w' l h i hi
    obtain ⟨i, rfl⟩ : ∃ m, i = m + 1 := ⟨i - 1, by omega⟩
    cases l with
    | nil => cases h; rfl
    | cons x r =>
      obtain ⟨ls, x⟩ := x
      simp only [play] at h
      simp only [shot]
      split at h
      · rename_i w1 h1
        simp only [h1]
        exact ih h (by omega)
      · rename_i h1
        simp only [h1]
        split at h
        · rename_i w1 h2
          simp only [h2]
          exact ih h (by omega)
        · cases h

/-- Something is true all the time. -/
def holds (f : World I R → Bool) (K : Machine I) (M : Methods V) : Nat → World I R → List (List K.Lbl × Ev K.Lbl) → Bool
  | 0, w, _ => f w
  | _ + 1, w, [] => f w
  | n + 1, w, (ls, e) :: r => f w && match play1 K M w e with
    | some w' => holds f K M n w' r
    | none => match ls.findSome? fun l => play1 K M w (.inside l) with
      | some w' => holds f K M n w' ((ls, e) :: r)
      | none => true

theorem holds_shot {f : World I R → Bool} {K : Machine I} {M : Methods V} : ∀ {n : Nat} {w : World I R} {l : List (List K.Lbl × Ev K.Lbl)}, holds f K M n w l = true →
    ∀ {i : Nat}, i ≤ n → f (shot K M i w l) = true := by
  intro n
  induction n with
  | zero =>
    intro w l h i hi
    obtain rfl : i = 0 := by omega
    exact h
  | succ n ih =>
    intro w l h i hi
    cases l with
    | nil => cases i <;> exact h
    | cons x r =>
      obtain ⟨ls, x⟩ := x
      simp only [holds, Bool.and_eq_true] at h
      cases i with
      | zero => exact h.1
      | succ i =>
        obtain ⟨h0, h2⟩ := h
        simp only [shot]
        cases h1 : play1 K M w x with
        | some w1 =>
          simp only [h1] at h2 ⊢
          exact ih h2 (by omega)
        | none =>
          simp only [h1] at h2 ⊢
          cases h3 : ls.findSome? fun l => play1 K M w (.inside l) with
          | some w1 =>
            simp only [h3] at h2 ⊢
            exact ih h2 (by omega)
          | none =>
            exact h0

/-- If all threads have ended, they need not be given more time. -/
theorem ended_attentive {M : Methods V} {ω : Nat → World I R} {m : Nat} {w : World I R} (h : ∀ i, m ≤ i → ω i = w)
    (hd : ∀ th ∈ w.conf.threads, (∃ r, th.prog = .done r) ∧ th.phase = .own) : Attentive M ω := by
  intro t i hm
  obtain ⟨j, hj, w', hw⟩ := hm (i + m) (by omega)
  rw [h _ (by omega)] at hw
  exfalso
  cases hw with
  | look ht _ hl =>
    obtain ⟨⟨r, e⟩, _⟩ := hd _ (List.mem_of_getElem? ht)
    have := (look_next hl).1
    rw [e] at this; cases this
  | call ht _ hg _ _ =>
    obtain ⟨⟨r, e⟩, _⟩ := hd _ (List.mem_of_getElem? ht)
    rw [e] at hg; cases hg
  | clone ht _ hg _ _ =>
    obtain ⟨⟨r, e⟩, _⟩ := hd _ (List.mem_of_getElem? ht)
    rw [e] at hg; cases hg
  | drop ht _ hg _ _ =>
    obtain ⟨⟨r, e⟩, _⟩ := hd _ (List.mem_of_getElem? ht)
    rw [e] at hg; cases hg
  | dropped ht hg _ =>
    obtain ⟨_, e⟩ := hd _ (List.mem_of_getElem? ht)
    rw [e] at hg; cases hg

end

section
open Pool.Demo (cfg)
open Src.NewCode (dcfg dlayout)

def isDone {V R P : Type} (th : Thread V R P) : Bool := match th.prog, th.phase with
  | .done _, .own => true
  | _, _ => false

theorem isDone_done {V R P : Type} {th : Thread V R P} (h : isDone th = true) : (∃ r, th.prog = .done r) ∧ th.phase = .own := by
  unfold isDone at h
  split at h
  · rename_i r e1 e2; exact ⟨⟨r, e1⟩, e2⟩
  · cases h

/-! #### `Intern`, and an arena -/

/-- The events of the example for C90. -/
def poolEvents : List (List Src.PoolCode.Cmd × Ev Src.PoolCode.Cmd) :=
  [([], .call 0), ([], .call 1), ([], .call 2), ([.run 0 10], .ret 0 10), ([.run 1 20], .ret 1 20), ([], .clone 0), ([], .drop 0), ([], .dropped 0),
    ([], .look 0), ([], .look 1), ([.run 2 30], .ret 2 30), ([], .look 1), ([], .call 2), ([], .look 1), ([.run 2 40], .ret 2 40), ([], .look 1),
    ([], .look 2), ([], .look 2), ([], .look 2)]

def poolFilm (k : Nat) (i : Nat) : World (pool cfg k) (Bool × Ordering × Nat) := shot (poolMachine k) poolMethods i (poolStart k) poolEvents

/-- The process: three threads are started, then the program. -/
def poolProcess (k : Nat) : Nat → Src.PoolCode.State Nat Pool.Demo.Val
  | 0 => Src.PoolCode.init
  | 1 => { Src.PoolCode.init with threads := [[]] }
  | 2 => { Src.PoolCode.init with threads := [[], []] }
  | i + 3 => (poolFilm k i).state

theorem poolFilm_ends {k : Nat} (hk : k ∈ [0, 2]) : ∃ w, play (poolMachine k) poolMethods 400 (poolStart k) poolEvents = some w ∧
    (∀ th ∈ w.conf.threads, (∃ r, th.prog = .done r) ∧ th.phase = .own) ∧ ∀ cs ∈ w.state.threads, cs = [] := by
  have : ∀ k ∈ [0, 2], (match play (poolMachine k) poolMethods 400 (poolStart k) poolEvents with
    | some w => w.conf.threads.all isDone && w.state.threads.all List.isEmpty
    | none => false) = true := by decide +kernel
  have h := this k hk
  split at h
  · rename_i w hw
    obtain ⟨h1, h2⟩ := Bool.and_eq_true_iff.mp h
    exact ⟨w, hw, fun th ht => isDone_done (List.all_eq_true.mp h1 th ht), fun cs hc => List.isEmpty_iff.mp (List.all_eq_true.mp h2 cs hc)⟩
  · cases h

theorem poolFilm_flat {k : Nat} (hk : k ∈ [0, 2]) (i : Nat) : (∀ cs ∈ (poolFilm k i).state.threads, cs.length ≤ 1) ∧
    (poolFilm k i).state.threads.length ≤ 3 := by
  have : ∀ k ∈ [0, 2], holds (I := pool cfg k) (R := Bool × Ordering × Nat)
    (fun w => w.state.threads.all (fun cs => decide (cs.length ≤ 1)) && decide (w.state.threads.length ≤ 3))
    (poolMachine k) poolMethods 400 (poolStart k) poolEvents = true := by decide +kernel
  have h : (fun w : World (pool cfg k) (Bool × Ordering × Nat) => w.state.threads.all (fun cs => decide (cs.length ≤ 1)) &&
      decide (w.state.threads.length ≤ 3)) (poolFilm k i) = true := by
    by_cases hi : i ≤ 400
    · exact holds_shot (this k hk) hi
    · obtain ⟨w, hw, _⟩ := poolFilm_ends hk
      rw [poolFilm, shot_end hw (by omega), ← shot_end hw (Nat.le_refl _)]
      exact holds_shot (this k hk) (Nat.le_refl _)
  obtain ⟨h1, h2⟩ := Bool.and_eq_true_iff.mp h
  exact ⟨fun cs hc => of_decide_eq_true (List.all_eq_true.mp h1 cs hc), of_decide_eq_true h2⟩

theorem pool_step {k : Nat} {R : Type} {w w' : World (pool cfg k) R} {M : Methods Pool.Demo.Val} (h : WStep M w w') :
    w'.state = w.state ∨ ∃ a, a.Lawful ∧ Src.PoolCode.step cfg w.state a = .ok w'.state := by
  cases h with
  | inside h _ _ => exact .inr h
  | look _ _ _ => exact .inl rfl
  | call _ _ _ h _ =>
    obtain ⟨_, q, byRef, hl, e⟩ := h
    exact .inr ⟨.call _ (.intern k q _) byRef, hl, e⟩
  | ret _ _ _ h =>
    obtain ⟨c, a, q, v, _, e, _⟩ := h
    exact .inr ⟨.run _ a, trivial, e⟩
  | clone _ _ _ _ h => exact .inl h.2
  | drop _ _ _ _ h => exact .inl h.2
  | dropped _ _ _ => exact .inl rfl

theorem poolProcess_step (k i : Nat) : poolProcess k (i + 1) = poolProcess k i ∨
    ∃ a, a.Lawful ∧ Src.PoolCode.step cfg (poolProcess k i) a = .ok (poolProcess k (i + 1)) := by
  match i with
  | 0 => exact .inr ⟨.spawn, trivial, rfl⟩
  | 1 => exact .inr ⟨.spawn, trivial, rfl⟩
  | 2 => exact .inr ⟨.spawn, trivial, rfl⟩
  | i + 3 =>
    rcases shot_passes (poolMachine k) poolMethods (poolStart k) poolEvents i with h | h
    · exact .inl (congrArg World.state h)
    · exact pool_step h

theorem poolProcess_flat {k : Nat} (hk : k ∈ [0, 2]) (i : Nat) : (∀ cs ∈ (poolProcess k i).threads, cs.length ≤ 1) ∧ (poolProcess k i).threads.length ≤ 3 := by
  match i with
  | 0 => simp [poolProcess, Src.PoolCode.init]
  | 1 => simp [poolProcess]
  | 2 => simp [poolProcess]
  | i + 3 => exact poolFilm_flat hk i

theorem pool_still {k i : Nat} (hk : k ∈ [0, 2]) (hi : 403 ≤ i) (t : Tid) : Src.PoolCode.Idle (poolProcess k i) t := by
  obtain ⟨w, hw, _, h⟩ := poolFilm_ends hk
  obtain ⟨i, rfl⟩ : ∃ m, i = m + 3 := ⟨i - 3, by omega⟩
  show ((poolFilm k i).state.threads[t]?).getD [] = []
  rw [poolFilm, shot_end hw (by omega)]
  cases e : w.state.threads[t]? with
  | none => rfl
  | some cs => exact h cs (List.mem_of_getElem? e)

/-- The example for C90 meets all hypotheses, with an `Intern` and with an arena: two threads send and receive, and
one of them drops a handle. The third comes to its end, and the program to a stop. -/
example : ∀ k ∈ [0, 2], ∃ α, Src.PoolCode.Execution cfg (poolProcess k) α ∧ Src.PoolCode.StronglyFair cfg (poolProcess k) α ∧
    Src.PoolCode.UserCodeEnds (poolProcess k) α ∧ (∀ i, Src.PoolCode.Ranked cfg id (poolProcess k i)) ∧ (∀ i, (poolProcess k i).threads.length ≤ 3) ∧
    (∀ i, (poolFilm k i).state = poolProcess k (3 + i)) ∧ Starts [sender', receiver', loner'] 1 (poolFilm k 0) ∧ Passes poolMethods (poolFilm k) ∧
    Attentive poolMethods (poolFilm k) ∧ loner'.eval poolMethods [] = some (false, .gt, 5) ∧
    (poolFilm k 30).conf.results = [none, none, none] ∧ (∃ j, ∀ i, j ≤ i → (poolFilm k i).conf.progs[2]? = some (.done (false, .gt, 5))) ∧
    ∃ j c, VRun poolMethods (start [sender', receiver', loner'] 1) c ∧ (∀ c', ¬ VStep poolMethods c c') ∧ ∀ i, j ≤ i → (poolFilm k i).conf.progs = c.progs ∧ Same (poolFilm k i) c := by
  intro k hk
  let ok : Nat → Option (Src.PoolCode.Act Nat Pool.Demo.Val) → Prop := fun i a => match a with
    | none => poolProcess k (i + 1) = poolProcess k i
    | some a => a.Lawful ∧ Src.PoolCode.step cfg (poolProcess k i) a = .ok (poolProcess k (i + 1))
  obtain ⟨α, hα⟩ : ∃ α : Nat → Option (Src.PoolCode.Act Nat Pool.Demo.Val), ∀ i, ok i (α i) := by
    refine Classical.axiomOfChoice fun i => ?_
    rcases poolProcess_step k i with h | ⟨a, h⟩
    · exact ⟨none, h⟩
    · exact ⟨some a, h⟩
  have hx : Src.PoolCode.Execution cfg (poolProcess k) α := by
    refine ⟨rfl, fun i => ?_⟩
    have h := hα i
    cases e : α i <;> rw [e] at h <;> exact h
  have hf : Src.PoolCode.StronglyFair cfg (poolProcess k) α := by
    intro t h
    obtain ⟨j, hj, a, S', e⟩ := h 403
    have h1 := pool_still hk hj t
    exfalso
    simp only [Src.PoolCode.step] at e
    have h1 : ((poolProcess k j).threads[t]?).getD [] = [] := h1
    cases h2 : (poolProcess k j).threads[t]? with
    | none => rw [h2] at e; cases e
    | some cs =>
      rw [h2] at h1 e
      have h1 : cs = [] := h1
      subst h1; cases e
  have hu : Src.PoolCode.UserCodeEnds (poolProcess k) α := fun t => .inl fun i => ⟨i + 403, by omega, pool_still hk (by omega) t⟩
  have hr : ∀ i, Src.PoolCode.Ranked cfg id (poolProcess k i) := fun i => Src.PoolCode.ranked_flat (poolProcess_flat hk i).1 _
  have hm : ∀ i, (poolProcess k i).threads.length ≤ 3 := fun i => (poolProcess_flat hk i).2
  have hω : ∀ i, (poolFilm k i).state = poolProcess k (3 + i) := fun i => by rw [Nat.add_comm]; rfl
  have hs : Starts [sender', receiver', loner'] 1 (poolFilm k 0) := poolStart_starts
  have hp : Passes poolMethods (poolFilm k) := shot_passes (poolMachine k) poolMethods (poolStart k) poolEvents
  have ha : Attentive poolMethods (poolFilm k) := by
    obtain ⟨w, hw, h, _⟩ := poolFilm_ends hk
    exact ended_attentive (fun i hi => shot_end hw hi) h
  refine ⟨α, hx, hf, hu, hr, hm, hω, hs, hp, ha, rfl, ?_, C101_pool Pool.Demo.layout poolMethods_lawful hx hf hu hr hm hω hs hp ha (t := 2) rfl loner'_alone rfl,
    C101_pool_settles Pool.Demo.layout poolMethods_lawful hx hf hu hr hm hω hs hp ha⟩
  have : ∀ k ∈ [0, 2], (poolFilm k 30).conf.results = [none, none, none] := by decide +kernel
  exact this k hk

/-! #### The `Intern` of typearena.rs -/

/-- The events of the example for C90. -/
def newEvents : List (List Src.NewCode.Cmd × Ev Src.NewCode.Cmd) :=
  [([], .call 0), ([], .call 1), ([], .call 2), (in_ 0 10, .ret 0 10), (in_ 1 20, .ret 1 20), ([], .clone 0), ([], .drop 0), ([], .dropped 0),
    ([], .look 0), ([], .look 1), (in_ 2 30, .ret 2 30), ([], .look 1), ([], .call 2), ([], .look 1), (in_ 2 40, .ret 2 40), ([], .look 1),
    ([], .look 2), ([], .look 2), ([], .look 2)]

def newFilm (i : Nat) : World (newIntern dcfg 0) (Bool × Ordering × Nat) := shot (newMachine 0) poolMethods i newStart newEvents

/-- The process: three threads are started, then the program. -/
def newProcess : Nat → Src.NewCode.State Nat Pool.Demo.Val
  | 0 => Src.NewCode.init
  | 1 => { Src.NewCode.init with threads := [[]] }
  | 2 => { Src.NewCode.init with threads := [[], []] }
  | i + 3 => (newFilm i).state

theorem newFilm_ends : ∃ w, play (newMachine 0) poolMethods 400 newStart newEvents = some w ∧
    (∀ th ∈ w.conf.threads, (∃ r, th.prog = .done r) ∧ th.phase = .own) ∧ ∀ cs ∈ w.state.threads, cs = [] := by
  have : (match play (newMachine 0) poolMethods 400 newStart newEvents with
    | some w => w.conf.threads.all isDone && w.state.threads.all List.isEmpty
    | none => false) = true := by decide +kernel
  have h := this
  split at h
  · rename_i w hw
    obtain ⟨h1, h2⟩ := Bool.and_eq_true_iff.mp h
    exact ⟨w, hw, fun th ht => isDone_done (List.all_eq_true.mp h1 th ht), fun cs hc => List.isEmpty_iff.mp (List.all_eq_true.mp h2 cs hc)⟩
  · cases h

theorem newFilm_flat (i : Nat) : (∀ cs ∈ (newFilm i).state.threads, cs.length ≤ 1) ∧
    (newFilm i).state.threads.length ≤ 3 := by
  have : holds (I := newIntern dcfg 0) (R := Bool × Ordering × Nat)
    (fun w => w.state.threads.all (fun cs => decide (cs.length ≤ 1)) && decide (w.state.threads.length ≤ 3))
    (newMachine 0) poolMethods 400 newStart newEvents = true := by decide +kernel
  have h : (fun w : World (newIntern dcfg 0) (Bool × Ordering × Nat) => w.state.threads.all (fun cs => decide (cs.length ≤ 1)) &&
      decide (w.state.threads.length ≤ 3)) (newFilm i) = true := by
    by_cases hi : i ≤ 400
    · exact holds_shot this hi
    · obtain ⟨w, hw, _⟩ := newFilm_ends
      obtain ⟨j, hj⟩ : ∃ j, j = 400 := ⟨_, rfl⟩
      rw [newFilm, shot_end hw (by omega), ← shot_end hw (i := j) (by omega)]
      exact holds_shot this (by omega)
  obtain ⟨h1, h2⟩ := Bool.and_eq_true_iff.mp h
  exact ⟨fun cs hc => of_decide_eq_true (List.all_eq_true.mp h1 cs hc), of_decide_eq_true h2⟩

theorem new_step {R : Type} {w w' : World (newIntern dcfg 0) R} {M : Methods Pool.Demo.Val} (h : WStep M w w') :
    w'.state = w.state ∨ ∃ a, a.Lawful ∧ Src.NewCode.step dcfg w.state a = .ok w'.state := by
  cases h with
  | inside h _ _ => exact .inr h
  | look _ _ _ => exact .inl rfl
  | call _ _ _ h _ =>
    obtain ⟨_, q, byRef, unw, hl, e⟩ := h
    exact .inr ⟨.call _ (.intern 0 q _) byRef unw, hl, e⟩
  | ret _ _ _ h =>
    obtain ⟨c, a, q, v, _, e, _⟩ := h
    exact .inr ⟨.run _ a, trivial, e⟩
  | clone _ _ _ _ h => exact .inl h.2
  | drop _ _ _ _ h => exact .inl h.2
  | dropped _ _ _ => exact .inl rfl

theorem newProcess_step (i : Nat) : newProcess (i + 1) = newProcess i ∨
    ∃ a, a.Lawful ∧ Src.NewCode.step dcfg (newProcess i) a = .ok (newProcess (i + 1)) := by
  match i with
  | 0 => exact .inr ⟨.spawn, trivial, rfl⟩
  | 1 => exact .inr ⟨.spawn, trivial, rfl⟩
  | 2 => exact .inr ⟨.spawn, trivial, rfl⟩
  | i + 3 =>
    rcases shot_passes (newMachine 0) poolMethods newStart newEvents i with h | h
    · exact .inl (congrArg World.state h)
    · exact new_step h

theorem newProcess_flat (i : Nat) : (∀ cs ∈ (newProcess i).threads, cs.length ≤ 1) ∧ (newProcess i).threads.length ≤ 3 := by
  match i with
  | 0 => simp [newProcess, Src.NewCode.init]
  | 1 => simp [newProcess]
  | 2 => simp [newProcess]
  | i + 3 => exact newFilm_flat i

theorem new_still {i : Nat} (hi : 403 ≤ i) (t : Tid) : Src.NewCode.Idle (newProcess i) t := by
  obtain ⟨w, hw, _, h⟩ := newFilm_ends
  obtain ⟨i, rfl⟩ : ∃ m, i = m + 3 := ⟨i - 3, by omega⟩
  show ((newFilm i).state.threads[t]?).getD [] = []
  rw [newFilm, shot_end hw (by omega)]
  cases e : w.state.threads[t]? with
  | none => rfl
  | some cs => exact h cs (List.mem_of_getElem? e)

/-- And with the `Intern` of typearena.rs. -/
example : ∃ α, Src.NewCode.Execution dcfg newProcess α ∧ Src.NewCode.StronglyFair dcfg newProcess α ∧
    Src.NewCode.UserCodeEnds newProcess α ∧ (∀ i, Src.NewCode.Ranked id (newProcess i)) ∧ (∀ i, (newProcess i).threads.length ≤ 3) ∧
    (∀ i, (newFilm i).state = newProcess (3 + i)) ∧ Starts [sender', receiver', loner'] 1 (newFilm 0) ∧ Passes poolMethods newFilm ∧
    Attentive poolMethods newFilm ∧ loner'.eval poolMethods [] = some (false, .gt, 5) ∧
    (newFilm 30).conf.results = [none, none, none] ∧ (∃ j, ∀ i, j ≤ i → (newFilm i).conf.progs[2]? = some (.done (false, .gt, 5))) ∧
    ∃ j c, VRun poolMethods (start [sender', receiver', loner'] 1) c ∧ (∀ c', ¬ VStep poolMethods c c') ∧ ∀ i, j ≤ i → (newFilm i).conf.progs = c.progs ∧ Same (newFilm i) c := by
  let ok : Nat → Option (Src.NewCode.Act Nat Pool.Demo.Val) → Prop := fun i a => match a with
    | none => newProcess (i + 1) = newProcess i
    | some a => a.Lawful ∧ Src.NewCode.step dcfg (newProcess i) a = .ok (newProcess (i + 1))
  obtain ⟨α, hα⟩ : ∃ α : Nat → Option (Src.NewCode.Act Nat Pool.Demo.Val), ∀ i, ok i (α i) := by
    refine Classical.axiomOfChoice fun i => ?_
    rcases newProcess_step i with h | ⟨a, h⟩
    · exact ⟨none, h⟩
    · exact ⟨some a, h⟩
  have hx : Src.NewCode.Execution dcfg newProcess α := by
    refine ⟨rfl, fun i => ?_⟩
    have h := hα i
    cases e : α i <;> rw [e] at h <;> exact h
  have hf : Src.NewCode.StronglyFair dcfg newProcess α := by
    intro t h
    obtain ⟨j, hj, a, S', e⟩ := h 403
    have h1 := new_still hj t
    exfalso
    simp only [Src.NewCode.step] at e
    have h1 : ((newProcess j).threads[t]?).getD [] = [] := h1
    cases h2 : (newProcess j).threads[t]? with
    | none => rw [h2] at e; cases e
    | some cs =>
      rw [h2] at h1 e
      have h1 : cs = [] := h1
      subst h1; cases e
  have hu : Src.NewCode.UserCodeEnds newProcess α := fun t => .inl fun i => ⟨i + 403, by omega, new_still (by omega) t⟩
  have hr : ∀ i, Src.NewCode.Ranked id (newProcess i) := fun i => Src.NewCode.ranked_flat (newProcess_flat i).1 _
  have hm : ∀ i, (newProcess i).threads.length ≤ 3 := fun i => (newProcess_flat i).2
  have hω : ∀ i, (newFilm i).state = newProcess (3 + i) := fun i => by rw [Nat.add_comm]; rfl
  have hs : Starts [sender', receiver', loner'] 1 (newFilm 0) := newStart_starts
  have hp : Passes poolMethods newFilm := shot_passes (newMachine 0) poolMethods newStart newEvents
  have ha : Attentive poolMethods newFilm := by
    obtain ⟨w, hw, h, _⟩ := newFilm_ends
    exact ended_attentive (fun i hi => shot_end hw hi) h
  refine ⟨α, hx, hf, hu, hr, hm, hω, hs, hp, ha, rfl, ?_, C101_new dlayout poolMethods_lawful hx hf hu hr hm hω hs hp ha (t := 2) rfl loner'_alone rfl,
    C101_new_settles dlayout poolMethods_lawful hx hf hu hr hm hω hs hp ha⟩
  have : (newFilm 30).conf.results = [none, none, none] := by decide +kernel
  exact this

end
end Client
