import Verif.Arc.Fair
/-! Infinite executions under a fair scheduler (C54): vocabulary and proof. -/
namespace Arc
variable {V : Type} [BEq V] [Hashable V]

/-- An infinite execution from the start of the process: at every instant some action happens, or nothing does. Every
action but a panic inside a table insertion (C19) or inside the removal of a drop (C14) may occur. -/
def Execution (cfg : Cfg V) (σ : Nat → State V) (α : Nat → Option (Act V)) : Prop :=
  σ 0 = init ∧ ∀ i, match α i with
    | none => σ (i + 1) = σ i
    | some a => a.Sane ∧ ¬ dropPanic (σ i) a ∧ step cfg (σ i) a = .ok (σ (i + 1)) ∧ Small cfg (σ (i + 1))

/-- Thread `t` can take a step of its running call. -/
def Enabled (cfg : Cfg V) (t : Tid) (s : State V) : Prop := ∃ a s', step cfg s (.run t a) = .ok s'

/-- Thread `t` takes a step of its running call at instant `i`. -/
def RunsAt (α : Nat → Option (Act V)) (t : Tid) (i : Nat) : Prop := ∃ a, α i = some (.run t a)

/-- A thread that can step again and again does step again and again: the operating system runs every thread, and no
thread loses the competition for a lock for ever. -/
def StronglyFair (cfg : Cfg V) (σ : Nat → State V) (α : Nat → Option (Act V)) : Prop :=
  ∀ t, (∀ i, ∃ j, i ≤ j ∧ Enabled cfg t (σ j)) → ∀ i, ∃ j, i ≤ j ∧ RunsAt α t j

/-- From some instant on, no client call starts and no user code panics. -/
def FinitelyManyCalls (α : Nat → Option (Act V)) : Prop :=
  ∃ n, ∀ i, n ≤ i → ∀ a, α i = some a → ∃ t x, a = .run t x

theorem eventually_const {β : Type} {r : β → β → Prop} (wf : WellFounded r) (f : Nat → β) :
    ∀ N, (∀ i, N ≤ i → f (i + 1) = f i ∨ r (f (i + 1)) (f i)) → ∃ M, N ≤ M ∧ ∀ i, M ≤ i → ¬ r (f (i + 1)) (f i) := by
  have : ∀ x N, f N = x → (∀ i, N ≤ i → f (i + 1) = f i ∨ r (f (i + 1)) (f i)) →
      ∃ M, N ≤ M ∧ ∀ i, M ≤ i → ¬ r (f (i + 1)) (f i) := by
    intro x
    induction x using wf.induction with
    | _ x ih =>
      intro N hN h
      by_cases hall : ∀ i, N ≤ i → ¬ r (f (i + 1)) (f i)
      · exact ⟨N, Nat.le_refl _, hall⟩
      · have hex : ∃ d, r (f (N + d + 1)) (f (N + d)) := by
          rw [Classical.not_forall] at hall
          obtain ⟨i, hi⟩ := hall
          rw [Classical.not_imp, Classical.not_not] at hi
          exact ⟨i - N, by rw [Nat.add_sub_cancel' hi.1]; exact hi.2⟩
        obtain ⟨d, hd, hmin⟩ : ∃ d, r (f (N + d + 1)) (f (N + d)) ∧ ∀ e, e < d → ¬ r (f (N + e + 1)) (f (N + e)) := by
          obtain ⟨d, hd⟩ := hex
          induction d using Nat.strongRecOn with
          | _ d ihd =>
            by_cases hm : ∀ e, e < d → ¬ r (f (N + e + 1)) (f (N + e))
            · exact ⟨d, hd, hm⟩
            · rw [Classical.not_forall] at hm
              obtain ⟨e, he⟩ := hm
              rw [Classical.not_imp, Classical.not_not] at he
              exact ihd e he.1 he.2
        have hc : ∀ e, e ≤ d → f (N + e) = f N := by
          intro e
          induction e with
          | zero => intro _; rfl
          | succ e ihe =>
            intro he
            rcases h (N + e) (by omega) with h1 | h1
            · exact h1.trans (ihe (by omega))
            · exact absurd h1 (hmin e (by omega))
        obtain ⟨M, h1, h2⟩ := ih (f (N + d + 1)) (by rw [hc d (Nat.le_refl _), hN] at hd; exact hd) (N + d + 1) rfl
          (fun i hi => h i (by omega))
        exact ⟨M, by omega, h2⟩
  exact fun N => this (f N) N rfl

def mu (cfg : Cfg V) (s : State V) : Nat × Nat × Nat × Nat := (m1 s, s.table.length, m3 s, m4 cfg s)

def muLt : Nat × Nat × Nat × Nat → Nat × Nat × Nat × Nat → Prop :=
  Prod.Lex (· < ·) (Prod.Lex (· < ·) (Prod.Lex (· < ·) (· < ·)))

theorem muLt_wf : WellFounded muLt :=
  (Prod.lex ⟨_, Nat.lt_wfRel.wf⟩ (Prod.lex ⟨_, Nat.lt_wfRel.wf⟩ (Prod.lex ⟨_, Nat.lt_wfRel.wf⟩ ⟨_, Nat.lt_wfRel.wf⟩))).wf

theorem muLt_of_less {cfg : Cfg V} {s' s : State V} (h : Less cfg s' s) : muLt (mu cfg s') (mu cfg s) := by
  simp only [muLt, mu, Prod.lex_def]
  exact h

theorem mu_of_same {cfg : Cfg V} {s' s : State V} (h : Same cfg s' s) : mu cfg s' = mu cfg s := by
  obtain ⟨h1, h2, h3, h4⟩ := h
  simp only [mu, h1, h2, h3, h4]

/-- An execution that has settled: from `M` on, every step belongs to the retry loop of some `new`. -/
structure Retrying (cfg : Cfg V) (σ : Nat → State V) (α : Nat → Option (Act V)) (M : Nat) : Prop where
  inv : ∀ i, M ≤ i → Inv cfg (σ i)
  zom : ∀ i, M ≤ i → (σ i).zombies = []
  step : ∀ i, M ≤ i → (σ (i + 1) = σ i ∧ ∀ t, ¬ RunsAt α t i) ∨
    ∃ t a th th', α i = some (.run t a) ∧ Arc.step cfg (σ i) (.run t a) = .ok (σ (i + 1)) ∧
      (σ i).threads[t]? = some th ∧ th.pc.spinning = true ∧ (σ (i + 1)).threads = (σ i).threads.set t th' ∧
      (σ (i + 1)).table = (σ i).table

/-- And it is fair. Fairness may be limited to some threads `P`, among them those that hold a lock or are about to remove an object. -/
structure Settled (cfg : Cfg V) (σ : Nat → State V) (α : Nat → Option (Act V)) (M : Nat) (P : Tid → Prop := fun _ => True) : Prop
    extends Retrying cfg σ α M where
  fair : ∀ t, P t → (∀ i, ∃ j, i ≤ j ∧ Enabled cfg t (σ j)) → ∀ i, ∃ j, i ≤ j ∧ RunsAt α t j
  busy : ∀ i, M ≤ i → ∀ (u : Tid) (th : Thread V), (σ i).threads[u]? = some th → th.pc.holds ≠ none ∨ th.pc.removing ≠ [] → P u

namespace Retrying
variable {cfg : Cfg V} {σ : Nat → State V} {α : Nat → Option (Act V)} {M : Nat}

theorem frame (S : Retrying cfg σ α M) {i : Nat} (hi : M ≤ i) {u : Tid} (h : ¬ RunsAt α u i) :
    (σ (i + 1)).threads[u]? = (σ i).threads[u]? := by
  rcases S.step i hi with ⟨h1, _⟩ | ⟨t, a, th, th', h1, h2, h3, h4, h5, h6⟩
  · rw [h1]
  · have hne : u ≠ t := by rintro rfl; exact h ⟨a, h1⟩
    rw [h5, set_getElem? _ _ _ _ _ h3, if_neg hne]

theorem still (S : Retrying cfg σ α M) {i : Nat} (hi : M ≤ i) {u : Tid} {th : Thread V} (hu : (σ i).threads[u]? = some th)
    (hs : th.pc.spinning = false) : ¬ RunsAt α u i := by
  rintro ⟨a, ha⟩
  rcases S.step i hi with ⟨_, h1⟩ | ⟨t, a', th', _, h1, h2, h3, h4, _⟩
  · exact h1 u ⟨a, ha⟩
  · rw [ha] at h1
    simp only [Option.some.injEq, Act.run.injEq] at h1
    obtain ⟨rfl, rfl⟩ := h1
    rw [hu] at h3; cases h3
    rw [hs] at h4; cases h4

theorem const (S : Retrying cfg σ α M) {i : Nat} (hi : M ≤ i) {u : Tid} {th : Thread V} (hu : (σ i).threads[u]? = some th) :
    ∀ j, i ≤ j → (∀ k, i ≤ k → k < j → ¬ RunsAt α u k) → (σ j).threads[u]? = some th := by
  intro j hj
  induction hj with
  | refl => intro _; exact hu
  | @step j hj ih =>
    replace hj : i ≤ j := hj
    intro h
    rw [S.frame (by omega) (h j hj (by omega))]
    exact ih (fun k h1 h2 => h k h1 (by omega))

theorem const' (S : Retrying cfg σ α M) {i : Nat} (hi : M ≤ i) {u : Tid} {th : Thread V} (hu : (σ i).threads[u]? = some th)
    (hs : th.pc.spinning = false) : ∀ j, i ≤ j → (σ j).threads[u]? = some th := by
  intro j hj
  induction hj with
  | refl => exact hu
  | @step j hj ih =>
    replace hj : i ≤ j := hj
    rw [S.frame (by omega) (S.still (by omega) ih hs)]; exact ih

theorem next_run (S : Retrying cfg σ α M) {i : Nat} (hi : M ≤ i) {u : Tid} {th : Thread V}
    (hu : (σ i).threads[u]? = some th) (hr : ∃ k, i ≤ k ∧ RunsAt α u k) :
    ∃ k a, i ≤ k ∧ (σ k).threads[u]? = some th ∧ RunR cfg (σ k) u th a (σ (k + 1)) ∧ th.pc.spinning = true := by
  obtain ⟨k, hk, hrk, hmin⟩ : ∃ k, i ≤ k ∧ RunsAt α u k ∧ ∀ l, i ≤ l → l < k → ¬ RunsAt α u l := by
    obtain ⟨k, hk, hrk⟩ := hr
    induction k using Nat.strongRecOn with
    | _ k ih =>
      by_cases hm : ∀ l, i ≤ l → l < k → ¬ RunsAt α u l
      · exact ⟨k, hk, hrk, hm⟩
      · simp only [Classical.not_forall, Classical.not_not] at hm
        obtain ⟨l, h1, h2, h3⟩ := hm
        exact ih l h2 h1 h3
  have hth := S.const hi hu k hk hmin
  obtain ⟨a, ha⟩ := hrk
  rcases S.step k (by omega) with ⟨_, h1⟩ | ⟨t, a', th', _, h1, h2, h3, h4, _⟩
  · exact absurd ⟨a, ha⟩ (h1 u)
  · rw [ha] at h1
    simp only [Option.some.injEq, Act.run.injEq] at h1
    obtain ⟨rfl, rfl⟩ := h1
    rw [hth] at h3; cases h3
    have hR := step_R h2
    cases hR with
    | run _ _ th' _ ht hr => rw [hth] at ht; cases ht; exact ⟨k, a, hk, hth, hr, h4⟩

theorem dropRemove_table (S : Retrying cfg σ α M) {i : Nat} (hi : M ≤ i) {u : Tid} {th : Thread V} {b : Addr}
    (hu : (σ i).threads[u]? = some th) (hpc : th.pc = .dropRemove b) : b ∈ (σ i).table := by
  have hI := S.inv i hi
  have hR : 0 < R (σ i) b := (count_flatMap_pos _ b _).mpr ⟨u, th, hu, by rw [hpc]; simp [Pc.removing]⟩
  have hp := hI.pend b
  by_cases hc : 0 < T (σ i) b ∧ A cfg (σ i) b = 0
  · exact List.count_pos_iff.mp hc.1
  · rw [if_neg hc] at hp; omega

theorem table_step (S : Retrying cfg σ α M) {i : Nat} (hi : M ≤ i) {b : Addr} (hb : b ∈ (σ i).table) :
    deref (σ (i + 1)) b = deref (σ i) b := by
  rcases S.step i hi with ⟨h1, _⟩ | ⟨t, a, th, th', h1, h2, _⟩
  · rw [h1]
  · exact step_data (S.inv i hi) (by simp [Act.Sane]) h2 hb

/-- If a `new` has found a dying object, some drop is about to remove it. -/
theorem remover (S : Retrying cfg σ α M) {i : Nat} (hi : M ≤ i) {u : Tid} {th : Thread V} (hu : (σ i).threads[u]? = some th) {c : Call V} {sh : Nat}
    {b : Addr} (hpc : th.pc = .newUndo c sh b) : ∃ (w : Tid) (thw : Thread V), (σ i).threads[w]? = some thw ∧ thw.pc = .dropRemove b := by
  have hI := S.inv i hi
  have hU : 0 < U (σ i) b := (count_flatMap_pos _ b _).mpr ⟨u, th, hu, by rw [hpc]; simp [Pc.undoing]⟩
  have hp := hI.pend b
  rw [if_pos (hI.undo b hU)] at hp
  have hz : Z (σ i) b = 0 := by simp [Z, S.zom i hi]
  obtain ⟨w, thw, hw, hr⟩ := (count_flatMap_pos _ b (σ i).threads).mp (show 0 < R (σ i) b by omega)
  refine ⟨w, thw, hw, ?_⟩
  cases hpc : thw.pc <;> simp [hpc, Pc.removing] at hr
  rw [hr]

end Retrying

namespace Settled
variable {cfg : Cfg V} {σ : Nat → State V} {α : Nat → Option (Act V)} {M : Nat} {P : Tid → Prop}

variable [LawfulHashable V] [EquivBEq V]

theorem holder_runs (hv : cfg.Valid) (S : Settled cfg σ α M P) {i : Nat} (hi : M ≤ i) {u : Tid} {th : Thread V}
    (hu : (σ i).threads[u]? = some th) {l : Nat} (hl : th.pc.holds = some l) : ∃ k, i ≤ k ∧ RunsAt α u k := by
  refine Classical.byContradiction fun hno => ?_
  have hno' : ∀ k, i ≤ k → ¬ RunsAt α u k := fun k h1 h2 => hno ⟨k, h1, h2⟩
  obtain ⟨k, h1, h2⟩ := S.fair u (S.busy i hi u th hu (.inl (by rw [hl]; exact Option.some_ne_none l))) (fun j => ⟨max i j, Nat.le_max_right _ _, by
    have hth := S.const hi hu (max i j) (Nat.le_max_left _ _) (fun k h1 _ => hno' k h1)
    have hI := S.inv (max i j) (Nat.le_trans hi (Nat.le_max_left _ _))
    obtain ⟨s', hs'⟩ := holder_enabled hv hI ((hI.lk l u).mpr ⟨th, hth, hl⟩) 0
    exact ⟨0, s', hs'⟩⟩) i
  exact hno' k h1 h2

theorem lock_free (hv : cfg.Valid) (S : Settled cfg σ α M P) (l : Nat) :
    ∀ i, M ≤ i → ∃ j, i ≤ j ∧ (σ j).locks l = none := by
  have main : ∀ n i, M ≤ i → ∀ (u : Tid) (th : Thread V), (σ i).threads[u]? = some th → th.pc.holds = some l → th.pc.holdRank ≤ n →
      ∃ j, i ≤ j ∧ (σ j).locks l = none := by
    intro n
    induction n with
    | zero =>
      intro i hi u th hu hh hn
      cases hpc : th.pc <;> simp [hpc, Pc.holds, Pc.holdRank] at hh hn
    | succ n ih =>
      intro i hi u th hu hh hn
      obtain ⟨k, a, hk, hth, hr, hsp⟩ := S.next_run hi hu (S.holder_runs hv hi hu hh)
      have nxt : ∀ (th' : Thread V), (σ (k + 1)).threads = (σ k).threads.set u th' → th'.pc.holds = some l →
          th'.pc.holdRank ≤ n → ∃ j, i ≤ j ∧ (σ j).locks l = none := by
        intro th' h1 h2 h3
        obtain ⟨j, h4, h5⟩ := ih (k + 1) (by omega) u th' (by rw [h1]; exact set_self hth) h2 h3
        exact ⟨j, by omega, h5⟩
      generalize hσ : σ (k + 1) = s' at hr nxt
      cases hr with
      | dying c sh b x hpc hx hc =>
        rw [hpc] at hh hn
        exact nxt _ rfl hh (by simp only [Pc.holdRank] at hn ⊢; omega)
      | undo c sh b x hpc hx =>
        rw [hpc] at hh hn
        exact nxt _ rfl hh (by simp only [Pc.holdRank] at hn ⊢; omega)
      | release c sh hpc =>
        rw [hpc] at hh
        cases hh
        refine ⟨k + 1, by omega, ?_⟩
        rw [hσ]
        simp [State.setThread, State.unlock]
      | hit c sh b x hpc hx hc =>
        rw [hpc] at hh hn
        exact nxt _ rfl hh (by simp only [Pc.holdRank] at hn ⊢; omega)
      | _ => simp_all [Pc.spinning, Pc.holds]
  intro i hi
  cases h : (σ i).locks l with
  | none => exact ⟨i, Nat.le_refl _, h⟩
  | some u =>
    obtain ⟨th, hu, hh⟩ := ((S.inv i hi).lk l u).mp h
    exact main _ i hi u th hu hh (Nat.le_refl _)

/-- A running call that is not in the retry loop would step. -/
theorem all_spin (hv : cfg.Valid) (S : Settled cfg σ α M P) {i : Nat} (hi : M ≤ i) {u : Tid} (hP : P u) {th : Thread V}
    (hu : (σ i).threads[u]? = some th) (hs : th.pc.spinning = false) : th.isIdle = true := by
  refine Classical.byContradiction fun hid => ?_
  have hid' : th.isIdle = false := by simpa using hid
  have hc := S.const' hi hu hs
  have hwc : ∀ j, i ≤ j → th.pc.wants cfg (σ j) = th.pc.wants cfg (σ i) := by
    intro j hj
    induction hj with
    | refl => rfl
    | @step j hj ih =>
      replace hj : i ≤ j := hj
      rw [← ih]
      cases hpc : th.pc with
      | newEntry c b =>
        have h1 := ((S.inv j (by omega)).th u th (hc j hj)).pc
        have h2 := ((S.inv (j + 1) (by omega)).th u th (hc (j + 1) (by omega))).pc
        simp only [hpc, PcInv] at h1 h2
        simp only [Pc.wants, deref, h1.2.2, h2.2.2]
      | dropRemove b =>
        simp only [Pc.wants]
        rw [S.table_step (by omega) (S.dropRemove_table (by omega) (hc j hj) hpc)]
      | _ => rfl
  have hinf : ∀ j, ∃ k, j ≤ k ∧ Enabled cfg u (σ k) := by
    intro j
    obtain ⟨k, hk1, hk2, hk3⟩ : ∃ k, i ≤ k ∧ j ≤ k ∧ ∀ l, th.pc.wants cfg (σ k) = some l → (σ k).locks l = none := by
      cases hw : th.pc.wants cfg (σ i) with
      | none =>
        refine ⟨max i j, Nat.le_max_left _ _, Nat.le_max_right _ _, fun l hl => ?_⟩
        rw [hwc _ (Nat.le_max_left _ _), hw] at hl; cases hl
      | some l =>
        obtain ⟨k, h1, h2⟩ := S.lock_free hv l (max i j) (Nat.le_trans hi (Nat.le_max_left _ _))
        have h3 := Nat.le_max_left i j
        have h4 := Nat.le_max_right i j
        refine ⟨k, by omega, by omega, fun l' hl => ?_⟩
        rw [hwc k (by omega), hw] at hl; cases hl; exact h2
    obtain ⟨a, ha⟩ := fresh_addr (σ k).heap
    obtain ⟨s', hs'⟩ := run_enabled hv (S.inv k (by omega)) (hc k hk1) hid' (Or.inl ha) hk3
    exact ⟨k, hk2, a, s', hs'⟩
  obtain ⟨k, h1, h2⟩ := S.fair u hP hinf i
  exact S.still (by omega) (hc k h1) hs h2

theorem spin_runs (hv : cfg.Valid) (S : Settled cfg σ α M P) {i : Nat} (hi : M ≤ i) {u : Tid} (hP : P u) {th : Thread V}
    (hu : (σ i).threads[u]? = some th) (hs : th.pc.spinning = true) : ∃ k, i ≤ k ∧ RunsAt α u k := by
  cases hh : th.pc.holds with
  | some l => exact S.holder_runs hv hi hu hh
  | none =>
    obtain ⟨c, hpc⟩ : ∃ c, th.pc = .newLoop c := by
      cases hpc : th.pc <;> simp [hpc, Pc.spinning, Pc.holds] at hs hh ⊢
    refine Classical.byContradiction fun hno => ?_
    have hno' : ∀ k, i ≤ k → ¬ RunsAt α u k := fun k h1 h2 => hno ⟨k, h1, h2⟩
    have hinf : ∀ j, ∃ k, j ≤ k ∧ Enabled cfg u (σ k) := by
      intro j
      obtain ⟨k, h1, h2⟩ := S.lock_free hv (cfg.shardOf c.val) (max i j) (Nat.le_trans hi (Nat.le_max_left _ _))
      have h3 := Nat.le_max_left i j
      have h4 := Nat.le_max_right i j
      have hth := S.const hi hu k (by omega) (fun k h1 _ => hno' k h1)
      obtain ⟨s', hs'⟩ := run_enabled hv (S.inv k (by omega)) hth (by simp [Thread.isIdle, hpc]) (a := 0)
        (Or.inr (by simp [hpc])) (by intro l hl; simp only [hpc, Pc.wants, Option.some.injEq] at hl; rw [← hl]; exact h2)
      exact ⟨k, by omega, 0, s', hs'⟩
    obtain ⟨k, h1, h2⟩ := S.fair u hP hinf i
    exact hno' k h1 h2

theorem no_undo (hv : cfg.Valid) (S : Settled cfg σ α M P) {i : Nat} (hi : M ≤ i) {u : Tid} {th : Thread V}
    (hu : (σ i).threads[u]? = some th) {c : Call V} {sh : Nat} {b : Addr} (hpc : th.pc = .newUndo c sh b) : False := by
  obtain ⟨w, thw, hw, hpw⟩ := S.remover hi hu hpc
  have := S.all_spin hv hi (S.busy i hi w thw hw (.inr (by rw [hpw]; simp [Pc.removing]))) hw (by rw [hpw]; rfl)
  simp [Thread.isIdle, hpw] at this

theorem no_spin (hv : cfg.Valid) (S : Settled cfg σ α M P) {i : Nat} (hi : M ≤ i) {u : Tid} (hP : P u) {th : Thread V}
    (hu : (σ i).threads[u]? = some th) (hs : th.pc.spinning = true) : False := by
  have dying : ∀ i, M ≤ i → ∀ th, (σ i).threads[u]? = some th → ∀ c sh b, th.pc = .newFound c sh b → False := by
    intro i hi th hu c sh b hpc
    obtain ⟨k, a, hk, hth, hr, hsp⟩ := S.next_run hi hu (S.spin_runs hv hi hP hu (by rw [hpc]; rfl))
    generalize hσ : σ (k + 1) = s' at hr
    cases hr with
    | dying c' sh' b' x hpc' hx hc =>
      exact S.no_undo hv (i := k + 1) (by omega) (u := u) (by rw [hσ]; exact set_self hth) rfl
    | hit c' sh' b' x hpc' hx hc =>
      exact absurd (S.all_spin hv (i := k + 1) (by omega) (u := u) hP (by rw [hσ]; exact set_self hth) rfl) (by simp [Thread.isIdle])
    | _ => simp_all
  have loop : ∀ i, M ≤ i → ∀ th, (σ i).threads[u]? = some th → ∀ c, th.pc = .newLoop c → False := by
    intro i hi th hu c hpc
    obtain ⟨k, a, hk, hth, hr, hsp⟩ := S.next_run hi hu (S.spin_runs hv hi hP hu (by rw [hpc]; rfl))
    generalize hσ : σ (k + 1) = s' at hr
    cases hr with
    | found c' b' hpc' hl hf =>
      exact dying (k + 1) (by omega) _ (by rw [hσ]; exact set_self hth) _ _ _ rfl
    | cached c' b' hpc' hl hf hc =>
      exact absurd (S.all_spin hv (i := k + 1) (by omega) (u := u) hP (by rw [hσ]; exact set_self hth) rfl) (by simp [Thread.isIdle])
    | missing c' hpc' hl hf hc =>
      exact absurd (S.all_spin hv (i := k + 1) (by omega) (u := u) hP (by rw [hσ]; exact set_self hth) rfl) (by simp [Thread.isIdle])
    | _ => simp_all
  cases hpc : th.pc with
  | newLoop c => exact loop i hi th hu c hpc
  | newFound c sh b => exact dying i hi th hu c sh b hpc
  | newUndo c sh b => exact S.no_undo hv hi hu hpc
  | newRelease c sh =>
    obtain ⟨k, a, hk, hth, hr, hsp⟩ := S.next_run hi hu (S.spin_runs hv hi hP hu hs)
    generalize hσ : σ (k + 1) = s' at hr
    cases hr with
    | release c' sh' hpc' => exact loop (k + 1) (by omega) _ (by rw [hσ]; exact set_self hth) _ rfl
    | _ => simp_all
  | _ => simp [hpc, Pc.spinning] at hs

theorem idle (hv : cfg.Valid) (S : Settled cfg σ α M P) {i : Nat} (hi : M ≤ i) {u : Tid} (hP : P u) {th : Thread V}
    (hu : (σ i).threads[u]? = some th) : th.isIdle = true := by
  cases hs : th.pc.spinning with
  | true => exact (S.no_spin hv hi hP hu hs).elim
  | false => exact S.all_spin hv hi hP hu hs

theorem quiescent (hv : cfg.Valid) (S : Settled cfg σ α M) {i : Nat} (hi : M ≤ i) : Quiescent (σ i) := by
  intro th hth
  obtain ⟨u, hu⟩ := List.getElem?_of_mem hth
  exact S.idle hv hi trivial hu

end Settled

theorem Execution.reachND {cfg : Cfg V} {σ : Nat → State V} {α : Nat → Option (Act V)} (h : Execution cfg σ α) :
    ∀ i, ReachND cfg (σ i) := by
  intro i
  induction i with
  | zero => rw [h.1]; exact .init
  | succ i ih =>
    have := h.2 i
    cases ha : α i with
    | none => rw [ha] at this; simp only at this; rw [this]; exact ih
    | some a => rw [ha] at this; exact .step ih this.1 this.2.1 this.2.2.1 this.2.2.2

variable [LawfulHashable V] [EquivBEq V]

/-- If every step belongs to a running call, then from some instant on every step belongs to a retry loop. -/
theorem settles {cfg : Cfg V} {σ : Nat → State V} {α : Nat → Option (Act V)} {N : Nat} (hI : ∀ i, N ≤ i → Inv cfg (σ i))
    (hst : ∀ i, N ≤ i → (σ (i + 1) = σ i ∧ ∀ t, ¬ RunsAt α t i) ∨
      ∃ t a, α i = some (.run t a) ∧ step cfg (σ i) (.run t a) = .ok (σ (i + 1))) :
    ∃ M, N ≤ M ∧ ∀ i, M ≤ i → (σ (i + 1) = σ i ∧ ∀ t, ¬ RunsAt α t i) ∨
      ∃ t a th th', α i = some (.run t a) ∧ Arc.step cfg (σ i) (.run t a) = .ok (σ (i + 1)) ∧
        (σ i).threads[t]? = some th ∧ th.pc.spinning = true ∧ (σ (i + 1)).threads = (σ i).threads.set t th' ∧
        (σ (i + 1)).table = (σ i).table := by
  obtain ⟨M, hM, hc⟩ := eventually_const muLt_wf (fun i => mu cfg (σ i)) N (fun i hi => by
    rcases hst i hi with ⟨h1, _⟩ | ⟨t, a, h1, h2⟩
    · exact .inl (by rw [h1])
    · rcases run_less (hI i hi) h2 with h3 | h3
      · exact .inr (muLt_of_less h3)
      · exact .inl (mu_of_same h3.1))
  refine ⟨M, hM, fun i hi => ?_⟩
  rcases hst i (by omega) with h1 | ⟨t, a, h1, h2⟩
  · exact .inl h1
  · rcases run_less (hI i (by omega)) h2 with h3 | ⟨_, h4, th, th', h5, h6, h7, h8⟩
    · exact absurd (muLt_of_less h3) (hc i hi)
    · exact .inr ⟨t, a, th, th', h1, h2, h5, h6, h8, h4⟩

theorem fair_settles {cfg : Cfg V} (hv : cfg.Valid) {σ : Nat → State V} {α : Nat → Option (Act V)} (h : Execution cfg σ α)
    (hf : StronglyFair cfg σ α) (hn : FinitelyManyCalls α) : ∃ M, Settled cfg σ α M := by
  obtain ⟨N, hN⟩ := hn
  have hI : ∀ i, Inv cfg (σ i) := fun i => reach_inv hv (h.reachND i).reach
  obtain ⟨M, _, hM⟩ := settles (cfg := cfg) (σ := σ) (α := α) (N := N) (fun i _ => hI i) (fun i hi => by
    have h2 := h.2 i
    cases ha : α i with
    | none =>
      rw [ha] at h2
      exact .inl ⟨h2, fun t ⟨a, e⟩ => by rw [ha] at e; cases e⟩
    | some a =>
      rw [ha] at h2
      obtain ⟨t, x, rfl⟩ := hN i hi a ha
      exact .inr ⟨t, x, rfl, h2.2.2.1⟩)
  exact ⟨M, ⟨fun i _ => hI i, fun i _ => (h.reachND i).zombies, hM⟩, fun t _ => hf t, fun _ _ _ _ _ _ => trivial⟩

end Arc
