import Verif.Src.ArcNestMain
import Verif.Arc.Schedule
/-
Infinite executions of the code with calls inside calls, under a fair scheduler (C84): vocabulary and proof.
-/
namespace Src.ArcNest
open Arc (Addr Tid Cell Cfg Res Thread)
open Src.ArcCode (Var Val Op Glue Mem Stack lang Sim work)

variable {V : Type} [BEq V] [Hashable V] {cfg : Cfg V}

/-- An infinite execution from the start of the process: at every instant some action happens, or nothing does. Every action but a panic
inside the removal of a drop (C20) may occur. -/
def Execution (cfg : Cfg V) (σ : Nat → State V) (α : Nat → Option (Act V)) : Prop :=
  σ 0 = init ∧ ∀ i, match α i with
    | none => σ (i + 1) = σ i
    | some a => ¬ dropPanic (σ i) a ∧ step cfg (σ i) a = .ok (σ (i + 1)) ∧ Few cfg (σ (i + 1))

/-- Thread `t` can take a step of the innermost call that it is executing. -/
def Enabled (cfg : Cfg V) (t : Tid) (N : State V) : Prop := ∃ a N', step cfg N (.run t a) = .ok N'

omit [BEq V] [Hashable V] in
/-- Thread `t` takes such a step at instant `i`. -/
def RunsAt (α : Nat → Option (Act V)) (t : Tid) (i : Nat) : Prop := ∃ a, α i = some (.run t a)

/-- A thread that can step again and again does step again and again: the operating system runs every thread, and no thread loses the
competition for a lock for ever. -/
def StronglyFair (cfg : Cfg V) (σ : Nat → State V) (α : Nat → Option (Act V)) : Prop :=
  ∀ t, (∀ i, ∃ j, i ≤ j ∧ Enabled cfg t (σ j)) → ∀ i, ∃ j, i ≤ j ∧ RunsAt α t j

omit [BEq V] [Hashable V] in
/-- From some instant on, clients and user code start no calls and move no handles, and user code does not panic. -/
def FinitelyManyCalls (α : Nat → Option (Act V)) : Prop :=
  ∃ n, ∀ i, n ≤ i → ∀ a, α i = some a → ∃ t x, a = .run t x

/-! ### Following the model -/

theorem dep_choice {β : Type} (P : Nat → β → Prop) (R : Nat → β → β → Prop) {b : β} (h0 : P 0 b)
    (hs : ∀ i x, P i x → ∃ y, P (i + 1) y ∧ R i x y) : ∃ f : Nat → β, ∀ i, P i (f i) ∧ R i (f i) (f (i + 1)) := by
  have hs' : ∀ i (x : {x // P i x}), ∃ y : {y // P (i + 1) y}, R i x.1 y.1 := by
    rintro i ⟨x, hx⟩
    obtain ⟨y, h1, h2⟩ := hs i x hx
    exact ⟨⟨y, h1⟩, h2⟩
  let f : ∀ i, {x // P i x} := fun i => Nat.rec ⟨b, h0⟩ (fun i x => Classical.choose (hs' i x)) i
  exact ⟨fun i => (f i).1, fun i => ⟨(f i).2, Classical.choose_spec (hs' i (f i))⟩⟩

/-- The state of the code without nesting, that of the model, and the action of the model that led there. -/
structure Shadow (V : Type) where
  flat : ArcCode.State V
  model : Arc.State V
  act : Option (Arc.Act V) := none

structure Okay (cfg : Cfg V) (N : State V) (x : Shadow V) : Prop where
  flat : Flat N x.flat
  sim : Sim cfg x.flat x.model
  inv : Arc.Inv cfg x.model
  zom : x.model.zombies = []

/-- One instant. -/
inductive Link (cfg : Cfg V) (N N' : State V) (x y : Shadow V) : Option (Act V) → Prop
  | skip : N' = N → y.act = none → y.model = x.model → Link cfg N N' x y none
  | run (t : Tid) (a : Addr) (c : Running V) (cs : List (Running V)) : N.threads[t]? = some (c :: cs) →
      (y.act = none ∧ y.model = x.model ∨ y.act = some (.run c.id a) ∧ Arc.step cfg x.model (.run c.id a) = .ok y.model) →
      (N'.threads = N.threads.set t cs ∨ ∃ fs, N'.threads = N.threads.set t ({ c with stack := fs } :: cs) ∧
        (y.act = none → work cfg fs < work cfg c.stack)) →
      Link cfg N N' x y (some (.run t a))

theorem link_run [EquivBEq V] [LawfulHashable V] (hv : cfg.Valid) {N N' : State V} {x : Shadow V} (h : Okay cfg N x) {t : Tid} {a : Addr}
    (e : step cfg N (.run t a) = .ok N') (hf : Few cfg N') : ∃ y, Okay cfg N' y ∧ Link cfg N N' x y (some (.run t a)) := by
  have e0 := e
  simp only [step] at e0
  split at e0
  · rename_i c cs ht
    obtain ⟨hget, hne⟩ := h.flat.head ht
    have hub := (Arc.step_kept hv h.inv (act := .run c.id a) trivial).1
    rcases ArcCode.sim_run h.sim c.id a hub with ⟨eb, _⟩ | ⟨S', s', fs, fs', e1, g1, g2, g3, g4⟩
    · exfalso
      simp only [ArcCode.step, hget, h.flat.mem] at eb
      split at e0 <;> simp_all
    · obtain ⟨N'', e2, hF, hthr⟩ := flat_run h.flat ht e1
      rw [e] at e2; cases e2
      rw [hget] at g2; cases g2
      have hsm := g1.small (hF.few hf)
      have hthr' : N'.threads = N.threads.set t cs ∨ ∃ fs, N'.threads = N.threads.set t ({ c with stack := fs } :: cs) ∧ fs = fs' := by
        rcases hthr with h1 | ⟨fs, h1⟩
        · exact .inl h1
        · refine .inr ⟨fs, h1, ?_⟩
          have htl : t < N.threads.length := (List.getElem?_eq_some_iff.mp ht).1
          have h2 := (hF.run ({ c with stack := fs } :: cs) (by
            rw [h1]; exact List.mem_of_getElem? (i := t) (by simp [htl])) _ (List.mem_cons_self)).1
          simp only at h2
          rw [g3, Arc.set_getElem? _ _ _ _ _ hget, if_pos rfl] at h2
          exact (Option.some.inj h2).symm
      rcases g4 with ⟨rfl, hw⟩ | g4
      · refine ⟨⟨S', _, none⟩, ⟨hF, g1, h.inv, h.zom⟩, .run t a c cs ht (.inl ⟨rfl, rfl⟩) ?_⟩
        rcases hthr' with h1 | ⟨fs, h1, rfl⟩
        · exact .inl h1
        · exact .inr ⟨fs, h1, fun _ => hw⟩
      · refine ⟨⟨S', s', some (.run c.id a)⟩, ⟨hF, g1, (Arc.step_kept hv h.inv (act := .run c.id a) trivial).2 s' g4 hsm, ?_⟩,
          .run t a c cs ht (.inr ⟨rfl, g4⟩) ?_⟩
        · exact (Arc.run_zombies g4).trans h.zom
        · rcases hthr' with h1 | ⟨fs, h1, _⟩
          · exact .inl h1
          · exact .inr ⟨fs, h1, nofun⟩
  · cases e0

/-- An execution in which only running calls go on, beside one of the model. -/
structure Track (cfg : Cfg V) (τ : Nat → State V) (β : Nat → Option (Act V)) (x : Nat → Shadow V) : Prop where
  okay : ∀ i, Okay cfg (τ i) (x i)
  link : ∀ i, Link cfg (τ i) (τ (i + 1)) (x i) (x (i + 1)) (β i)
  dest : ∀ i, ByDestructors (τ i)
  fair : StronglyFair cfg τ β
  /-- no call ends. -/
  same : ∀ i, running (τ (i + 1)) = running (τ i)

namespace Track
variable {τ : Nat → State V} {β : Nat → Option (Act V)} {x : Nat → Shadow V}

/-- The action of the model at instant `i`. -/
def acts (x : Nat → Shadow V) (i : Nat) : Option (Arc.Act V) := (x (i + 1)).act

theorem next (T : Track cfg τ β x) {i : Nat} {t : Tid} {c : Running V} {cs : List (Running V)} (ht : (τ i).threads[t]? = some (c :: cs)) :
    ∃ fs, (τ (i + 1)).threads[t]? = some ({ c with stack := fs } :: cs) ∧
      (¬ RunsAt β t i ∧ fs = c.stack ∨ RunsAt β t i ∧ (work cfg fs < work cfg c.stack ∨ Arc.RunsAt (acts x) c.id i)) := by
  have hl := T.link i
  have hs := T.same i
  generalize hb : β i = b at hl
  cases hl with
  | skip e _ _ =>
    refine ⟨c.stack, by rw [e]; exact ht, .inl ⟨?_, rfl⟩⟩
    rintro ⟨a, ha⟩
    rw [hb] at ha; cases ha
  | run u a c' cs' hu hact hthr =>
    have hpop : ¬ (τ (i + 1)).threads = (τ i).threads.set u cs' := by
      intro e
      have := sum_length_set hu
      simp only [running, e] at hs
      omega
    rcases hthr with e | ⟨fs, e, hw⟩
    · exact absurd e hpop
    · by_cases hut : u = t
      · subst hut
        rw [ht] at hu; cases hu
        refine ⟨fs, by rw [e, Arc.set_getElem? _ _ _ _ _ ht, if_pos rfl], .inr ⟨⟨a, hb⟩, ?_⟩⟩
        rcases hact with ⟨h1, _⟩ | ⟨h1, _⟩
        · exact .inl (hw h1)
        · exact .inr ⟨a, h1⟩
      · refine ⟨c.stack, ?_, .inl ⟨?_, rfl⟩⟩
        · rw [e, Arc.set_getElem? _ _ _ _ _ hu, if_neg (fun h => hut h.symm)]; exact ht
        · rintro ⟨a', ha'⟩
          rw [hb] at ha'
          simp only [Option.some.injEq, Act.run.injEq] at ha'
          exact hut ha'.1

/-- The innermost call of a thread stays the same. -/
theorem stays (T : Track cfg τ β x) {i : Nat} {t : Tid} {c : Running V} {cs : List (Running V)} (ht : (τ i).threads[t]? = some (c :: cs)) :
    ∀ j, i ≤ j → ∃ fs, (τ j).threads[t]? = some ({ c with stack := fs } :: cs) := by
  intro j hj
  induction hj with
  | refl => exact ⟨c.stack, ht⟩
  | step _ ih =>
    obtain ⟨fs, ih⟩ := ih
    obtain ⟨fs', h, _⟩ := T.next ih
    exact ⟨fs', h⟩

/-- The work that the innermost call of a thread has to do before its next step in the model. -/
def left (cfg : Cfg V) (N : State V) (t : Tid) : Nat := match N.threads[t]? with
  | some (c :: _) => work cfg c.stack
  | _ => 0

/-- A call that steps again and again steps again and again in the model. -/
theorem moves (T : Track cfg τ β x) {i : Nat} {t : Tid} {c : Running V} {cs : List (Running V)} (ht : (τ i).threads[t]? = some (c :: cs))
    (hr : ∀ k, ∃ j, k ≤ j ∧ RunsAt β t j) : ∀ k, ∃ j, k ≤ j ∧ Arc.RunsAt (acts x) c.id j := by
  intro k
  refine Classical.byContradiction fun hno => ?_
  have hno' : ∀ j, k ≤ j → ¬ Arc.RunsAt (acts x) c.id j := fun j h1 h2 => hno ⟨j, h1, h2⟩
  have key : ∀ j, max i k ≤ j → (left cfg (τ (j + 1)) t = left cfg (τ j) t ∨ left cfg (τ (j + 1)) t < left cfg (τ j) t) ∧
      (RunsAt β t j → left cfg (τ (j + 1)) t < left cfg (τ j) t) := by
    intro j hj
    have h1 := Nat.le_max_left i k
    have h2 := Nat.le_max_right i k
    obtain ⟨fs, hfs⟩ := T.stays ht j (by omega)
    obtain ⟨fs', hfs', h⟩ := T.next hfs
    have e1 : left cfg (τ j) t = work cfg fs := by simp only [left, hfs]
    have e2 : left cfg (τ (j + 1)) t = work cfg fs' := by simp only [left, hfs']
    rw [e1, e2]
    rcases h with ⟨h3, h4⟩ | ⟨_, h4 | h4⟩
    · exact ⟨.inl (by rw [h4]), fun h => absurd h h3⟩
    · exact ⟨.inr h4, fun _ => h4⟩
    · exact absurd h4 (hno' j (by omega))
  obtain ⟨M, hM, hc⟩ := Arc.eventually_const Nat.lt_wfRel.wf (fun j => left cfg (τ j) t) (max i k) (fun j hj => (key j hj).1)
  obtain ⟨j, h1, h2⟩ := hr M
  exact hc j h1 ((key j (by omega)).2 h2)

/-- The innermost calls. -/
def Top (τ : Nat → State V) (u : Tid) : Prop := ∃ (i : Nat) (t : Tid) (c : Running V) (cs : List (Running V)),
  (τ i).threads[t]? = some (c :: cs) ∧ c.id = u

/-- A call can go on if its thread of the model is idle or can go on. -/
theorem enabled [EquivBEq V] [LawfulHashable V] (hv : cfg.Valid) (T : Track cfg τ β x) {i : Nat} {t : Tid} {c : Running V} {cs : List (Running V)}
    (ht : (τ i).threads[t]? = some (c :: cs))
    (h : (∃ th, (x i).model.threads[c.id]? = some th ∧ th.isIdle = true) ∨ Arc.Enabled cfg c.id (x i).model) : Enabled cfg t (τ i) := by
  have hO := T.okay i
  obtain ⟨hget, _⟩ := hO.flat.head ht
  obtain ⟨th, hth, _⟩ := hO.sim.thread hget
  obtain ⟨a, a1, a2⟩ := Arc.fresh_addr (τ i).mem.heap
  obtain ⟨N', _, _, e, _⟩ := head_enabled hv hO.flat hO.sim hO.inv ht hth a1 a2 (by
    rcases h with ⟨th', h1, h2⟩ | h
    · rw [hth] at h1; cases h1; exact .inl h2
    · exact .inr h)
  exact ⟨a, N', e⟩

/-- A thread of the model that holds a lock or is about to remove an object belongs to an innermost call. -/
theorem busy [EquivBEq V] [LawfulHashable V] (T : Track cfg τ β x) {i : Nat} {u : Tid} {th : Thread V} (hu : (x i).model.threads[u]? = some th)
    (hb : th.pc.holds ≠ none ∨ th.pc.removing ≠ []) : Top τ u := by
  have hO := T.okay i
  have hlt : u < (x i).flat.threads.length := by rw [← hO.sim.len]; exact (List.getElem?_eq_some_iff.mp hu).1
  have hget : (x i).flat.threads[u]? = some (x i).flat.threads[u] := List.getElem?_eq_getElem hlt
  have hR := hO.sim.th u _ th hget hu
  have hne : (x i).flat.threads[u] ≠ [] := by
    intro e
    rw [e] at hR
    obtain ⟨h1, _⟩ := hR.nil_eq
    rw [h1] at hb
    rcases hb with hb | hb <;> exact hb rfl
  have hm : u ∈ ids (τ i) := by
    by_cases hm : u ∈ ids (τ i)
    · exact hm
    · have := hO.flat.idle u (by rw [← hO.flat.len]; exact hlt) hm
      rw [hget] at this
      exact absurd (Option.some.inj this) hne
  obtain ⟨cs, hcs, c, hc, rfl⟩ := mem_ids.mp hm
  obtain ⟨t, ht⟩ := List.getElem?_of_mem hcs
  cases cs with
  | nil => cases hc
  | cons c0 cs =>
    rcases List.mem_cons.mp hc with rfl | hc'
    · exact ⟨i, t, c, cs, ht, rfl⟩
    · exfalso
      have hd := T.dest i _ hcs c hc'
      have hst := (hO.flat.run _ hcs c hc).1
      rw [hget] at hst
      rw [Option.some.inj hst] at hR
      cases hf : c.stack with
      | nil => rw [hf] at hd; cases hd
      | cons f fs =>
        rw [hf] at hd hR
        simp only [List.head?_cons, Option.any_some] at hd
        unfold inDestructor at hd
        split at hd
        · rename_i hi
          obtain ⟨G, r, arg, rfl, _⟩ := value_leave hR hi
          rcases hb with hb | hb <;> exact hb rfl
        · cases hd

/-- The execution of the model settles. -/
theorem settled [EquivBEq V] [LawfulHashable V] (hv : cfg.Valid) (T : Track cfg τ β x) :
    ∃ M, Arc.Settled cfg (fun i => (x i).model) (acts x) M (Top τ) := by
  obtain ⟨M, _, hM⟩ := Arc.settles (cfg := cfg) (σ := fun i => (x i).model) (α := acts x) (N := 0) (fun i _ => (T.okay i).inv) (fun i _ => by
    have hno : (x (i + 1)).act = none → ∀ t, ¬ Arc.RunsAt (acts x) t i := by
      rintro h t ⟨a, ha⟩
      simp only [acts, h] at ha; cases ha
    have hl := T.link i
    generalize β i = b at hl
    cases hl with
    | skip _ h1 h2 => exact .inl ⟨h2, hno h1⟩
    | run t a c cs _ h _ =>
      rcases h with ⟨h1, h2⟩ | ⟨h1, h2⟩
      · exact .inl ⟨h2, hno h1⟩
      · exact .inr ⟨c.id, a, h1, h2⟩)
  refine ⟨M, ⟨fun i _ => (T.okay i).inv, fun i _ => (T.okay i).zom, hM⟩, ?_, fun i _ u th hu hb => T.busy hu hb⟩
  rintro u ⟨i, t, c, cs, ht, rfl⟩ hen
  refine T.moves ht (T.fair t fun k => ?_)
  obtain ⟨j, h1, h2⟩ := hen (max i k)
  have h3 := Nat.le_max_left i k
  have h4 := Nat.le_max_right i k
  obtain ⟨fs, hfs⟩ := T.stays ht j (by omega)
  exact ⟨j, by omega, T.enabled hv hfs (.inr h2)⟩

/-- No call is running. -/
theorem quiet [EquivBEq V] [LawfulHashable V] (hv : cfg.Valid) (T : Track cfg τ β x) (i : Nat) : Quiet (τ i) := by
  refine Classical.byContradiction fun hq => ?_
  obtain ⟨t, c, cs, ht⟩ := not_quiet hq
  obtain ⟨M, hS⟩ := T.settled hv
  have hid : ∀ j, max i M ≤ j → ∃ fs th, (τ j).threads[t]? = some ({ c with stack := fs } :: cs) ∧
      (x j).model.threads[c.id]? = some th ∧ th.isIdle = true := by
    intro j hj
    have h1 := Nat.le_max_left i M
    have h2 := Nat.le_max_right i M
    obtain ⟨fs, hfs⟩ := T.stays ht j (by omega)
    obtain ⟨hget, _⟩ := (T.okay j).flat.head hfs
    obtain ⟨th, hth, _⟩ := (T.okay j).sim.thread hget
    exact ⟨fs, th, hfs, hth, hS.idle hv (by omega) ⟨i, t, c, cs, ht, rfl⟩ hth⟩
  obtain ⟨j, h1, a, h2⟩ := T.moves ht (T.fair t fun k => by
    have h1 := Nat.le_max_left k (max i M)
    have h2 := Nat.le_max_right k (max i M)
    obtain ⟨fs, th, e1, e2, e3⟩ := hid (max k (max i M)) h2
    exact ⟨_, h1, T.enabled hv e1 (.inl ⟨th, e2, e3⟩)⟩) (max i M)
  obtain ⟨fs, th, e1, e2, e3⟩ := hid j h1
  have hl := T.link j
  generalize β j = b at hl
  cases hl with
  | skip _ h3 _ => simp only [acts, h3] at h2; cases h2
  | run u a' c' cs' _ h3 _ =>
    rcases h3 with ⟨h3, _⟩ | ⟨h3, h4⟩
    · simp only [acts, h3] at h2; cases h2
    · simp only [acts, h3, Option.some.injEq, Arc.Act.run.injEq] at h2
      rw [h2.1] at h4
      have hi : th.pc = .idle ∧ th.todo = [] ∧ th.ret = none := by
        obtain ⟨pc, todo, ret, arg⟩ := th
        cases pc <;> simp [Thread.isIdle] at e3
        exact ⟨rfl, e3⟩
      simp only [Arc.step, e2, Arc.run, hi] at h4
      cases h4

end Track

theorem Execution.reachND {σ : Nat → State V} {α : Nat → Option (Act V)} (h : Execution cfg σ α) : ∀ i, ReachND cfg (σ i) := by
  intro i
  induction i with
  | zero => rw [h.1]; exact .init
  | succ i ih =>
    have := h.2 i
    cases ha : α i with
    | none => rw [ha] at this; simp only at this; rw [this]; exact ih
    | some a => rw [ha] at this; exact .step ih this.1 this.2.1 this.2.2

omit [BEq V] [Hashable V] in
theorem running_set {N N' : State V} {t : Tid} {c : Running V} {cs : List (Running V)} (ht : N.threads[t]? = some (c :: cs)) {fs : Stack V}
    (e : N'.threads = N.threads.set t ({ c with stack := fs } :: cs)) : running N' = running N := by
  simp only [running, e, List.map_set]
  rw [show List.length ({ c with stack := fs } :: cs) = List.length (c :: cs) from rfl, ← List.map_set, ArcCode.set_self ht]

theorem fair_quiet [EquivBEq V] [LawfulHashable V] (hv : cfg.Valid) {σ : Nat → State V} {α : Nat → Option (Act V)} (h : Execution cfg σ α)
    (hd : ∀ i, ByDestructors (σ i)) (hf : StronglyFair cfg σ α) (hn : FinitelyManyCalls α) : ∃ n, ∀ i, n ≤ i → Quiet (σ i) := by
  obtain ⟨n, hn⟩ := hn
  obtain ⟨l, S, s, hG, hz⟩ := good_reachND hv (h.reachND n)
  obtain ⟨x, hx⟩ := dep_choice (fun i x => Okay cfg (σ (n + i)) x)
    (fun i x y => Link cfg (σ (n + i)) (σ (n + i + 1)) x y (α (n + i)))
    (b := ⟨S, s, none⟩) ⟨hG.flat, hG.sim, hG.inv, hz⟩ (fun i x hx => by
      have h2 := h.2 (n + i)
      cases ha : α (n + i) with
      | none =>
        rw [ha] at h2
        refine ⟨⟨x.flat, x.model, none⟩, ?_, .skip h2 rfl rfl⟩
        have h2' : σ (n + (i + 1)) = σ (n + i) := h2
        rw [h2']
        exact ⟨hx.flat, hx.sim, hx.inv, hx.zom⟩
      | some a =>
        rw [ha] at h2
        obtain ⟨t, b, rfl⟩ := hn (n + i) (by omega) a ha
        exact link_run hv hx h2.2.1 h2.2.2)
  obtain ⟨M, hM, hc⟩ := Arc.eventually_const Nat.lt_wfRel.wf (fun i => running (σ (n + i))) 0 (fun i _ => by
    have hl := (hx i).2
    generalize α (n + i) = b at hl
    cases hl with
    | skip e _ _ => exact .inl (congrArg running e)
    | run t a c cs ht _ hthr =>
      rcases hthr with e | ⟨fs, e, _⟩
      · refine .inr ?_
        have := sum_length_set ht
        show running (σ (n + i + 1)) < running (σ (n + i))
        simp only [running, e]
        exact this
      · exact .inl (running_set ht e))
  have T : Track cfg (fun i => σ (n + M + i)) (fun i => α (n + M + i)) (fun i => x (M + i)) := by
    have hadd : ∀ i, n + M + i = n + (M + i) := fun i => Nat.add_assoc n M i
    refine ⟨fun i => ?_, fun i => ?_, fun i => hd _, fun t ht k => ?_, fun i => ?_⟩
    · simp only [hadd]; exact (hx (M + i)).1
    · have := (hx (M + i)).2
      simp only [hadd]; exact this
    · obtain ⟨j, h1, a, h2⟩ := hf t (fun i => by
        obtain ⟨j, h1, h2⟩ := ht i
        exact ⟨n + M + j, by omega, h2⟩) (n + M + k)
      exact ⟨j - (n + M), by omega, a, by simp only; rw [show n + M + (j - (n + M)) = j by omega]; exact h2⟩
    · have h1 := hc (M + i) (by omega)
      have hl := (hx (M + i)).2
      simp only [hadd]
      generalize α (n + (M + i)) = b at hl
      cases hl with
      | skip e _ _ => exact congrArg running e
      | run t a c cs ht _ hthr =>
        rcases hthr with e | ⟨fs, e, _⟩
        · refine absurd ?_ h1
          have := sum_length_set ht
          show running (σ (n + (M + i) + 1)) < running (σ (n + (M + i)))
          simp only [running, e]
          exact this
        · exact running_set ht e
  refine ⟨n + M, fun i hi => ?_⟩
  have := T.quiet hv (i - (n + M))
  rwa [show n + M + (i - (n + M)) = i by omega] at this

end Src.ArcNest
