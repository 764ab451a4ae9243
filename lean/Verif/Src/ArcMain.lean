import Verif.Src.ArcGlobal
import Verif.Arc.Complete
import Verif.Props.ArcCalls
/-
What the theorems about the model say about the code.
-/
namespace Src.ArcCode
open Arc (Addr Tid Cell Cfg Res Call Pc Thread)

variable {V : Type} [BEq V] [Hashable V] [EquivBEq V] [LawfulHashable V] {cfg : Cfg V}

omit [BEq V] [Hashable V] [EquivBEq V] [LawfulHashable V] in
theorem sim_init : Sim cfg (init : State V) Arc.init :=
  ⟨⟨rfl, rfl, rfl⟩, rfl, rfl, by intro t fs th h; simp [init] at h, by simp [init], by simp [init]⟩

theorem reach_step (hv : cfg.Valid) {S S' : State V} {s : Arc.State V} (h : Sim cfg S s) (hr : Arc.Reach cfg s) {act : Act V}
    (hsane : act.Sane) (e : step cfg S act = .ok S') (hf : Few cfg S') : ∃ s', Sim cfg S' s' ∧ Arc.Reach cfg s' := by
  obtain ⟨s', h1, h2⟩ := (sim_step h (fun a ha => (Arc.step_kept hv (Arc.reach_inv hv hr) ha).1) act hsane).2 S' e
  refine ⟨s', h1, ?_⟩
  rcases h2 with ⟨rfl, _⟩ | ⟨act', a1, a2, _⟩
  · exact hr
  · exact .step hr a1 a2 (h1.small hf)

theorem reach_sim (hv : cfg.Valid) {S : State V} (h : Reach cfg S) : ∃ s, Sim cfg S s ∧ Arc.Reach cfg s := by
  induction h with
  | init => exact ⟨_, sim_init, .init⟩
  | step _ hs e hf ih =>
    obtain ⟨s, h1, h2⟩ := ih
    exact reach_step hv h1 h2 hs e hf

theorem reachND_sim (hv : cfg.Valid) {S : State V} (h : ReachND cfg S) : ∃ s, Sim cfg S s ∧ Arc.ReachND cfg s := by
  induction h with
  | init => exact ⟨_, sim_init, .init⟩
  | @step S S' act _ hsane hnd e hf ih =>
    obtain ⟨s, h, hr⟩ := ih
    obtain ⟨s', h1, h2⟩ := (sim_step h (fun a ha => (Arc.step_kept hv (Arc.reach_inv hv hr.reach) ha).1) act hsane).2 S' e
    refine ⟨s', h1, ?_⟩
    rcases h2 with ⟨rfl, _⟩ | ⟨act', a1, a2, a3, _⟩
    · exact hr
    · exact .step hr a1 (fun hp => hnd (a3 hp)) a2 (h1.small hf)

/-! ### Values -/

theorem Sim.deref {S : State V} {s : Arc.State V} (h : Sim cfg S s) {p : Addr} {x : V} (hx : Arc.deref s p = some x) : deref S p = some x := by
  obtain ⟨c, hc, rfl⟩ := Arc.deref_get hx
  simp [ArcCode.deref, (h.shared.get hc).1]

theorem Sim.refcount {S : State V} {s : Arc.State V} (h : Sim cfg S s) {p : Addr} {n : Nat} (hx : Arc.refcount s p = some n) : refcount S p = some n := by
  simp only [Arc.refcount, Option.map_eq_some_iff] at hx
  obtain ⟨c, hc, rfl⟩ := hx
  simp [ArcCode.refcount, (h.shared.get hc).1]

/-! ### Nothing running -/

theorem Rel.nil_eq {th : Thread V} (h : Rel cfg [] th) : th.pc = .idle ∧ th.todo = [] ∧ th.ret = none := by
  have := h.idle
  cases h with
  | leave hw _ => cases hw; exact ⟨rfl, rfl, rfl⟩
  | destroy hw _ => cases hw
  | unlock hw _ => cases hw

theorem Sim.quiet {S : State V} {s : Arc.State V} (h : Sim cfg S s) (hq : Quiet S) : Arc.Quiescent s := by
  intro th hth
  obtain ⟨t, ht⟩ := List.getElem?_of_mem hth
  have htl : t < S.threads.length := by
    rw [← h.len]; exact (List.getElem?_eq_some_iff.mp ht).1
  have hR := h.th t S.threads[t] th (List.getElem?_eq_getElem htl) ht
  rw [hq _ (List.getElem_mem htl)] at hR
  exact hR.idle

theorem Sim.quiet_heap {S : State V} {s : Arc.State V} (h : Sim cfg S s) (hq : Quiet S) : s.heap = S.mem.heap := by
  have : S.threads.flatMap dying = [] := by
    rw [List.flatMap_eq_nil_iff]
    intro fs hfs
    rw [hq fs hfs]; rfl
  rw [h.shared.heap, this]; simp

theorem Sim.quiet_handles {S : State V} {s : Arc.State V} (h : Sim cfg S s) (hq : Quiet S) (p : Addr) :
    (Arc.allHandles cfg s).count p = (allHandles cfg S).count p := by
  obtain ⟨q1, _⟩ := Arc.quiescent_counts (cfg := cfg) (h.quiet hq) p
  have := Arc.A_eq cfg s p
  rw [q1] at this
  simp only [Arc.A] at this
  rw [this, h.handles, h.quiet_heap hq]
  simp [allHandles, List.count_append]

/-! ### The result of `new` -/

omit [EquivBEq V] [LawfulHashable V] in
/-- A function that returns a handle. -/
theorem returns_ret {m m' : Mem V} {t : Tid} {a b : Addr} {fs fs' : Stack V} {th : Thread V} (hR : Rel cfg fs th)
    (h : (lang cfg).run m t a fs = .ok (m', fs', some (.handle b))) : th.ret = some b ∧ fs' = [] ∧ m' = m := by
  cases fs with
  | nil => cases h
  | cons f fs =>
    cases hi : f.items with
    | cons i l =>
      exfalso
      cases i <;> simp only [Lang.run, hi] at h <;> repeat' split at h
      all_goals first | (cases h; done) | (injection h with h; injection h with _ h; injection h with _ h; cases h)
    | nil =>
      cases fs with
      | cons g fs =>
        simp only [Lang.run, hi] at h
        injection h with h; injection h with _ h; injection h with _ h; cases h
      | nil =>
        have : ∀ {G : List (Glue V)} {r : Option Addr}, Winds cfg [f] G r → G = [] ∧ f.ret = r.map .handle := by
          intro G r hw
          cases hw with
          | last h1 h2 =>
            rw [hi] at h1
            exact ⟨by cases hs : f.scopes <;> rw [hs] at h1 <;> simp [wind] at h1 <;> exact h1, h2⟩
        simp only [Lang.run, hi] at h
        injection h with h; injection h with h1 h; injection h with h2 h
        refine ⟨?_, h2.symm, h1.symm⟩
        cases hR with
        | @leave _ _ r _ hw _ =>
          have := (this hw).2
          rw [h] at this
          cases r with
          | none => cases this
          | some c => simp only [Option.map_some, Option.some.injEq, Val.handle.injEq] at this; rw [this]
        | destroy hw _ => cases (this hw).1
        | unlock hw _ => cases (this hw).1
        | drop hA _ _ => cases hA <;> cases hi
        | new hA => cases hA <;> first | (cases hi; done) | (simp [found, missing, rest, after] at hi)

omit [EquivBEq V] [LawfulHashable V] in
/-- The argument of the running call. -/
theorem arg_step {s s' : Arc.State V} {act : Arc.Act V} (h : Arc.step cfg s act = .ok s') {t : Tid} {v : V}
    (hn : ∀ w dst, act ≠ .new t w dst)
    (hP : ∀ th, s.threads[t]? = some th → th.arg = some v ∨ th.arg = none) :
    ∀ th, s'.threads[t]? = some th → th.arg = some v ∨ th.arg = none := by
  have hR := Arc.step_R h
  have key : ∀ {u : Tid} {x y : Thread V}, s.threads[u]? = some x → (y.arg = x.arg ∨ y.arg = none) → ∀ th, (s.threads.set u y)[t]? = some th →
      th.arg = some v ∨ th.arg = none := by
    intro u x y hx hy th hth
    rw [Arc.set_getElem? _ _ _ _ _ hx] at hth
    split at hth
    · rename_i e
      subst e
      cases hth
      rcases hy with hy | hy
      · rw [hy]; exact hP _ hx
      · exact .inr hy
    · exact hP _ hth
  cases hR with
  | spawn =>
    intro th hth
    simp only at hth
    rcases Nat.lt_or_ge t s.threads.length with h | h
    · rw [List.getElem?_append_left h] at hth; exact hP _ hth
    · rw [List.getElem?_append_right h] at hth
      have := List.mem_of_getElem? hth
      simp at this; subst this; exact .inr rfl
  | run u a th' _ hu hr => 
    cases hr <;> refine key hu ?_ <;> first | exact .inl rfl | exact .inr rfl
  | new u w dst th' hu =>
    intro th hth
    by_cases hut : u = t
    · subst hut; exact absurd rfl (hn w dst)
    · have : (s.threads.set u { pc := .newLoop { val := w, dst := dst, conv := none }, arg := some w })[t]? = some th := hth
      rw [List.getElem?_set_ne hut] at this
      exact hP _ this
  | clone u => exact hP
  | read u => exact hP
  | drop u p th' hu => exact key hu (.inr rfl)
  | len u lo up th' hu => exact key hu (.inr rfl)
  | shrink u lo up th' hu => exact key hu (.inr rfl)
  | panicLoop u th' c hu => exact key hu (.inr rfl)
  | panicEntry u th' c b hu => exact key hu (.inr rfl)
  | panicRemove u th' b hu => exact key hu (.inl rfl)
  | panicShrink u th' i m hu => first | exact key hu (.inr rfl) | exact key hu (.inl rfl)
  | panicInsert u th' c sh b hu => exact key hu (.inr rfl)

theorem during_sim (hv : cfg.Valid) {S S' : State V} {t : Tid} {v : V} (hd : During cfg t S S') {s : Arc.State V} (h : Sim cfg S s)
    (hr : Arc.Reach cfg s) (hP : ∀ th, s.threads[t]? = some th → th.arg = some v ∨ th.arg = none) :
    ∃ s', Sim cfg S' s' ∧ Arc.Reach cfg s' ∧ ∀ th, s'.threads[t]? = some th → th.arg = some v ∨ th.arg = none := by
  induction hd with
  | refl => exact ⟨s, h, hr, hP⟩
  | @step S1 S2 act _ hsane hn _ e hf ih =>
    obtain ⟨s1, h1, hr1, hP1⟩ := ih
    obtain ⟨s', g1, g2⟩ := (sim_step h1 (fun a ha => (Arc.step_kept hv (Arc.reach_inv hv hr1) ha).1) act hsane).2 S2 e
    rcases g2 with ⟨rfl, _⟩ | ⟨act', a1, a2, _, a3⟩
    · exact ⟨s', g1, hr1, hP1⟩
    · exact ⟨s', g1, .step hr1 a1 a2 (g1.small hf), arg_step a2 (fun w dst e => by subst a3; cases act <;> cases e; exact hn w dst rfl) hP1⟩

/-! ### Completing all calls -/

theorem Must.next {G : State V → Prop} {S : State V} (t : Tid)
    (h : ∀ a, a ≠ 0 → a ∉ Arc.keys S.mem.heap → ∃ S', ArcCode.step cfg S (.run t a) = .ok S' ∧ Must cfg G S') : Must cfg G S := by
  refine .step t (fun a h1 h2 => ?_) fun a S' h1 h2 h3 => ?_
  · obtain ⟨S', h4, _⟩ := h a h1 h2
    exact ⟨S', h4⟩
  · obtain ⟨S'', h4, h5⟩ := h a h1 h2
    rw [h3] at h4; cases h4; exact h5

theorem work_set (l : List (Stack V)) (t : Tid) (fs fs' : Stack V) (ht : l[t]? = some fs) (hw : work cfg fs' < work cfg fs) :
    ((l.set t fs').map (work cfg)).sum < (l.map (work cfg)).sum := by
  induction l generalizing t with
  | nil => simp at ht
  | cons x l ih =>
    cases t with
    | zero => simp at ht; subst ht; simp; exact hw
    | succ t => simp at ht; have := ih t ht; rw [List.map_set] at this; simp; exact this

theorem must_quiet (hv : cfg.Valid) : ∀ (n : Nat) (S : State V) (s : Arc.State V), (S.threads.map (work cfg)).sum < n → Sim cfg S s →
    Arc.Inv cfg s → Arc.Quiescent s → Must cfg Quiet S := by
  intro n
  induction n with
  | zero => intro S s h; omega
  | succ n ih =>
    intro S s hn h hI hq
    by_cases hQ : Quiet S
    · exact .done hQ
    · unfold Quiet at hQ
      rw [Classical.not_forall] at hQ
      obtain ⟨fs, hQ⟩ := hQ
      rw [Classical.not_imp] at hQ
      obtain ⟨hfs, hne⟩ := hQ
      obtain ⟨t, ht⟩ := List.getElem?_of_mem hfs
      refine Must.next t fun a h1 h2 => ?_
      obtain ⟨th, hth, _⟩ := h.thread ht
      have hid := hq th (List.mem_of_getElem? hth)
      rcases sim_run h t a (Arc.step_kept hv hI (act := .run t a) trivial).1 with ⟨_, e⟩ | ⟨S', s', fs1, fs', e, g1, g2, g3, g4⟩
      · exfalso
        rcases e with e | e | e | ⟨th', e1, e2, _⟩
        · rw [ht] at e; cases e
        · rw [ht] at e; cases e; exact hne rfl
        · exact e.elim h1 h2
        · rw [hth] at e1; cases e1; rw [hid] at e2; cases e2
      · refine ⟨S', e, ?_⟩
        rcases g4 with ⟨rfl, hw⟩ | g4
        · refine ih S' s' ?_ g1 hI hq
          rw [g3]
          have := work_set (cfg := cfg) S.threads t fs1 fs' g2 hw
          omega
        · exfalso
          have hi : th.pc = .idle ∧ th.todo = [] ∧ th.ret = none := by
            obtain ⟨pc, todo, ret, arg⟩ := th
            cases pc <;> simp [Thread.isIdle] at hid
            exact ⟨rfl, hid⟩
          simp only [Arc.step, hth, Arc.run, hi] at g4
          cases g4

theorem must_code (hv : cfg.Valid) {s : Arc.State V} (hm : Arc.Must cfg Arc.Quiescent s) : ∀ (n : Nat) (S : State V),
    (S.threads.map (work cfg)).sum < n → Sim cfg S s → Arc.Inv cfg s → Must cfg Quiet S := by
  induction hm with
  | done hq => intro n S hn h hI; exact must_quiet hv n S _ hn h hI hq
  | @step s t hen hnext ih =>
    intro n
    induction n with
    | zero => intro S h; omega
    | succ n ihn =>
      intro S hn h hI
      obtain ⟨a0, f1, f2⟩ := Arc.fresh_addr s.heap
      obtain ⟨s0, e0, _⟩ := hen a0 f1 f2
      have hth : ∃ th, s.threads[t]? = some th := by
        cases hth : s.threads[t]? with
        | none => simp [Arc.step, hth] at e0
        | some th => exact ⟨th, rfl⟩
      obtain ⟨th, hth⟩ := hth
      have hsub : ∀ a, a ∉ Arc.keys S.mem.heap → a ∉ Arc.keys s.heap := by
        intro a ha hmem
        rw [h.shared.heap] at hmem
        exact ha (keys_live hmem).1
      refine Must.next t fun a h1 h2 => ?_
      obtain ⟨s1, e1, hsm⟩ := hen a h1 (hsub a h2)
      rcases sim_run h t a (by rw [e1]; simp) with ⟨_, e⟩ | ⟨S', s', fs1, fs', e, g1, g2, g3, g4⟩
      · exfalso
        rcases e with e | e | e | ⟨th', e1', _, e2⟩
        · have : t < S.threads.length := by
            rw [← h.len]; exact (List.getElem?_eq_some_iff.mp hth).1
          rw [List.getElem?_eq_getElem this] at e; cases e
        · obtain ⟨th', hth', hR⟩ := h.thread e
          rw [hth] at hth'; cases hth'
          obtain ⟨i1, i2, i3⟩ := hR.nil_eq
          simp only [Arc.step, hth, Arc.run, i1, i2, i3] at e1
          cases e1
        · exact e.elim h1 h2
        · rw [hth] at e1'; cases e1'
          simp only [Arc.step, hth, e2] at e1
          cases e1
      · refine ⟨S', e, ?_⟩
        rcases g4 with ⟨rfl, hw⟩ | g4
        · refine ihn S' ?_ g1 hI
          rw [g3]
          have := work_set (cfg := cfg) S.threads t fs1 fs' g2 hw
          omega
        · rw [e1] at g4; cases g4
          exact ih a s1 h1 (hsub a h2) e1 _ S' (Nat.lt_succ_self _) g1
            ((Arc.step_kept hv hI (act := .run t a) trivial).2 s1 e1 hsm)

end Src.ArcCode
