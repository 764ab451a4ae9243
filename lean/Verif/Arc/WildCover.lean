import Verif.Arc.WildInv
/-! Which executions of the original model of `ArcIntern` (with arbitrary, possibly unlawful, `BEq` and `Hashable`) are executions
of the adversarial one. -/
namespace Arc
variable {V : Type} [BEq V] [Hashable V]

/-- The lookup of a removal (arc.rs:321-322) finds the box that is to be removed, or nothing. -/
def SelfRemove (s : State V) : Act V → Prop
  | .run t _ => ∀ th ∈ s.threads[t]?, ∀ b x, th.pc = .dropRemove b → get s.heap b = some x → ∀ r, find s x.data = some r → r = b
  | _ => True

/-- Executions of the original model in which every removal has this property. -/
inductive SelfReach (cfg : Cfg V) : State V → Prop
  | init : SelfReach cfg init
  | step {s s' : State V} {a : Act V} : SelfReach cfg s → a.Sane → SelfRemove s a → step cfg s a = .ok s' → Small cfg s' →
      SelfReach cfg s'

/-- The shard and the answer of the lookup thread `th` is about to make. -/
def honestLookup (cfg : Cfg V) (s : State V) (th : Thread V) : Nat × Option Addr :=
  match th.pc with
  | .newLoop c => (cfg.shardOf c.val, find s c.val)
  | .newEntry _ b | .dropRemove b => match get s.heap b with
    | some x => (cfg.shardOf x.data, find s x.data)
    | none => (0, none)
  | _ => (0, none)

theorem wild_run (cfg : Cfg V) (s : State V) (t : Tid) (th : Thread V) (a : Addr) :
    Wild.run (honestLookup cfg s th).1 (honestLookup cfg s th).2 cfg s t th a = run cfg s t th a := by
  unfold honestLookup Wild.run
  cases hpc : th.pc <;> simp only [run, hpc]
  all_goals
    first
    | rfl
    | rename_i b
      cases get s.heap b <;> rfl

/-- Registered boxes after a step were registered before and have the same value. -/
def Keeps (s s' : State V) : Prop :=
  ∀ r ∈ s'.table, r ∈ s.table ∧ (get s'.heap r).map (·.data) = (get s.heap r).map (·.data)

omit [BEq V] [Hashable V] in
theorem keeps_of {s s' : State V} (h1 : s'.table = s.table) (h2 : s'.heap = s.heap) : Keeps s s' := by
  intro r hr; rw [h1] at hr; rw [h2]; exact ⟨hr, rfl⟩

omit [BEq V] [Hashable V] in
theorem keeps_count {s s' : State V} {b n} (h1 : s'.table = s.table) (h2 : s'.heap = setCount s.heap b n) : Keeps s s' := by
  intro r hr; rw [h1] at hr; rw [h2]; exact ⟨hr, get_data_setCount _ _ _ _⟩

omit [BEq V] [Hashable V] in
theorem keeps_free {s s' : State V} {b} (hb : b ∉ s.table) (h1 : s'.table = s.table) (h2 : s'.heap = free s.heap b) :
    Keeps s s' := by
  intro r hr; rw [h1] at hr; rw [h2]
  refine ⟨hr, ?_⟩
  rw [get_free, if_neg]
  rintro rfl; exact hb hr

/-- A thread that is at a program counter about to insert was there before, or came from its lookup. -/
def VacFrom (s s' : State V) (f : State V → Call V → Nat → Addr → Prop) : Prop :=
  ∀ (u : Tid) (thu : Thread V) c sh b, s'.threads[u]? = some thu → thu.pc = .newVacant c sh b →
    s.threads[u]? = some thu ∨ ∃ th : Thread V, s.threads[u]? = some th ∧ th.pc = .newEntry c b ∧ f s c sh b

omit [BEq V] [Hashable V] in
theorem vac_set {s s' : State V} {t : Tid} {th th' : Thread V} {f} (ht : s.threads[t]? = some th)
    (hs : s'.threads = s.threads.set t th') (h : ∀ c sh b, th'.pc = .newVacant c sh b → th.pc = .newEntry c b ∧ f s c sh b) :
    VacFrom s s' f := by
  intro u thu c sh b hu hp
  rw [hs, set_getElem? _ _ _ _ _ ht] at hu
  split at hu
  · rename_i e; subst e
    injection hu with hu; subst hu
    exact .inr ⟨th, ht, h c sh b hp⟩
  · exact .inl hu

/-- What is known when a thread has found no equal element. -/
def Missed (cfg : Cfg V) (s : State V) (_ : Call V) (sh : Nat) (b : Addr) : Prop :=
  ∃ x, get s.heap b = some x ∧ sh = cfg.shardOf x.data ∧ find s x.data = none ∧ s.locks sh = none

theorem run_effect {cfg : Cfg V} {home} {s s' : State V} {t : Tid} {th : Thread V} {a : Addr} (hI : Wild.Inv cfg home s)
    (ht : s.threads[t]? = some th) (h : run cfg s t th a = .ok s') :
    ((∃ c sh b, th.pc = .newVacant c sh b ∧ s'.table = b :: s.table ∧ s'.heap = s.heap ∧
      s'.threads = s.threads.set t { th with pc := .newInserted c sh b }) ∨ Keeps s s') ∧
      VacFrom s s' (Missed cfg) := by
  have hpi := (hI.th t th ht).pc
  cases hpc : th.pc with
  | idle =>
    simp only [run, hpc] at h
    split at h
    · injection h with h; subst h
      exact ⟨.inr (keeps_of rfl rfl), vac_set ht rfl (fun _ _ _ e => nomatch e)⟩
    · split at h
      · injection h with h; subst h
        exact ⟨.inr (keeps_of rfl rfl), vac_set (th' := {}) ht rfl (fun _ _ _ e => nomatch e)⟩
      · cases h
  | newLoop c =>
    simp only [run, hpc] at h
    split at h
    · cases h
    split at h
    · cases h
    split at h
    · injection h with h; subst h
      exact ⟨.inr (keeps_of rfl rfl), vac_set ht rfl (fun _ _ _ e => nomatch e)⟩
    · split at h
      · injection h with h; subst h
        exact ⟨.inr (keeps_of rfl rfl), vac_set ht rfl (fun _ _ _ e => nomatch e)⟩
      · injection h with h; subst h
        exact ⟨.inr (keeps_of rfl rfl), vac_set ht rfl (fun _ _ _ e => nomatch e)⟩
  | newFound c sh b =>
    simp only [run, hpc] at h
    split at h
    · cases h
    split at h
    · injection h with h; subst h
      exact ⟨.inr (keeps_count rfl rfl), vac_set ht rfl (fun _ _ _ e => nomatch e)⟩
    · injection h with h; subst h
      exact ⟨.inr (keeps_count rfl rfl), vac_set ht rfl (fun _ _ _ e => nomatch e)⟩
  | newUndo c sh b =>
    simp only [run, hpc] at h
    split at h
    · cases h
    injection h with h; subst h
    exact ⟨.inr (keeps_count rfl rfl), vac_set ht rfl (fun _ _ _ e => nomatch e)⟩
  | newRelease c sh =>
    simp only [run, hpc] at h
    injection h with h; subst h
    exact ⟨.inr (keeps_of rfl rfl), vac_set ht rfl (fun _ _ _ e => nomatch e)⟩
  | newHit c sh b =>
    simp only [run, hpc] at h
    injection h with h; subst h
    refine ⟨.inr (keeps_of rfl rfl), vac_set ht rfl (fun _ _ _ e => ?_)⟩
    unfold unwindCall at e
    cases hc : c.conv <;> simp [hc] at e
  | newAlloc c =>
    simp only [run, hpc] at h
    split at h
    · cases h
    rename_i hn
    rw [not_or] at hn
    injection h with h; subst h
    refine ⟨.inr ?_, vac_set ht rfl (fun _ _ _ e => nomatch e)⟩
    intro r hr
    refine ⟨hr, ?_⟩
    have hne : a ≠ r := fun e => hn.2 (e ▸ hI.mem_keys hr)
    simp only [State.setThread, get, if_neg hne]
  | newEntry c b =>
    simp only [run, hpc] at h
    split at h
    · cases h
    rename_i x hx
    split at h
    · cases h
    rename_i hl
    split at h
    · cases h
    split at h
    · rename_i hf
      injection h with h; subst h
      refine ⟨.inr (keeps_of rfl rfl), vac_set ht rfl (fun _ _ _ e => ?_)⟩
      injection e with e1 e2 e3
      subst e1 e2 e3
      exact ⟨hpc, x, hx, rfl, hf, isNone_of_not hl⟩
    · injection h with h; subst h
      exact ⟨.inr (keeps_of rfl rfl), vac_set ht rfl (fun _ _ _ e => nomatch e)⟩
  | newVacant c sh b =>
    simp only [run, hpc] at h
    injection h with h; subst h
    exact ⟨.inl ⟨c, sh, b, rfl, rfl, rfl, rfl⟩, vac_set ht rfl (fun _ _ _ e => nomatch e)⟩
  | newInserted c sh b =>
    simp only [run, hpc] at h
    injection h with h; subst h
    exact ⟨.inr (keeps_of rfl rfl), vac_set ht rfl (fun _ _ _ e => nomatch e)⟩
  | newOccupied c sh b =>
    simp only [run, hpc] at h
    split at h
    · injection h with h; subst h
      exact ⟨.inr (keeps_of rfl rfl), vac_set ht rfl (fun _ _ _ e => nomatch e)⟩
    · injection h with h; subst h
      exact ⟨.inr (keeps_of rfl rfl), vac_set ht rfl (fun _ _ _ e => nomatch e)⟩
  | newUnbox c b =>
    simp only [run, hpc] at h
    split at h
    · cases h
    injection h with h; subst h
    exact ⟨.inr (keeps_free (fun hb => hI.not_priv hb ht (by simp [hpc, Pc.priv])) rfl rfl),
      vac_set ht rfl (fun _ _ _ e => nomatch e)⟩
  | dropSub b =>
    simp only [run, hpc] at h
    split at h
    · cases h
    split at h
    · injection h with h; subst h
      exact ⟨.inr (keeps_count rfl rfl), vac_set ht rfl (fun _ _ _ e => nomatch e)⟩
    · injection h with h; subst h
      exact ⟨.inr (keeps_count rfl rfl), vac_set ht rfl (fun _ _ _ e => nomatch e)⟩
  | dropRemove b =>
    simp only [run, hpc] at h
    split at h
    · cases h
    split at h
    · cases h
    split at h
    · cases h
    split at h
    · injection h with h; subst h
      exact ⟨.inr fun r hr => ⟨List.mem_of_mem_erase hr, rfl⟩, vac_set ht rfl (fun _ _ _ e => nomatch e)⟩
    · injection h with h; subst h
      exact ⟨.inr (keeps_of rfl rfl), vac_set ht rfl (fun _ _ _ e => nomatch e)⟩
  | dropFree b =>
    simp only [run, hpc] at h
    split at h
    · cases h
    injection h with h; subst h
    exact ⟨.inr (keeps_free (fun hb => hI.not_priv hb ht (by simp [hpc, Pc.priv])) rfl rfl),
      vac_set ht rfl (fun _ _ _ e => nomatch e)⟩
  | lenScan i m acc =>
    simp only [run, hpc] at h
    split at h
    · split at h
      · cases h
      · injection h with h; subst h
        exact ⟨.inr (keeps_of rfl rfl), vac_set ht rfl (fun _ _ _ e => nomatch e)⟩
    · injection h with h; subst h
      exact ⟨.inr (keeps_of rfl rfl), vac_set ht rfl (fun _ _ _ e => nomatch e)⟩
  | lenDone n =>
    simp only [run, hpc] at h
    injection h with h; subst h
    exact ⟨.inr (keeps_of rfl rfl), vac_set ht rfl (fun _ _ _ e => nomatch e)⟩
  | shrinkScan i m =>
    simp only [run, hpc] at h
    split at h
    · split at h
      · cases h
      · injection h with h; subst h
        exact ⟨.inr (keeps_of rfl rfl), vac_set ht rfl (fun _ _ _ e => nomatch e)⟩
    · injection h with h; subst h
      exact ⟨.inr (keeps_of rfl rfl), vac_set ht rfl (fun _ _ _ e => nomatch e)⟩

theorem step_effect {cfg : Cfg V} {home} {s s' : State V} {act : Act V} (hI : Wild.Inv cfg home s) (hsane : act.Sane)
    (h : step cfg s act = .ok s') :
    ((∃ t a th c sh b, act = .run t a ∧ s.threads[t]? = some th ∧ th.pc = .newVacant c sh b ∧ s'.table = b :: s.table ∧
      s'.heap = s.heap ∧ s'.threads = s.threads.set t { th with pc := .newInserted c sh b }) ∨ Keeps s s') ∧ VacFrom s s' (Missed cfg) := by
  cases act with
  | run t a =>
    simp only [step] at h
    cases ht : s.threads[t]? with
    | none => simp only [ht] at h; cases h
    | some th =>
      simp only [ht] at h
      obtain ⟨h1, h2⟩ := run_effect hI ht h
      refine ⟨?_, h2⟩
      rcases h1 with ⟨c, sh, b, e1, e2, e3, e4⟩ | h1
      · exact .inl ⟨t, a, th, c, sh, b, rfl, ht, e1, e2, e3, e4⟩
      · exact .inr h1
  | panicInsert t => exact absurd hsane (by simp [Act.Sane])
  | spawn =>
    simp only [step] at h
    injection h with h; subst h
    refine ⟨.inr (keeps_of rfl rfl), fun u thu c sh b hu hp => ?_⟩
    simp only [List.getElem?_append] at hu
    split at hu
    · exact .inl hu
    · rw [List.getElem?_singleton] at hu
      split at hu
      · injection hu with hu; subst hu; cases hp
      · cases hu
  | new t v dst =>
    simp only [step] at h
    split at h
    · cases h
    · rename_i th ht
      split at h
      · injection h with h; subst h
        exact ⟨.inr (keeps_of rfl rfl), vac_set (th' := { pc := .newLoop { val := v, dst := dst, conv := none }, arg := some v })
          ht rfl (fun _ _ _ e => nomatch e)⟩
      · cases h
  | clone t path =>
    simp only [step] at h
    split at h
    · cases h
    split at h
    · split at h
      · split at h
        · injection h with h; subst h
          exact ⟨.inr (keeps_count rfl rfl), fun u thu c sh b hu hp => .inl hu⟩
        · cases h
      · cases h
      · cases h
    · cases h
  | read t path =>
    simp only [step] at h
    split at h
    · cases h
    split at h
    · split at h
      · injection h with h; subst h
        exact ⟨.inr (keeps_of rfl rfl), fun u thu c sh b hu hp => .inl hu⟩
      · cases h
      · cases h
    · cases h
  | drop t p =>
    simp only [step] at h
    split at h
    · cases h
    · rename_i th ht
      split at h
      · injection h with h; subst h
        exact ⟨.inr (keeps_of rfl rfl), vac_set (th' := { pc := .dropSub p }) ht rfl (fun _ _ _ e => nomatch e)⟩
      · cases h
  | len t lo up =>
    simp only [step] at h
    split at h
    · cases h
    · rename_i th ht
      split at h
      · injection h with h; subst h
        exact ⟨.inr (keeps_of rfl rfl), vac_set (th' := { pc := .lenScan lo up 0 }) ht rfl (fun _ _ _ e => nomatch e)⟩
      · cases h
  | shrink t lo up =>
    simp only [step] at h
    split at h
    · cases h
    · rename_i th ht
      split at h
      · injection h with h; subst h
        exact ⟨.inr (keeps_of rfl rfl), vac_set (th' := { pc := .shrinkScan lo up }) ht rfl (fun _ _ _ e => nomatch e)⟩
      · cases h
  | panic t =>
    simp only [step] at h
    split at h
    · cases h
    · rename_i th ht
      cases hpc : th.pc <;> simp only [runPanic, hpc] at h
      case newLoop c =>
        injection h with h; subst h
        refine ⟨.inr (keeps_of rfl rfl), vac_set ht rfl (fun _ _ _ e => ?_)⟩
        unfold unwindCall at e
        cases hc : c.conv <;> simp [hc] at e
      case newEntry c b =>
        injection h with h; subst h
        exact ⟨.inr (keeps_of rfl rfl), vac_set (th' := { pc := .dropFree b }) ht rfl (fun _ _ _ e => nomatch e)⟩
      case dropRemove b =>
        injection h with h; subst h
        exact ⟨.inr (keeps_of rfl rfl), vac_set (th' := { th with pc := .idle }) ht rfl (fun _ _ _ e => nomatch e)⟩
      case shrinkScan i m =>
        split at h
        · injection h with h; subst h
          exact ⟨.inr (keeps_of rfl rfl), vac_set (th' := { th with pc := .idle }) ht rfl (fun _ _ _ e => nomatch e)⟩
        · cases h
      all_goals cases h

/-- Boxes are registered under the shard of their value. -/
def HomeOk (cfg : Cfg V) (home : Addr → Nat) (s : State V) : Prop :=
  (∀ r ∈ s.table, ∀ x, get s.heap r = some x → home r = cfg.shardOf x.data) ∧
  ∀ (t : Tid) (th : Thread V) c sh b, s.threads[t]? = some th → th.pc = .newVacant c sh b → sh = cfg.shardOf c.val

theorem find_shard {cfg : Cfg V} {s : State V} {v : V} {r : Addr} (h : find s v = some r) :
    ∃ x, get s.heap r = some x ∧ cfg.shardOf x.data = cfg.shardOf v := by
  have h2 := List.find?_some h
  cases hg : get s.heap r with
  | none => simp [hg] at h2
  | some x => simp [hg, keyEq] at h2; exact ⟨x, rfl, by unfold Cfg.shardOf; rw [h2.1]⟩

/-- The honest answer of a lookup is an admissible one. -/
theorem lookup_answer {cfg : Cfg V} {home} {s : State V} (hH : HomeOk cfg home s) {t : Tid} {th : Thread V} {a : Addr}
    (ht : s.threads[t]? = some th) (hs : SelfRemove s (.run t a)) :
    Wild.Answer home s (honestLookup cfg s th).1 (honestLookup cfg s th).2 (.run t a) := by
  intro th' ht' r hr
  have ht' : s.threads[t]? = some th' := ht'
  rw [ht] at ht'; injection ht' with ht'; subst ht'
  have hr : (honestLookup cfg s th).2 = some r := hr
  unfold honestLookup at hr ⊢
  cases hpc : th.pc <;> simp only [hpc] at hr ⊢ <;> try (cases hr; done)
  case newLoop c =>
    obtain ⟨x, hx, e⟩ := find_shard (cfg := cfg) hr
    have hm := List.mem_of_find?_eq_some hr
    exact ⟨hm, (hH.1 r hm x hx).trans e, fun b h => nomatch h⟩
  case newEntry c b =>
    cases hg : get s.heap b with
    | none => simp only [hg] at hr; cases hr
    | some y =>
      simp only [hg] at hr ⊢
      obtain ⟨x, hx, e⟩ := find_shard (cfg := cfg) hr
      have hm := List.mem_of_find?_eq_some hr
      exact ⟨hm, (hH.1 r hm x hx).trans e, fun b h => nomatch h⟩
  case dropRemove b =>
    cases hg : get s.heap b with
    | none => simp only [hg] at hr; cases hr
    | some y =>
      simp only [hg] at hr ⊢
      obtain ⟨x, hx, e⟩ := find_shard (cfg := cfg) hr
      have hm := List.mem_of_find?_eq_some hr
      refine ⟨hm, (hH.1 r hm x hx).trans e, fun b' h => ?_⟩
      injection h with h; subst h
      exact hs th ht b y hpc hg r hr

omit [BEq V] [Hashable V] in
theorem rehomePc_eq {home : Addr → Nat} {pc : Pc V} {r : Addr} (h : ∀ c sh, pc ≠ .newVacant c sh r) :
    Wild.rehomePc home pc r = home r := by
  cases pc <;> try rfl
  rename_i c sh b
  simp only [Wild.rehomePc]
  rw [if_neg]
  rintro rfl
  exact h c sh rfl

theorem home_step {cfg : Cfg V} {home} {s s' : State V} {act : Act V} (hI : Wild.Inv cfg home s) (hH : HomeOk cfg home s)
    (hsane : act.Sane) (h : step cfg s act = .ok s') : HomeOk cfg (Wild.rehome home s act) s' := by
  obtain ⟨h1, h2⟩ := step_effect hI hsane h
  refine ⟨?_, ?_⟩
  · rcases h1 with ⟨t, a, th, c, sh, b, rfl, ht, hpc, e1, e2, _⟩ | hk
    · intro r hr x hx
      have hpi := (hI.th t th ht).pc
      rw [hpc] at hpi
      simp only [Wild.rehome, ht, Wild.rehomePc, hpc]
      rw [e2] at hx
      split
      · rename_i e; subst e
        rw [hpi.2.2] at hx; injection hx with hx; subst hx
        exact hH.2 t th c sh r ht hpc
      · rename_i e
        rw [e1] at hr
        exact hH.1 r ((List.mem_cons.mp hr).resolve_left e) x hx
    · intro r hr x hx
      obtain ⟨k1, k2⟩ := hk r hr
      rw [hx] at k2
      cases hg : get s.heap r with
      | none => rw [hg] at k2; cases k2
      | some y =>
        rw [hg] at k2
        have k3 : x.data = y.data := Option.some.inj k2
        rw [k3, ← hH.1 r k1 y hg]
        cases act with
        | run t a =>
          simp only [Wild.rehome]
          cases ht : s.threads[t]? with
          | none => rfl
          | some th =>
            exact rehomePc_eq fun c sh hpc => hI.not_priv k1 ht (by simp [hpc, Pc.priv])
        | _ => rfl
  · intro u thu c sh b hu hp
    rcases h2 u thu c sh b hu hp with hu' | ⟨th, ht, hpc, x, hx, e, _, _⟩
    · exact hH.2 u thu c sh b hu' hp
    · have hpi := (hI.th u th ht).pc
      rw [hpc] at hpi
      rw [hpi.2.2] at hx; injection hx with hx; subst hx
      exact e

theorem SelfReach.wild {cfg : Cfg V} (hv : cfg.Valid) {s : State V} (h : SelfReach cfg s) :
    ∃ home, Wild.Reach cfg home s ∧ HomeOk cfg home s := by
  induction h with
  | init => exact ⟨fun _ => 0, .init, (fun r hr => nomatch hr), fun t th c sh b ht => nomatch ht⟩
  | @step s s' a _ hs hr he hS ih =>
    obtain ⟨home, hw, hH⟩ := ih
    have hI := hw.inv hv
    refine ⟨Wild.rehome home s a, ?_, home_step hI hH hs he⟩
    cases a with
    | run t b =>
      cases ht : s.threads[t]? with
      | none => simp only [Arc.step, ht] at he; cases he
      | some th =>
        refine hw.step hs (lookup_answer hH ht hr) ?_ hS
        simp only [Wild.step, ht, wild_run]
        simpa only [Arc.step, ht] using he
    | _ => exact hw.step (sh := 0) (found := none) hs trivial he hS

/-! ### Equality that is only symmetric and transitive -/

/-- Registered values are pairwise unequal. -/
def Distinct (s : State V) : Prop :=
  (∀ b c x y, b ∈ s.table → c ∈ s.table → get s.heap b = some x → get s.heap c = some y → (x.data == y.data) = true → b = c) ∧
  ∀ (t : Tid) (th : Thread V) c sh b, s.threads[t]? = some th → th.pc = .newVacant c sh b →
    ∀ r x, r ∈ s.table → get s.heap r = some x → (x.data == c.val) = false

theorem distinct_step [PartialEquivBEq V] [LawfulHashable V] {cfg : Cfg V} {home} {s s' : State V} {act : Act V}
    (hI : Wild.Inv cfg home s) (hH : HomeOk cfg home s) (hD : Distinct s) (hsane : act.Sane) (h : step cfg s act = .ok s') :
    Distinct s' := by
  obtain ⟨h1, h2⟩ := step_effect hI hsane h
  rcases h1 with ⟨t, a, th, c, sh, b, rfl, ht, hpc, e1, e2, e3⟩ | hk
  · have hpi := (hI.th t th ht).pc
    rw [hpc] at hpi
    have hvac := hD.2 t th c sh b ht hpc
    have hsh := hH.2 t th c sh b ht hpc
    have hlk : s.locks sh = some t := (hI.lk sh t).mpr ⟨th, ht, by rw [hpc]; rfl⟩
    refine ⟨?_, ?_⟩
    · rw [e1, e2]
      intro p q x y hp hq hx hy hxy
      rcases List.mem_cons.mp hp with hp | hp <;> rcases List.mem_cons.mp hq with hq | hq
      · rw [hp, hq]
      · rw [hp, hpi.2.2] at hx; cases hx
        have := hvac q y hq hy
        rw [BEq.symm hxy] at this; cases this
      · rw [hq, hpi.2.2] at hy; cases hy
        have := hvac p x hp hx
        rw [hxy] at this; cases this
      · exact hD.1 p q x y hp hq hx hy hxy
    · intro u thu c' sh' b' hu hp r x hr hx
      rw [e1] at hr
      rw [e2] at hx
      have key : ∀ r x, r ∈ s.table → get s.heap r = some x → (x.data == c'.val) = false := by
        rcases h2 u thu c' sh' b' hu hp with hu' | ⟨th', ht', hpc', y, hy, _, hf, _⟩
        · exact hD.2 u thu c' sh' b' hu' hp
        · have hpi' := (hI.th u th' ht').pc
          rw [hpc'] at hpi'
          rw [hpi'.2.2] at hy; injection hy with hy; subst hy
          exact find_none hf
      rcases List.mem_cons.mp hr with hr | hr
      · subst hr
        rw [hpi.2.2] at hx; injection hx with hx; subst hx
        cases hc : ((⟨1, c.val⟩ : Cell V).data == c'.val) with
        | false => rfl
        | true =>
          exfalso
          have hs : cfg.shardOf c.val = cfg.shardOf c'.val := shardOf_congr hc
          rcases h2 u thu c' sh' b' hu hp with hu' | ⟨th', ht', hpc', y, hy, e, _, hl⟩
          · have hsh' := hH.2 u thu c' sh' b' hu' hp
            have : s.locks sh' = some u := (hI.lk sh' u).mpr ⟨thu, hu', by rw [hp]; rfl⟩
            rw [hsh', ← hs, ← hsh, hlk] at this
            injection this with this; subst this
            rw [e3, set_getElem? _ _ _ _ _ ht, if_pos rfl] at hu
            injection hu with hu; subst hu; cases hp
          · have hpi' := (hI.th u th' ht').pc
            rw [hpc'] at hpi'
            rw [hpi'.2.2] at hy; injection hy with hy; subst hy
            rw [e, ← hs, ← hsh, hlk] at hl; cases hl
      · exact key r x hr hx
  · have dat : ∀ r x', r ∈ s'.table → get s'.heap r = some x' → r ∈ s.table ∧ ∃ x, get s.heap r = some x ∧ x.data = x'.data := by
      intro r x' hr hx
      obtain ⟨k1, k2⟩ := hk r hr
      refine ⟨k1, ?_⟩
      rw [hx] at k2
      cases hg : get s.heap r with
      | none => rw [hg] at k2; cases k2
      | some y => rw [hg] at k2; exact ⟨y, rfl, (Option.some.inj k2).symm⟩
    refine ⟨?_, ?_⟩
    · intro p q x y hp hq hx hy hxy
      obtain ⟨m1, x0, g1, d1⟩ := dat p x hp hx
      obtain ⟨m2, y0, g2, d2⟩ := dat q y hq hy
      exact hD.1 p q x0 y0 m1 m2 g1 g2 (by rw [d1, d2]; exact hxy)
    · intro u thu c sh b hu hp r x hr hx
      obtain ⟨m1, x0, g1, d1⟩ := dat r x hr hx
      rw [← d1]
      rcases h2 u thu c sh b hu hp with hu' | ⟨th', ht', hpc', y, hy, _, hf, _⟩
      · exact hD.2 u thu c sh b hu' hp r x0 m1 g1
      · have hpi' := (hI.th u th' ht').pc
        rw [hpc'] at hpi'
        rw [hpi'.2.2] at hy; injection hy with hy; subst hy
        exact find_none hf r x0 m1 g1

theorem Reach.self [PartialEquivBEq V] [LawfulHashable V] {cfg : Cfg V} (hv : cfg.Valid) {s : State V} (h : Reach cfg s) :
    SelfReach cfg s ∧ Distinct s := by
  induction h with
  | init =>
    exact ⟨.init, (fun b c x y hb => nomatch hb), fun t th c sh b ht => nomatch ht⟩
  | @step s s' a _ hs he hS ih =>
    obtain ⟨hr, hD⟩ := ih
    obtain ⟨home, hw, hH⟩ := hr.wild hv
    have hI := hw.inv hv
    refine ⟨hr.step hs ?_ he hS, distinct_step hI hH hD hs he⟩
    cases a with
    | run t a =>
      intro th ht b x hpc hx r hf
      have hRb : 0 < R s b := (count_flatMap_pos _ b s.threads).mpr ⟨t, th, ht, by simp [hpc, Pc.removing]⟩
      have hp := hI.pend b
      have hT : 0 < T s b := by
        by_cases h : 0 < T s b ∧ A cfg s b = 0
        · exact h.1
        · rw [if_neg h] at hp; omega
      obtain ⟨m, y, hy, e⟩ := find_some hf
      exact hD.1 r b y x m (List.count_pos_iff.mp hT) hy hx e
    | _ => trivial

end Arc
