import Verif.Arc.Progress
/-! Construction of a continuation in which every running call finishes (C11). -/
namespace Arc
variable {V : Type} [BEq V] [Hashable V]

/-- Enough room below the counter's modulus for all running `new` calls. -/
def Room (cfg : Cfg V) (s : State V) : Prop := ∀ p, A cfg s p + pendingNews s < cfg.W

structure Okay (cfg : Cfg V) (s : State V) : Prop where
  inv : Inv cfg s
  room : Room cfg s
  zom : s.zombies = []

theorem countP_set {α : Type} (f : α → Bool) : ∀ (l : List α) (t : Nat) (x y : α), l[t]? = some x →
    (l.set t y).countP f + (if f x then 1 else 0) = l.countP f + (if f y then 1 else 0)
  | [], t, x, y, h => by simp at h
  | z :: l, 0, x, y, h => by
    simp only [List.getElem?_cons_zero, Option.some.injEq] at h
    subst h; simp only [List.set_cons_zero, List.countP_cons]; omega
  | z :: l, t + 1, x, y, h => by
    simp only [List.getElem?_cons_succ] at h
    have := countP_set f l t x y h
    simp only [List.set_cons_succ, List.countP_cons]; omega

theorem sum_set {α : Type} (f : α → Nat) : ∀ (l : List α) (t : Nat) (x y : α), l[t]? = some x →
    ((l.set t y).map f).sum + f x = (l.map f).sum + f y
  | [], t, x, y, h => by simp at h
  | z :: l, 0, x, y, h => by
    simp only [List.getElem?_cons_zero, Option.some.injEq] at h
    subst h; simp only [List.set_cons_zero, List.map_cons, List.sum_cons]; omega
  | z :: l, t + 1, x, y, h => by
    simp only [List.getElem?_cons_succ] at h
    have := sum_set f l t x y h
    simp only [List.set_cons_succ, List.map_cons, List.sum_cons]; omega

/-- An `intern` effect uses up one pending call, no other step changes their number. -/
theorem run_pending {cfg : Cfg V} {s s' : State V} {t : Tid} {a : Addr} (h : step cfg s (.run t a) = .ok s') :
    match effect cfg s (.run t a) with
    | some (.intern _ _ _) => pendingNews s' + 1 = pendingNews s
    | _ => pendingNews s' = pendingNews s := by
  have hR := step_R h
  cases hR with
  | run _ _ th _ ht hr =>
    simp only [effect, ht]
    have set : ∀ (th' : Thread V) (n m : Bool), th.pc.pending = n → th'.pc.pending = m →
        (s.threads.set t th').countP (fun th => th.pc.pending) + n.toNat =
        s.threads.countP (fun th => th.pc.pending) + m.toNat := by
      rintro th' n m rfl rfl
      have := countP_set (fun th : Thread V => th.pc.pending) s.threads t th th' ht
      cases h1 : th.pc.pending <;> cases h2 : th'.pc.pending <;> simpa [h1, h2] using this
    cases hr with
    | hit c sh b x hpc hx hc =>
      simp only [hpc, hx, if_pos hc]
      exact set { th with pc := .newHit c sh b } true false (by rw [hpc]; rfl) rfl
    | insert c sh b hpc =>
      simp only [hpc]
      exact set { th with pc := .newInserted c sh b } true false (by rw [hpc]; rfl) rfl
    | dying c sh b x hpc hx hc =>
      simp only [hpc, hx, hc, ne_eq, not_true_eq_false, if_false]
      exact Nat.add_right_cancel (set { th with pc := .newUndo c sh b } true true (by rw [hpc]; rfl) rfl)
    | hitRet c sh b hpc =>
      simp only [hpc]
      exact set (unwindCall cfg c (some b) th.arg) false false (by rw [hpc]; rfl) (by unfold unwindCall; cases c.conv <;> rfl)
    | todo p ps hpc => simp only [hpc]; exact set { th with pc := .dropSub p, todo := ps } false false (by rw [hpc]; rfl) rfl
    | ret b hpc => simp only [hpc]; exact set {} false false (by rw [hpc]; rfl) rfl
    | found c b hpc => simp only [hpc]; exact Nat.add_right_cancel (set { th with pc := .newFound c (cfg.shardOf c.val) b } true true (by rw [hpc]; rfl) rfl)
    | cached c b hpc => simp only [hpc]; exact Nat.add_right_cancel (set { th with pc := .newEntry { c with conv := none } b } true true (by rw [hpc]; rfl) rfl)
    | missing c hpc => simp only [hpc]; exact Nat.add_right_cancel (set { th with pc := .newAlloc c } true true (by rw [hpc]; rfl) rfl)
    | undo c sh b x hpc => simp only [hpc]; exact Nat.add_right_cancel (set { th with pc := .newRelease c sh } true true (by rw [hpc]; rfl) rfl)
    | release c sh hpc => simp only [hpc]; exact Nat.add_right_cancel (set { th with pc := .newLoop c } true true (by rw [hpc]; rfl) rfl)
    | alloc c hpc => simp only [hpc]; exact Nat.add_right_cancel (set { th with pc := .newEntry c a } true true (by rw [hpc]; rfl) rfl)
    | vacant c b x hpc => simp only [hpc]; exact Nat.add_right_cancel (set { th with pc := .newVacant c (cfg.shardOf x.data) b } true true (by rw [hpc]; rfl) rfl)
    | occupied c b q x hpc => simp only [hpc]; exact Nat.add_right_cancel (set { th with pc := .newOccupied c (cfg.shardOf x.data) b } true true (by rw [hpc]; rfl) rfl)
    | inserted c sh b hpc => simp only [hpc]; exact set { pc := .idle, todo := [], ret := some b, arg := th.arg } false false (by rw [hpc]; rfl) rfl
    | cache c sh b hpc => simp only [hpc]; exact Nat.add_right_cancel (set { th with pc := .newLoop { c with conv := some b } } true true (by rw [hpc]; rfl) rfl)
    | intoKey c sh b hpc => simp only [hpc]; exact Nat.add_right_cancel (set { th with pc := .newUnbox c b } true true (by rw [hpc]; rfl) rfl)
    | unbox c b x hpc => simp only [hpc]; exact Nat.add_right_cancel (set { th with pc := .newLoop { c with val := x.data } } true true (by rw [hpc]; rfl) rfl)
    | subLast b x hpc => simp only [hpc]; exact set { th with pc := .dropRemove b } false false (by rw [hpc]; rfl) rfl
    | sub b x hpc => simp only [hpc]; exact set { th with pc := .idle } false false (by rw [hpc]; rfl) rfl
    | remove b q x hpc => simp only [hpc]; exact set { th with pc := .dropFree q } false false (by rw [hpc]; rfl) rfl
    | removeNone b x hpc => simp only [hpc]; exact set { th with pc := .idle } false false (by rw [hpc]; rfl) rfl
    | free b x hpc => simp only [hpc]; exact set { th with pc := .idle, todo := cfg.kids x.data ++ th.todo } false false (by rw [hpc]; rfl) rfl
    | lenScan i m acc hpc => simp only [hpc]; exact set { th with pc := .lenScan (i + 1) m (acc + shardLen cfg s i) } false false (by rw [hpc]; rfl) rfl
    | lenEnd i m acc hpc => simp only [hpc]; exact set { th with pc := .lenDone acc } false false (by rw [hpc]; rfl) rfl
    | lenDone n hpc => simp only [hpc]; exact set { th with pc := .idle } false false (by rw [hpc]; rfl) rfl
    | shrink i m hpc => simp only [hpc]; exact set { th with pc := .shrinkScan (i + 1) m } false false (by rw [hpc]; rfl) rfl
    | shrinkEnd i m hpc => simp only [hpc]; exact set { th with pc := .idle } false false (by rw [hpc]; rfl) rfl

theorem run_zombies {cfg : Cfg V} {s s' : State V} {t : Tid} {a : Addr} (h : step cfg s (.run t a) = .ok s') :
    s'.zombies = s.zombies := by
  rcases step_zombies h with h | ⟨_, _, _, h, _⟩
  · exact h
  · cases h

variable [LawfulHashable V] [EquivBEq V]

theorem okay_step {cfg : Cfg V} (hv : cfg.Valid) {s s' : State V} (hO : Okay cfg s) {t : Tid} {a : Addr}
    (h : step cfg s (.run t a) = .ok s') :
    Okay cfg s' ∧ Small cfg s' ∧ pendingNews s' ≤ pendingNews s := by
  have hsane : (Act.run t a : Act V).Sane := by simp [Act.Sane]
  have hroom : Room cfg s' ∧ pendingNews s' ≤ pendingNews s := by
    have h2 := run_pending h
    refine ⟨fun p => ?_, ?_⟩
    · have h1 := step_counts hO.inv hsane h p
      have h3 := hO.room p
      have h5 : ∀ q : Addr, [q].count p ≤ 1 := fun q => List.count_le_length
      cases he : effect cfg s (.run t a) with
      | none => rw [he] at h1 h2; simp only at h1 h2; omega
      | some o =>
        rw [he] at h1 h2
        cases o with
        | intern _ _ q => simp only at h1 h2; have := h5 q; omega
        | clone _ q =>
          exfalso
          simp only [effect] at he
          split at he <;> first | (cases he; done) | skip
          split at he <;> first | (cases he; done) | skip
          split at he <;> first | (cases he; done) | skip
          split at he <;> cases he
        | drop _ q => simp only at h1 h2; omega
    · revert h2
      cases effect cfg s (.run t a) with
      | none => simp only; omega
      | some o => cases o <;> simp only <;> omega
  have hsmall : Small cfg s' := fun p => by have := hroom.1 p; simp only [A] at this; omega
  refine ⟨⟨(step_kept hv hO.inv hsane).2 _ h hsmall, hroom.1, ?_⟩, hsmall, hroom.2⟩
  rw [run_zombies h, hO.zom]

omit [LawfulHashable V] [EquivBEq V] in
theorem Runs.trans {cfg : Cfg V} {s s' s'' : State V} (h : Runs cfg s s') (h' : Runs cfg s' s'') : Runs cfg s s'' := by
  induction h with
  | refl => exact h'
  | step h1 h2 _ ih => exact .step h1 h2 (ih h')

omit [LawfulHashable V] [EquivBEq V] in
theorem Must.next {cfg : Cfg V} {G : State V → Prop} {s : State V} (t : Tid)
    (h : ∀ a, a ≠ 0 → a ∉ keys s.heap → ∃ s', Arc.step cfg s (.run t a) = .ok s' ∧ Small cfg s' ∧ Must cfg G s') : Must cfg G s := by
  refine .step t (fun a h1 h2 => ?_) fun a s' h1 h2 h3 => ?_
  · obtain ⟨s', h4, h5, _⟩ := h a h1 h2
    exact ⟨s', h4, h5⟩
  · obtain ⟨s'', h4, _, h5⟩ := h a h1 h2
    rw [h3] at h4; cases h4; exact h5

omit [LawfulHashable V] [EquivBEq V] in
theorem Must.bind {cfg : Cfg V} {G H : State V → Prop} {s : State V} (h : Must cfg G s) (h' : ∀ s, G s → Must cfg H s) : Must cfg H s := by
  induction h with
  | done h => exact h' _ h
  | step t h1 _ ih => exact .step t h1 ih

omit [LawfulHashable V] [EquivBEq V] in
theorem Must.runs {cfg : Cfg V} {G : State V → Prop} {s : State V} (h : Must cfg G s) : ∃ s', Runs cfg s s' ∧ G s' := by
  induction h with
  | done h => exact ⟨_, .refl _, h⟩
  | @step s t h _ ih =>
    obtain ⟨a, h1, h2⟩ := fresh_addr s.heap
    obtain ⟨s', e1, e2⟩ := h a h1 h2
    obtain ⟨s'', e3, e4⟩ := ih a s' h1 h2 e1
    exact ⟨s'', .step e1 e2 e3, e4⟩

/-! ### Phase 1: let lock holders finish -/

def Pc.holdRank : Pc V → Nat
  | .newFound _ _ _ => 3
  | .newUndo _ _ _ | .newVacant _ _ _ => 2
  | .newRelease _ _ | .newHit _ _ _ | .newInserted _ _ _ | .newOccupied _ _ _ => 1
  | _ => 0

theorem phase1 {cfg : Cfg V} (hv : cfg.Valid) : ∀ (n : Nat) (s : State V), (s.threads.map (fun th => th.pc.holdRank)).sum < n →
    Okay cfg s → Must cfg (fun s' => Okay cfg s' ∧ (∀ i, s'.locks i = none) ∧ pendingNews s' ≤ pendingNews s) s := by
  intro n
  induction n with
  | zero => intro s h; omega
  | succ n ih =>
    intro s hn hO
    by_cases hl : ∃ i u, s.locks i = some u
    · obtain ⟨i, u, hl⟩ := hl
      refine Must.next u fun a _ _ => ?_
      obtain ⟨s', hs'⟩ := holder_enabled hv hO.inv hl a
      obtain ⟨th, hu, hh⟩ := (hO.inv.lk i u).mp hl
      obtain ⟨hO', hsm, hp⟩ := okay_step hv hO hs'
      have hlt : (s'.threads.map (fun th => th.pc.holdRank)).sum < n := by
        have hR := step_R hs'
        cases hR with
        | run _ _ th' _ ht hr =>
          rw [hu] at ht; cases ht
          have set : ∀ (th' : Thread V) (n m : Nat), th.pc.holdRank = n → th'.pc.holdRank = m → m < n →
              ((s.threads.set u th').map (fun th => th.pc.holdRank)).sum <
              (s.threads.map (fun th => th.pc.holdRank)).sum := by
            rintro th' n m rfl rfl hlt
            have := sum_set (fun th : Thread V => th.pc.holdRank) s.threads u th th' hu
            omega
          refine Nat.lt_of_lt_of_le ?_ (Nat.le_of_lt_succ hn)
          cases hr with
          | hit c sh b x hpc hx hc => exact set { th with pc := .newHit c sh b } 3 1 (by rw [hpc]; rfl) rfl (by omega)
          | dying c sh b x hpc hx hc => exact set { th with pc := .newUndo c sh b } 3 2 (by rw [hpc]; rfl) rfl (by omega)
          | undo c sh b x hpc hx => exact set { th with pc := .newRelease c sh } 2 1 (by rw [hpc]; rfl) rfl (by omega)
          | release c sh hpc => exact set { th with pc := .newLoop c } 1 0 (by rw [hpc]; rfl) rfl (by omega)
          | hitRet c sh b hpc =>
            exact set (unwindCall cfg c (some b) th.arg) 1 0 (by rw [hpc]; rfl) (by unfold unwindCall; cases c.conv <;> rfl) (by omega)
          | insert c sh b hpc => exact set { th with pc := .newInserted c sh b } 2 1 (by rw [hpc]; rfl) rfl (by omega)
          | inserted c sh b hpc =>
            exact set { pc := .idle, todo := [], ret := some b, arg := th.arg } 1 0 (by rw [hpc]; rfl) rfl (by omega)
          | cache c sh b hpc => exact set { th with pc := .newLoop { c with conv := some b } } 1 0 (by rw [hpc]; rfl) rfl (by omega)
          | intoKey c sh b hpc => exact set { th with pc := .newUnbox c b } 1 0 (by rw [hpc]; rfl) rfl (by omega)
          | _ => simp_all [Pc.holds]
      exact ⟨s', hs', hsm, (ih s' hlt hO').bind fun s'' ⟨h2, h3, h4⟩ => .done ⟨h2, h3, by omega⟩⟩
    · refine .done ⟨hO, fun i => ?_, Nat.le_refl _⟩
      cases hi : s.locks i with
      | none => rfl
      | some u => exact absurd ⟨i, u, hi⟩ hl

/-! ### Phase 2: let drops, `len` and `shrink_to_fit` finish -/

def Thread.rank (cfg : Cfg V) (th : Thread V) : Nat :=
  (if th.ret.isSome then 1 else 0) +
  match th.pc with
  | .idle => if th.todo.isEmpty then 0 else 1
  | .dropRemove _ => 3
  | .dropFree _ => 2
  | .lenScan i m _ => m - i + 2
  | .lenDone _ => 1
  | .shrinkScan i m => m - i + 1
  | _ => 0

def measure2 (cfg : Cfg V) (s : State V) : Nat :=
  10 * (allHandles cfg s).length + (s.threads.map (Thread.rank cfg)).sum

omit [LawfulHashable V] [EquivBEq V] in
theorem find_pick {P : Thread V → Prop} [DecidablePred P] (s : State V) :
    (∀ th ∈ s.threads, P th) ∨ ∃ (t : Tid) (th : Thread V), s.threads[t]? = some th ∧ ¬ P th := by
  by_cases h : ∀ th ∈ s.threads, P th
  · exact Or.inl h
  · right
    rw [Classical.not_forall] at h
    obtain ⟨th, h⟩ := h
    rw [Classical.not_imp] at h
    obtain ⟨t, ht⟩ := List.getElem?_of_mem h.1
    exact ⟨t, th, ht, h.2⟩

theorem phase2 {cfg : Cfg V} (hv : cfg.Valid) : ∀ (n : Nat) (s : State V), measure2 cfg s < n →
    Okay cfg s → (∀ i, s.locks i = none) →
    Must cfg (fun s' => Okay cfg s' ∧ (∀ i, s'.locks i = none) ∧ pendingNews s' ≤ pendingNews s ∧
      ∀ th ∈ s'.threads, th.isIdle = true ∨ th.pc.pending = true) s := by
  intro n
  induction n with
  | zero => intro s h; omega
  | succ n ih =>
    intro s hn hO hl
    rcases find_pick (P := fun th => th.isIdle = true ∨ th.pc.pending = true) s with h | ⟨t, th, ht, hne⟩
    · exact .done ⟨hO, hl, Nat.le_refl _, h⟩
    · simp only [not_or, Bool.not_eq_true] at hne
      refine Must.next t fun a ha1 ha2 => ?_
      have ha := And.intro ha1 ha2
      obtain ⟨s', hs'⟩ := run_enabled hv hO.inv ht hne.1 (Or.inl ha) (fun i _ => hl i)
      obtain ⟨hO', hsm, hp⟩ := okay_step hv hO hs'
      have hnh : th.pc.holds = none := by
        cases hh : th.pc.holds with
        | none => rfl
        | some i =>
          have := (hO.inv.lk i t).mpr ⟨th, ht, hh⟩
          rw [hl i] at this; cases this
      have habs := step_abs hO.inv (by simp [Act.Sane]) hs'
      have key : measure2 cfg s' < measure2 cfg s ∧ ∀ i, s'.locks i = none := by
        have hR := step_R hs'
        cases hR with
        | run _ _ th' _ ht' hr =>
          rw [ht] at ht'; cases ht'
          have set : ∀ (th' : Thread V), ((s.threads.set t th').map (Thread.rank cfg)).sum + th.rank cfg =
              (s.threads.map (Thread.rank cfg)).sum + th'.rank cfg :=
            fun th' => sum_set (Thread.rank cfg) s.threads t th th' ht
          simp only [effect, ht] at habs
          cases hr with
          | todo p ps hpc htodo =>
            simp only [hpc] at habs
            have hlen := habs.2.length_eq
            refine ⟨?_, hl⟩
            have := set { th with pc := .dropSub p, todo := ps }
            simp only [Thread.rank, hpc, htodo, List.isEmpty_cons, Bool.false_eq_true, if_false] at this
            simp only [measure2, abs] at hlen ⊢
            rw [hlen]; simp only [State.setThread]; simp only [Thread.rank] at *; omega
          | ret b hpc htodo hret =>
            simp only [hpc] at habs
            have hlen := habs.2.length_eq
            refine ⟨?_, hl⟩
            have := set {}
            simp only [Thread.rank, hpc, htodo, hret, List.isEmpty_nil, if_true, Option.isSome_some, Option.isSome_none,
              Bool.false_eq_true, if_false] at this
            simp only [measure2, abs] at hlen ⊢
            rw [hlen]; simp only [State.setThread]; simp only [Thread.rank] at *; omega
          | subLast b x hpc hx hc =>
            simp only [hpc] at habs
            have hlen := habs.2.length_eq
            refine ⟨?_, hl⟩
            have := set { th with pc := .dropRemove b }
            simp only [Thread.rank, hpc] at this
            simp only [measure2, abs, List.length_cons] at hlen ⊢
            rw [hlen]; simp only [State.setThread]; simp only [Thread.rank] at *; omega
          | sub b x hpc hx hc =>
            simp only [hpc] at habs
            have hlen := habs.2.length_eq
            refine ⟨?_, hl⟩
            have := set { th with pc := .idle }
            simp only [Thread.rank, hpc] at this
            simp only [measure2, abs, List.length_cons] at hlen ⊢
            rw [hlen]; simp only [State.setThread]; simp only [Thread.rank] at *
            split at this <;> split at this <;> omega
          | remove b q x hpc hx hl' hf =>
            simp only [hpc] at habs
            have hlen := habs.2.length_eq
            refine ⟨?_, hl⟩
            have := set { th with pc := .dropFree q }
            simp only [Thread.rank, hpc] at this
            simp only [measure2, abs] at hlen ⊢
            rw [hlen]; simp only [State.setThread]; simp only [Thread.rank] at *; omega
          | removeNone b x hpc hx hl' hf =>
            simp only [hpc] at habs
            have hlen := habs.2.length_eq
            refine ⟨?_, hl⟩
            have := set { th with pc := .idle }
            simp only [Thread.rank, hpc] at this
            simp only [measure2, abs] at hlen ⊢
            rw [hlen]; simp only [State.setThread]; simp only [Thread.rank] at *
            split at this <;> split at this <;> omega
          | free b x hpc hx =>
            simp only [hpc] at habs
            have hlen := habs.2.length_eq
            refine ⟨?_, hl⟩
            have := set { th with pc := .idle, todo := cfg.kids x.data ++ th.todo }
            simp only [Thread.rank, hpc] at this
            simp only [measure2, abs] at hlen ⊢
            rw [hlen]; simp only [State.setThread]; simp only [Thread.rank] at *
            split at this <;> split at this <;> omega
          | lenScan i m acc hpc hi hl' =>
            simp only [hpc] at habs
            have hlen := habs.2.length_eq
            refine ⟨?_, hl⟩
            have := set { th with pc := .lenScan (i + 1) m (acc + shardLen cfg s i) }
            simp only [Thread.rank, hpc] at this
            simp only [measure2, abs] at hlen ⊢
            rw [hlen]; simp only [State.setThread]; simp only [Thread.rank] at *; omega
          | lenEnd i m acc hpc hi =>
            simp only [hpc] at habs
            have hlen := habs.2.length_eq
            refine ⟨?_, hl⟩
            have := set { th with pc := .lenDone acc }
            simp only [Thread.rank, hpc] at this
            simp only [measure2, abs] at hlen ⊢
            rw [hlen]; simp only [State.setThread]; simp only [Thread.rank] at *; omega
          | lenDone m hpc =>
            have hnr := (hO.inv.th t th ht).empty (by rw [hpc]; rfl)
            simp only [hpc] at habs
            have hlen := habs.2.length_eq
            refine ⟨?_, hl⟩
            have := set { th with pc := .idle }
            simp only [Thread.rank, hpc, hnr.1, List.isEmpty_nil, if_true] at this
            simp only [measure2, abs] at hlen ⊢
            rw [hlen]; simp only [State.setThread]; simp only [Thread.rank, hnr.1] at *; omega
          | shrink i m hpc hi hl' =>
            simp only [hpc] at habs
            have hlen := habs.2.length_eq
            refine ⟨?_, hl⟩
            have := set { th with pc := .shrinkScan (i + 1) m }
            simp only [Thread.rank, hpc] at this
            simp only [measure2, abs] at hlen ⊢
            rw [hlen]; simp only [State.setThread]; simp only [Thread.rank] at *; omega
          | shrinkEnd i m hpc hi =>
            have hnr := (hO.inv.th t th ht).empty (by rw [hpc]; rfl)
            simp only [hpc] at habs
            have hlen := habs.2.length_eq
            refine ⟨?_, hl⟩
            have := set { th with pc := .idle }
            simp only [Thread.rank, hpc, hnr.1, List.isEmpty_nil, if_true] at this
            simp only [measure2, abs] at hlen ⊢
            rw [hlen]; simp only [State.setThread]; simp only [Thread.rank, hnr.1] at *; omega
          | _ => simp_all [Pc.holds, Pc.pending]
      exact ⟨s', hs', hsm, (ih s' (by omega) hO' key.2).bind fun s'' ⟨h2, h3, h4, h5⟩ => .done ⟨h2, h3, by omega, h5⟩⟩

/-! ### Phase 3: one `new` call runs alone until it takes effect -/

structure Calm (cfg : Cfg V) (s : State V) : Prop extends Okay cfg s where
  free : ∀ i, s.locks i = none
  live : ∀ b ∈ s.table, 0 < A cfg s b

theorem calm_step {cfg : Cfg V} (hv : cfg.Valid) {s s' : State V} (hC : Calm cfg s) {t : Tid} {a : Addr}
    (h : step cfg s (.run t a) = .ok s') (he : effect cfg s (.run t a) = none) (ht : s'.table = s.table)
    (hl : ∀ i, s'.locks i = none) : Calm cfg s' := by
  refine ⟨(okay_step hv hC.toOkay h).1, hl, fun b hb => ?_⟩
  have := step_counts hC.inv (by simp [Act.Sane]) h b
  rw [he] at this; simp only at this
  rw [this]; exact hC.live b (ht ▸ hb)

theorem counts_same {cfg : Cfg V} {s s' : State V} (hI : Inv cfg s) {t : Tid} {a : Addr}
    (h : step cfg s (.run t a) = .ok s') (he : effect cfg s (.run t a) = none) (p : Addr) : A cfg s' p = A cfg s p := by
  have := step_counts hI (by simp [Act.Sane]) h p
  rw [he] at this; exact this

/-- The goal of phase 3. -/
def Advances (cfg : Cfg V) (s : State V) : Prop := Must cfg (fun s' => Okay cfg s' ∧ pendingNews s' < pendingNews s) s

theorem advances_step {cfg : Cfg V} (hv : cfg.Valid) {s : State V} (hO : Okay cfg s) (t : Tid)
    (h : ∀ a, a ≠ 0 → a ∉ keys s.heap → ∃ s', step cfg s (.run t a) = .ok s' ∧ Advances cfg s') : Advances cfg s := by
  refine Must.next t fun a h1 h2 => ?_
  obtain ⟨s', h3, h4⟩ := h a h1 h2
  obtain ⟨_, hsm, hp⟩ := okay_step hv hO h3
  exact ⟨s', h3, hsm, Must.bind h4 fun s'' ⟨g2, g3⟩ => .done ⟨g2, by omega⟩⟩

theorem advances_last {cfg : Cfg V} (hv : cfg.Valid) {s : State V} (hO : Okay cfg s) {t u : Tid} {b : Addr} {v : V}
    (h : ∀ a, ∃ s', step cfg s (.run t a) = .ok s' ∧ effect cfg s (.run t a) = some (.intern u v b)) : Advances cfg s := by
  refine Must.next t fun a _ _ => ?_
  obtain ⟨s', h, he⟩ := h a
  obtain ⟨hO', hsm, _⟩ := okay_step hv hO h
  have := run_pending h
  rw [he] at this; simp only at this
  exact ⟨s', h, hsm, .done ⟨hO', by omega⟩⟩

theorem p3found {cfg : Cfg V} (hv : cfg.Valid) {s : State V} (hC : Calm cfg s) {t : Tid} {th : Thread V} {c : Call V} {b : Addr}
    (ht : s.threads[t]? = some th) (hpc : th.pc = .newLoop c) (hf : find s c.val = some b) : Advances cfg s := by
  obtain ⟨hb, x, hx, hxv⟩ := find_some hf
  refine advances_step hv hC.toOkay t fun a _ _ => ?_
  have e1 := R_step hC.inv (a := a) ht (.found c b hpc (hC.free _) hf)
  refine ⟨_, e1, ?_⟩
  have hcount : x.count ≠ 0 := by
    have := hC.inv.cnt b x (List.count_pos_iff.mpr hb) hx
    have := hC.live b hb
    omega
  have ht2 := set_self (y := ({ th with pc := .newFound c (cfg.shardOf c.val) b } : Thread V)) ht
  refine advances_last (t := t) (u := t) (v := c.val) (b := b) hv (okay_step hv hC.toOkay e1).1 fun a => ⟨_, then_R e1 (a := a) (Or.inl rfl) ht2 (.hit c _ b x rfl hx hcount), ?_⟩
  simp only [effect, State.setThread, State.lock, set_self ht, hx, if_pos hcount]

theorem p3vacant {cfg : Cfg V} (hv : cfg.Valid) {s : State V} (hC : Calm cfg s) {t : Tid} {th : Thread V} {c : Call V} {b : Addr}
    {x : Cell V} (ht : s.threads[t]? = some th) (hpc : th.pc = .newEntry c b) (hx : get s.heap b = some x)
    (hf : find s x.data = none) : Advances cfg s := by
  refine advances_step hv hC.toOkay t fun a _ _ => ?_
  have e1 := R_step hC.inv (a := a) ht (.vacant c b x hpc hx (hC.free _) hf)
  refine ⟨_, e1, ?_⟩
  have ht2 := set_self (y := ({ th with pc := .newVacant c (cfg.shardOf x.data) b } : Thread V)) ht
  refine advances_last (t := t) (u := t) (v := c.val) (b := b) hv (okay_step hv hC.toOkay e1).1 fun a => ⟨_, then_R e1 (a := a) (Or.inl rfl) ht2 (.insert c _ b rfl), ?_⟩
  simp only [effect, State.setThread, State.lock, set_self ht]

theorem find_some_of_matches {cfg : Cfg V} {s : State V} (hI : Inv cfg s) {b : Addr} {v : V} (h : matches' s b v) :
    find s v = some b := by
  cases hf : find s v with
  | none =>
    obtain ⟨h1, x, h2, h3⟩ := h
    have := find_none hf b x h1 h2
    rw [h3] at this; cases this
  | some c =>
    obtain ⟨h1, x, h2, h3⟩ := h
    obtain ⟨g1, y, g2, g3⟩ := find_some hf
    rw [hI.uniq c b y x g1 h1 g2 h2 (PartialEquivBEq.trans g3 (PartialEquivBEq.symm h3))]

theorem unlock_lock_free {s : State V} {i : Nat} {t : Tid} (h : ∀ j, s.locks j = none) :
    ∀ j, ((s.lock i t).unlock i).locks j = none := by
  intro j
  simp only [State.lock, State.unlock]
  split
  · rfl
  · exact h j

theorem p3occupied {cfg : Cfg V} (hv : cfg.Valid) {s : State V} (hC : Calm cfg s) {t : Tid} {th : Thread V} {c : Call V} {b r : Addr}
    {x : Cell V} (ht : s.threads[t]? = some th) (hpc : th.pc = .newEntry c b) (hx : get s.heap b = some x)
    (hf : find s x.data = some r) : Advances cfg s := by
  have hpi := (hC.inv.th t th ht).pc
  rw [hpc] at hpi
  obtain ⟨_, _, hg⟩ := hpi
  rw [hx] at hg
  have hxv : x.data = c.val := by cases hg; rfl
  refine advances_step hv hC.toOkay t fun a _ _ => ?_
  have e1 := R_step hC.inv (a := a) ht (.occupied c b r x hpc hx (hC.free _) hf)
  have hO1 := (okay_step hv hC.toOkay e1).1
  refine ⟨_, e1, ?_⟩
  have ht1 := set_self (y := ({ th with pc := .newOccupied c (cfg.shardOf x.data) b } : Thread V)) ht
  have hA1 : ∀ p ∈ s.table, 0 < A cfg ((s.lock (cfg.shardOf x.data) t).setThread t { th with pc := .newOccupied c (cfg.shardOf x.data) b }) p := by
    intro p hp
    have := step_counts hC.inv (by simp [Act.Sane]) e1 p
    simp only [effect, ht, hpc] at this
    rw [this]; exact hC.live p hp
  cases hd : c.dst with
  | true =>
    refine advances_step hv hO1 t fun a _ _ => ?_
    have e2 := then_R e1 (a := a) (Or.inl rfl) ht1 (.cache c _ b rfl hd)
    have hO2 := (okay_step hv hO1 e2).1
    refine ⟨_, e2, ?_⟩
    have hC2 : Calm cfg _ := ⟨hO2, unlock_lock_free hC.free, by
      intro p hp
      exact Nat.lt_of_lt_of_eq (hA1 p hp) (counts_same hO1.inv e2
        (by simp only [effect, State.setThread, State.lock, set_self ht]) p).symm⟩
    exact p3found hv hC2 (set_self ht1) rfl (b := r) (by rw [← hf, hxv]; rfl)
  | false =>
    refine advances_step hv hO1 t fun a _ _ => ?_
    have e2 := then_R e1 (a := a) (Or.inl rfl) ht1 (.intoKey c _ b rfl hd)
    have hO2 := (okay_step hv hO1 e2).1
    refine ⟨_, e2, ?_⟩
    have hC2 : Calm cfg _ := ⟨hO2, unlock_lock_free hC.free, by
      intro p hp
      exact Nat.lt_of_lt_of_eq (hA1 p hp) (counts_same hO1.inv e2
        (by simp only [effect, State.setThread, State.lock, set_self ht]) p).symm⟩
    refine advances_step hv hO2 t fun a _ _ => ?_
    have e3 := then_R e2 (a := a) (Or.inl rfl) (set_self ht1) (.unbox c b x rfl hx)
    refine ⟨_, e3, ?_⟩
    have hC3 := calm_step hv hC2 e3 (by simp only [effect, State.setThread, State.lock, State.unlock, set_self (set_self ht)]) rfl
      hC2.free
    refine p3found hv hC3 (set_self (set_self ht1)) rfl (b := r) (find_some_of_matches hC3.inv ?_)
    obtain ⟨g1, y, g2, g3⟩ := find_some hf
    refine ⟨g1, y, ?_, g3⟩
    simp only [State.setThread, State.lock, State.unlock]
    rw [get_free, if_neg]
    · exact g2
    · rintro rfl
      exact hC.inv.not_priv g1 ht (by simp [hpc, Pc.priv])

theorem p3entry {cfg : Cfg V} (hv : cfg.Valid) {s : State V} (hC : Calm cfg s) {t : Tid} {th : Thread V} {c : Call V} {b : Addr}
    (ht : s.threads[t]? = some th) (hpc : th.pc = .newEntry c b) : Advances cfg s := by
  have hpi := (hC.inv.th t th ht).pc
  rw [hpc] at hpi
  obtain ⟨_, _, hx⟩ := hpi
  cases hf : find s c.val with
  | none => exact p3vacant hv hC ht hpc hx hf
  | some r => exact p3occupied hv hC ht hpc hx hf

theorem p3alloc {cfg : Cfg V} (hv : cfg.Valid) {s : State V} (hC : Calm cfg s) {t : Tid} {th : Thread V} {c : Call V}
    (ht : s.threads[t]? = some th) (hpc : th.pc = .newAlloc c) : Advances cfg s := by
  refine advances_step hv hC.toOkay t fun a ha1 ha2 => ?_
  have e1 := R_step hC.inv (a := a) ht (.alloc c hpc ha1 ha2)
  refine ⟨_, e1, ?_⟩
  exact p3entry hv (calm_step hv hC e1 (by simp [effect, ht, hpc]) rfl hC.free) (set_self ht) rfl

theorem p3loop {cfg : Cfg V} (hv : cfg.Valid) {s : State V} (hC : Calm cfg s) {t : Tid} {th : Thread V} {c : Call V}
    (ht : s.threads[t]? = some th) (hpc : th.pc = .newLoop c) : Advances cfg s := by
  cases hf : find s c.val with
  | some b => exact p3found hv hC ht hpc hf
  | none =>
    cases hc : c.conv with
    | some b =>
      refine advances_step hv hC.toOkay t fun a _ _ => ?_
      have e1 := R_step hC.inv (a := a) ht (.cached c b hpc (hC.free _) hf hc)
      refine ⟨_, e1, ?_⟩
      exact p3entry hv (calm_step hv hC e1 (by simp [effect, ht, hpc]) rfl hC.free) (set_self ht) rfl
    | none =>
      refine advances_step hv hC.toOkay t fun a _ _ => ?_
      have e1 := R_step hC.inv (a := a) ht (.missing c hpc (hC.free _) hf hc)
      refine ⟨_, e1, ?_⟩
      exact p3alloc hv (calm_step hv hC e1 (by simp [effect, ht, hpc]) rfl hC.free) (set_self ht) rfl

theorem phase3 {cfg : Cfg V} (hv : cfg.Valid) {s : State V} (hC : Calm cfg s) {t : Tid} {th : Thread V}
    (ht : s.threads[t]? = some th) (hp : th.pc.pending = true) : Advances cfg s := by
  have hnh : th.pc.holds = none := by
    cases hh : th.pc.holds with
    | none => rfl
    | some i =>
      have := (hC.inv.lk i t).mpr ⟨th, ht, hh⟩
      rw [hC.free i] at this; cases this
  cases hpc : th.pc <;> simp [hpc, Pc.pending, Pc.holds] at hp hnh
  case newLoop c => exact p3loop hv hC ht hpc
  case newAlloc c => exact p3alloc hv hC ht hpc
  case newEntry c b => exact p3entry hv hC ht hpc
  case newUnbox c b =>
    have hpi := (hC.inv.th t th ht).pc
    rw [hpc] at hpi
    refine advances_step hv hC.toOkay t fun a _ _ => ?_
    have e1 := R_step hC.inv (a := a) ht (.unbox c b _ hpc hpi.2.2.2)
    refine ⟨_, e1, ?_⟩
    exact p3loop hv (calm_step hv hC e1 (by simp [effect, ht, hpc]) rfl hC.free) (set_self ht) rfl

theorem must_complete {cfg : Cfg V} (hv : cfg.Valid) : ∀ (n : Nat) (s : State V), pendingNews s < n → Okay cfg s →
    Must cfg Quiescent s := by
  intro n
  induction n with
  | zero => intro s h; omega
  | succ n ih =>
    intro s hn hO
    refine (phase1 hv _ s (Nat.lt_succ_self _) hO).bind fun s1 ⟨o1, l1, n1⟩ => ?_
    refine (phase2 hv _ s1 (Nat.lt_succ_self _) o1 l1).bind fun s2 ⟨o2, l2, n2, h2⟩ => ?_
    rcases find_pick (P := fun th => th.pc.pending = false) s2 with h | ⟨t, th, ht, hp⟩
    · refine .done fun th hth => ?_
      rcases h2 th hth with h' | h'
      · exact h'
      · rw [h th hth] at h'; cases h'
    · have hC : Calm cfg s2 := by
        refine ⟨o2, l2, fun b hb => ?_⟩
        have h3 := o2.inv.pend b
        have hT : 0 < T s2 b := List.count_pos_iff.mpr hb
        have hZ : Z s2 b = 0 := by simp [Z, o2.zom]
        have hR : R s2 b = 0 := by
          rcases Nat.eq_zero_or_pos (R s2 b) with h | h
          · exact h
          · obtain ⟨u, thu, hu, hm⟩ := (count_flatMap_pos _ b s2.threads).mp h
            exfalso
            rcases h2 thu (mem_of_getElem? hu) with h' | h'
            · rw [(isIdle_iff.mp h').1] at hm; simp [Pc.removing] at hm
            · cases hpc : thu.pc <;> simp [hpc, Pc.removing, Pc.pending] at hm h'
        by_cases hA : A cfg s2 b = 0
        · rw [if_pos ⟨hT, hA⟩] at h3; omega
        · omega
      exact Must.bind (phase3 hv hC ht (by simpa using hp)) fun s3 ⟨o3, n3⟩ => ih s3 (by omega) o3

theorem complete {cfg : Cfg V} (hv : cfg.Valid) (n : Nat) (s : State V) (hn : pendingNews s < n) (hO : Okay cfg s) :
    ∃ s', Runs cfg s s' ∧ Quiescent s' := (must_complete hv n s hn hO).runs

end Arc
