import Verif.Arc.Facts
/-! How each step changes the multiset of handles: the atomic specification is simulated step by step. -/
namespace Arc
variable {V : Type} [BEq V] [Hashable V]

/-- Change of the number of handles to `p` in one step. -/
theorem step_counts [LawfulHashable V] [EquivBEq V] {cfg : Cfg V} {s s' : State V} (hI : Inv cfg s)
    {act : Act V} (hsane : act.Sane) (h : step cfg s act = .ok s') (p : Addr) :
    match effect cfg s act with
    | none => A cfg s' p = A cfg s p
    | some (.intern _ _ q) => A cfg s' p = A cfg s p + [q].count p
    | some (.clone _ q) => A cfg s' p = A cfg s p + [q].count p
    | some (.drop _ q) => A cfg s' p + [q].count p = A cfg s p := by
  have hR := step_R h
  cases hR with
  | spawn => simp [effect, A, allHandles, Thread.owned, Pc.owned]
  | new t v dst th ht hid hown hd =>
    have h0 := isIdle_iff.mp hid
    have h1 := A_heap (cfg := cfg) (s' := { s.setThread t { pc := .newLoop { val := v, dst := dst, conv := none }, arg := some v } with
          handles := eraseAll s.handles (cfg.kids v) }) ht rfl p
    have h2 := hown p
    simp only [Thread.owned, Pc.owned, h0, count_eraseAll, State.setThread, List.count_append, List.count_nil,
      Option.toList] at h1
    simp only [effect]; simp only [State.setThread]; omega
  | clone t path th q x ht hid hp hx =>
    simp only [effect, hp]
    rw [A_eq, A_eq]
    simp only [storedHandles_setCount, List.count_cons, List.count_nil]; omega
  | read t path th q ht hid hp => simp [effect]
  | drop t q th ht hid hq =>
    have h0 := isIdle_iff.mp hid
    have h1 := A_heap (cfg := cfg) (s' := { s.setThread t { pc := .dropSub q } with handles := s.handles.erase q }) ht rfl p
    have h2 : 0 < s.handles.count q := List.count_pos_iff.mpr hq
    simp only [Thread.owned, Pc.owned, h0, count_erase', State.setThread, List.count_append, List.count_nil,
      Option.toList, List.count_cons, beq_iff_eq] at h1
    simp only [effect]; simp only [State.setThread]
    split at h1
    · subst_vars; omega
    · omega
  | len t lo up th ht hid =>
    have h0 := isIdle_iff.mp hid
    have h1 := A_heap (cfg := cfg) (s' := s.setThread t { pc := .lenScan lo up 0 }) ht rfl p
    simp only [Thread.owned, Pc.owned, h0, State.setThread, List.count_append, List.count_nil,
      Option.toList] at h1
    simp only [effect]; simp only [State.setThread]; omega
  | shrink t lo up th ht hid =>
    have h0 := isIdle_iff.mp hid
    have h1 := A_heap (cfg := cfg) (s' := s.setThread t { pc := .shrinkScan lo up }) ht rfl p
    simp only [Thread.owned, Pc.owned, h0, State.setThread, List.count_append, List.count_nil,
      Option.toList] at h1
    simp only [effect]; simp only [State.setThread]; omega
  | panicLoop t th c ht hpc =>
    have hnr := (hI.th t th ht).empty (by rw [hpc]; rfl)
    have h1 := A_heap (cfg := cfg) (s' := s.setThread t (unwindCall cfg c none none)) ht rfl p
    have ho : (unwindCall cfg c none none).pc.owned cfg = [] := by unfold unwindCall; cases c.conv <;> rfl
    simp only [Thread.owned, ho] at h1
    simp only [unwindCall, Pc.owned, hpc, hnr, State.setThread, List.count_append, List.count_nil,
      Option.toList] at h1
    simp only [effect]; simp only [State.setThread, unwindCall]; omega
  | panicEntry t th c b ht hpc =>
    have hnr := (hI.th t th ht).empty (by rw [hpc]; rfl)
    have h1 := A_heap (cfg := cfg) (s' := s.setThread t { pc := .dropFree b }) ht rfl p
    simp only [Thread.owned, Pc.owned, hpc, hnr, State.setThread, List.count_append, List.count_nil,
      Option.toList] at h1
    simp only [effect]; simp only [State.setThread]; omega
  | panicRemove t th b ht hpc =>
    have h1 := A_heap (cfg := cfg) (s' := { s.setThread t { th with pc := .idle } with zombies := b :: s.zombies }) ht rfl p
    simp only [Thread.owned, Pc.owned, hpc, State.setThread, List.count_append, List.count_nil] at h1
    simp only [effect]; simp only [State.setThread]; omega
  | panicShrink t th i m ht hpc hi hl =>
    have h1 := A_heap (cfg := cfg) (s' := s.setThread t { th with pc := .idle }) ht rfl p
    simp only [Thread.owned, Pc.owned, hpc, State.setThread, List.count_append, List.count_nil] at h1
    simp only [effect]; simp only [State.setThread]; omega
  | panicInsert t => exact absurd hsane (by simp [Act.Sane])
  | run t a th _ ht hr =>
    have hth := hI.th t th ht
    have hpi := hth.pc
    have hemp := hth.empty
    simp only [effect, ht]
    cases hr with
    | todo q qs hpc htodo =>
      simp only [hpc]
      have h1 := A_heap (cfg := cfg) (s' := s.setThread t { th with pc := .dropSub q, todo := qs }) ht rfl p
      simp only [Thread.owned, Pc.owned, hpc, htodo, State.setThread, List.count_append, List.count_nil,
        List.count_cons] at h1
      simp only [State.setThread]; omega
    | ret b hpc htodo hret =>
      simp only [hpc]
      have h1 := A_heap (cfg := cfg) (s' := { s.setThread t {} with handles := b :: s.handles }) ht rfl p
      simp only [Thread.owned, Pc.owned, hpc, htodo, hret, State.setThread, List.count_append, List.count_nil,
        List.count_cons, Option.toList] at h1
      simp only [State.setThread]; omega
    | found c b hpc hl hf =>
      simp only [hpc]
      have h1 := A_heap (cfg := cfg) (s' := (s.lock (cfg.shardOf c.val) t).setThread t { th with pc := .newFound c (cfg.shardOf c.val) b }) ht rfl p
      simp only [Thread.owned, Pc.owned, hpc, State.setThread, State.lock, List.count_append] at h1
      simp only [State.setThread, State.lock]; omega
    | cached c b hpc hl hf hc =>
      rw [hpc] at hpi
      have hd : cfg.kids c.val = [] := by
        refine hpi.2.2.1 ?_
        cases hd : c.dst with
        | true => rfl
        | false => have := hpi.2.1 hd; rw [hc] at this; cases this
      simp only [hpc]
      have h1 := A_heap (cfg := cfg) (s' := s.setThread t { th with pc := .newEntry { c with conv := none } b }) ht rfl p
      simp only [Thread.owned, Pc.owned, hpc, hd, State.setThread, List.count_append, List.count_nil] at h1
      simp only [State.setThread]; omega
    | missing c hpc hl hf hc =>
      simp only [hpc]
      have h1 := A_heap (cfg := cfg) (s' := s.setThread t { th with pc := .newAlloc c }) ht rfl p
      simp only [Thread.owned, Pc.owned, hpc, State.setThread, List.count_append] at h1
      simp only [State.setThread]; omega
    | hit c sh b x hpc hx hc =>
      simp only [hpc, hx, if_pos hc]
      have h1 := A_heap (cfg := cfg) (s' := { s with heap := setCount s.heap b (cfg.inc x.count) }.setThread t { th with pc := .newHit c sh b }) ht rfl p
      simp only [Thread.owned, Pc.owned, hpc, State.setThread, List.count_append, List.count_cons,
        storedHandles_setCount] at h1
      simp only [State.setThread, List.count_cons, List.count_nil]; omega
    | dying c sh b x hpc hx hc =>
      simp only [hpc, hx, hc, ne_eq, not_true_eq_false, if_false]
      have h1 := A_heap (cfg := cfg) (s' := { s with heap := setCount s.heap b (cfg.inc 0) }.setThread t { th with pc := .newUndo c sh b }) ht rfl p
      simp only [Thread.owned, Pc.owned, hpc, State.setThread, List.count_append, List.count_cons,
        storedHandles_setCount] at h1
      simp only [State.setThread]; omega
    | undo c sh b x hpc hx =>
      simp only [hpc]
      have h1 := A_heap (cfg := cfg) (s' := { s with heap := setCount s.heap b (cfg.dec x.count) }.setThread t { th with pc := .newRelease c sh }) ht rfl p
      simp only [Thread.owned, Pc.owned, hpc, State.setThread, List.count_append,
        storedHandles_setCount] at h1
      simp only [State.setThread]; omega
    | release c sh hpc =>
      simp only [hpc]
      have h1 := A_heap (cfg := cfg) (s' := (s.unlock sh).setThread t { th with pc := .newLoop c }) ht rfl p
      simp only [Thread.owned, Pc.owned, hpc, State.setThread, State.unlock, List.count_append] at h1
      simp only [State.setThread, State.unlock]; omega
    | hitRet c sh b hpc =>
      rw [hpc] at hemp
      have hnr := hemp rfl
      simp only [hpc]
      have h1 := A_heap (cfg := cfg) (s' := (s.unlock sh).setThread t (unwindCall cfg c (some b) th.arg)) ht rfl p
      have ho : (unwindCall cfg c (some b) th.arg).pc.owned cfg = [] := by
        unfold unwindCall; cases c.conv <;> rfl
      simp only [Thread.owned, ho] at h1
      simp only [unwindCall, Pc.owned, hpc, hnr, State.setThread, State.unlock, List.count_append, List.count_nil,
        Option.toList, List.count_cons] at h1
      simp only [State.setThread, State.unlock, unwindCall]; omega
    | alloc c hpc h0 hk =>
      simp only [hpc]
      have h1 := A_heap (cfg := cfg) (s' := { s with heap := (a, { count := 1, data := c.val }) :: s.heap }.setThread t { th with pc := .newEntry c a }) ht rfl p
      simp only [Thread.owned, Pc.owned, hpc, State.setThread, List.count_append, List.count_nil,
        storedHandles, List.flatMap_cons] at h1
      simp only [State.setThread]; omega
    | vacant c b x hpc hx hl hf =>
      simp only [hpc]
      have h1 := A_heap (cfg := cfg) (s' := (s.lock (cfg.shardOf x.data) t).setThread t { th with pc := .newVacant c (cfg.shardOf x.data) b }) ht rfl p
      simp only [Thread.owned, Pc.owned, hpc, State.setThread, State.lock, List.count_append] at h1
      simp only [State.setThread, State.lock]; omega
    | occupied c b q x hpc hx hl hf =>
      simp only [hpc]
      have h1 := A_heap (cfg := cfg) (s' := (s.lock (cfg.shardOf x.data) t).setThread t { th with pc := .newOccupied c (cfg.shardOf x.data) b }) ht rfl p
      simp only [Thread.owned, Pc.owned, hpc, State.setThread, State.lock, List.count_append] at h1
      simp only [State.setThread, State.lock]; omega
    | insert c sh b hpc =>
      simp only [hpc]
      have h1 := A_heap (cfg := cfg) (s' := { s with table := b :: s.table }.setThread t { th with pc := .newInserted c sh b }) ht rfl p
      simp only [Thread.owned, Pc.owned, hpc, State.setThread, List.count_append, List.count_nil] at h1
      simp only [State.setThread]; omega
    | inserted c sh b hpc =>
      rw [hpc] at hemp
      have hnr := hemp rfl
      simp only [hpc]
      have h1 := A_heap (cfg := cfg) (s' := (s.unlock sh).setThread t { pc := .idle, todo := [], ret := some b, arg := th.arg }) ht rfl p
      simp only [Thread.owned, Pc.owned, hpc, hnr, State.setThread, State.unlock, List.count_append, List.count_nil,
        Option.toList] at h1
      simp only [State.setThread, State.unlock]; omega
    | cache c sh b hpc hd =>
      rw [hpc] at hpi
      have hkd : cfg.kids c.val = [] := hpi.1.2.2.1 hd
      simp only [hpc]
      have h1 := A_heap (cfg := cfg) (s' := (s.unlock sh).setThread t { th with pc := .newLoop { c with conv := some b } }) ht rfl p
      simp only [Thread.owned, Pc.owned, hpc, hkd, State.setThread, State.unlock, List.count_append, List.count_nil] at h1
      simp only [State.setThread, State.unlock]; omega
    | intoKey c sh b hpc hd =>
      simp only [hpc]
      have h1 := A_heap (cfg := cfg) (s' := (s.unlock sh).setThread t { th with pc := .newUnbox c b }) ht rfl p
      simp only [Thread.owned, Pc.owned, hpc, State.setThread, State.unlock, List.count_append, List.count_nil] at h1
      simp only [State.setThread, State.unlock]; omega
    | unbox c b x hpc hx =>
      simp only [hpc]
      have h1 := A_heap (cfg := cfg) (s' := { s with heap := Arc.free s.heap b }.setThread t { th with pc := .newLoop { c with val := x.data } }) ht rfl p
      have h2 := storedHandles_free cfg p s.heap b x hx hI.nd
      simp only [Thread.owned, Pc.owned, hpc, State.setThread, List.count_append, List.count_nil] at h1
      simp only [State.setThread]; omega
    | subLast b x hpc hx hc =>
      simp only [hpc]
      have h1 := A_heap (cfg := cfg) (s' := { s with heap := setCount s.heap b (cfg.dec x.count) }.setThread t { th with pc := .dropRemove b }) ht rfl p
      simp only [Thread.owned, Pc.owned, hpc, State.setThread, List.count_append, List.count_nil,
        storedHandles_setCount] at h1
      simp only [State.setThread]; omega
    | sub b x hpc hx hc =>
      simp only [hpc]
      have h1 := A_heap (cfg := cfg) (s' := { s with heap := setCount s.heap b (cfg.dec x.count) }.setThread t { th with pc := .idle }) ht rfl p
      simp only [Thread.owned, Pc.owned, hpc, State.setThread, List.count_append, List.count_nil,
        storedHandles_setCount] at h1
      simp only [State.setThread]; omega
    | remove b q x hpc hx hl hf =>
      simp only [hpc]
      have h1 := A_heap (cfg := cfg) (s' := { s with table := s.table.erase q }.setThread t { th with pc := .dropFree q }) ht rfl p
      simp only [Thread.owned, Pc.owned, hpc, State.setThread, List.count_append, List.count_nil] at h1
      simp only [State.setThread]; omega
    | removeNone b x hpc hx hl hf =>
      simp only [hpc]
      have h1 := A_heap (cfg := cfg) (s' := s.setThread t { th with pc := .idle }) ht rfl p
      simp only [Thread.owned, Pc.owned, hpc, State.setThread, List.count_append, List.count_nil] at h1
      simp only [State.setThread]; omega
    | free b x hpc hx =>
      simp only [hpc]
      have h1 := A_heap (cfg := cfg) (s' := { s with heap := Arc.free s.heap b }.setThread t { th with pc := .idle, todo := cfg.kids x.data ++ th.todo }) ht rfl p
      have h2 := storedHandles_free cfg p s.heap b x hx hI.nd
      simp only [Thread.owned, Pc.owned, hpc, State.setThread, List.count_append, List.count_nil] at h1
      simp only [State.setThread]; omega
    | lenScan i m acc hpc hi hl =>
      simp only [hpc]
      have h1 := A_heap (cfg := cfg) (s' := s.setThread t { th with pc := .lenScan (i + 1) m (acc + shardLen cfg s i) }) ht rfl p
      simp only [Thread.owned, Pc.owned, hpc, State.setThread, List.count_append, List.count_nil] at h1
      simp only [State.setThread]; omega
    | lenEnd i m acc hpc hi =>
      simp only [hpc]
      have h1 := A_heap (cfg := cfg) (s' := s.setThread t { th with pc := .lenDone acc }) ht rfl p
      simp only [Thread.owned, Pc.owned, hpc, State.setThread, List.count_append, List.count_nil] at h1
      simp only [State.setThread]; omega
    | lenDone n hpc =>
      simp only [hpc]
      have h1 := A_heap (cfg := cfg) (s' := s.setThread t { th with pc := .idle }) ht rfl p
      simp only [Thread.owned, Pc.owned, hpc, State.setThread, List.count_append, List.count_nil] at h1
      simp only [State.setThread]; omega
    | shrink i m hpc hi hl =>
      simp only [hpc]
      have h1 := A_heap (cfg := cfg) (s' := s.setThread t { th with pc := .shrinkScan (i + 1) m }) ht rfl p
      simp only [Thread.owned, Pc.owned, hpc, State.setThread, List.count_append, List.count_nil] at h1
      simp only [State.setThread]; omega
    | shrinkEnd i m hpc hi =>
      simp only [hpc]
      have h1 := A_heap (cfg := cfg) (s' := s.setThread t { th with pc := .idle }) ht rfl p
      simp only [Thread.owned, Pc.owned, hpc, State.setThread, List.count_append, List.count_nil] at h1
      simp only [State.setThread]; omega

/-- One step of the model is at most one atomic operation of the specification. -/
theorem step_abs [LawfulHashable V] [EquivBEq V] {cfg : Cfg V} {s s' : State V} (hI : Inv cfg s)
    {act : Act V} (hsane : act.Sane) (h : step cfg s act = .ok s') :
    match effect cfg s act with
    | none => (abs cfg s).stutters (abs cfg s')
    | some o => (abs cfg s).does o (abs cfg s') := by
  have same : (abs cfg s).sameVals (abs cfg s') :=
    fun p hp _ => step_data hI hsane h (hI.in_table hp)
  have hcount := step_counts hI hsane h
  cases he : effect cfg s act with
  | none =>
    simp only [he] at hcount ⊢
    exact ⟨same, List.perm_iff_count.mpr hcount⟩
  | some o =>
    simp only [he] at hcount ⊢
    refine ⟨same, ?_⟩
    cases o with
    | clone t q =>
      simp only at hcount ⊢
      refine ⟨?_, List.perm_iff_count.mpr fun p => ?_⟩
      · have hR := step_R h
        cases hR <;> simp only [effect] at he <;> first | (cases he; done) | skip
        · rename_i hp hx
          simp only [hp] at he; cases he
          exact List.count_pos_iff.mp ((borrow_ok hI _).2 _ hp)
        · rename_i ht hr
          simp only [ht] at he
          split at he <;> first | (cases he; done) | skip
          split at he <;> first | (cases he; done) | skip
          split at he <;> cases he
      · have := hcount p
        simp only [abs, A] at *
        rw [this, List.count_cons, List.count_cons]; simp
    | drop t q =>
      simp only at hcount ⊢
      refine List.perm_iff_count.mpr fun p => ?_
      have := hcount p
      simp only [abs, A] at *
      rw [← this, List.count_cons, List.count_cons]; simp
    | intern t v q =>
      simp only at hcount ⊢
      refine ⟨List.perm_iff_count.mpr fun p => ?_, ?_⟩
      · have := hcount p
        simp only [abs, A] at *
        rw [this, List.count_cons, List.count_cons]; simp
      · have hR := step_R h
        cases hR with
        | clone t path th p x ht hid hp hx => simp [effect, hp] at he
        | run t a th _ ht hr =>
          simp only [effect, ht] at he
          have hpi := (hI.th t th ht).pc
          cases hr with
          | hit c sh b x hpc hx hc =>
            simp only [hpc, hx, if_pos hc, Option.some.injEq] at he
            injection he with e1 e2 e3
            subst e1 e2 e3
            rw [hpc] at hpi
            obtain ⟨_, h2, h3, y, h4, h5⟩ := hpi
            rw [hx] at h4; cases h4
            left
            refine ⟨x.data, ?_, by simp [abs, deref, hx], h5⟩
            have hU := hI.no_undo ht hx (by rw [hpc, shardOf_congr h5, ← h2]; rfl) (by simp [hpc, Pc.undoing])
            have := hI.cnt b x (List.count_pos_iff.mpr h3) hx
            exact List.count_pos_iff.mp (by simp only [A] at this; simp only [abs]; omega)
          | insert c sh b hpc =>
            simp only [hpc, Option.some.injEq] at he
            injection he with e1 e2 e3
            subst e1 e2 e3
            rw [hpc] at hpi
            obtain ⟨_, _, h3, _, h5⟩ := hpi
            right
            refine ⟨?_, ?_, by simp [abs, deref, State.setThread, h3]⟩
            · intro p w hp hw
              obtain ⟨y, hy, rfl⟩ := deref_get hw
              exact h5 p y (hI.in_table hp) hy
            · intro hb
              exact hI.not_priv (hI.in_table hb) ht (by simp [hpc, Pc.priv])
          | dying c sh b x hpc hx hc => simp [hpc, hx, hc] at he
          | _ => simp_all
        | _ => simp [effect] at he

end Arc
