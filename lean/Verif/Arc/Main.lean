import Verif.Arc.Step2
/-! Every step from a state satisfying the invariant is defined (no access to freed memory) and preserves
the invariant. -/
namespace Arc
variable {V : Type} [BEq V] [Hashable V]

theorem find_some {s : State V} {v : V} {b : Addr} (h : find s v = some b) : matches' s b v := by
  have h1 := List.mem_of_find?_eq_some h
  have h2 := List.find?_some h
  refine ⟨h1, ?_⟩
  cases hg : get s.heap b with
  | none => simp [hg] at h2
  | some x => simp [hg, keyEq] at h2; exact ⟨x, rfl, h2.2⟩

theorem find_none [LawfulHashable V] {s : State V} {v : V} (h : find s v = none) :
    ∀ r x, r ∈ s.table → get s.heap r = some x → (x.data == v) = false := by
  intro r x hr hx
  have := List.find?_eq_none.mp h r hr
  cases hc : (x.data == v)
  · rfl
  · exfalso; apply this; simp [hx, keyEq, hc, LawfulHashable.hash_eq _ _ hc]

theorem Inv.deref {cfg : Cfg V} {s : State V} (hI : Inv cfg s) {p : Addr} (h : 0 < A cfg s p) :
    ∃ x, get s.heap p = some x :=
  exists_get (hI.mem_keys (List.count_pos_iff.mp (hI.live p h)))

omit [BEq V] [Hashable V] in
theorem stored_A {cfg : Cfg V} {s : State V} {p q : Addr} {x : Cell V} (hx : get s.heap p = some x)
    (hq : q ∈ cfg.kids x.data) : 0 < A cfg s q := by
  have : 0 < (storedHandles cfg s.heap).count q :=
    List.count_pos_iff.mpr (List.mem_flatMap.mpr ⟨(p, x), mem_of_get hx, hq⟩)
  rw [A_eq]; omega

theorem follow_ok {cfg : Cfg V} {s : State V} (hI : Inv cfg s) (path : List Addr) :
    ∀ p, 0 < A cfg s p → follow cfg s p path ≠ .ub ∧
      ∀ q, follow cfg s p path = .ok q → 0 < A cfg s q := by
  induction path with
  | nil =>
    intro p hp
    obtain ⟨x, hx⟩ := hI.deref hp
    simp [follow, hx]
    exact List.count_pos_iff.mp hp
  | cons k path ih =>
    intro p hp
    obtain ⟨x, hx⟩ := hI.deref hp
    simp only [follow, hx]
    split
    · exact ih k (stored_A hx (by assumption))
    · simp

theorem borrow_ok {cfg : Cfg V} {s : State V} (hI : Inv cfg s) (path : List Addr) :
    borrow cfg s path ≠ .ub ∧ ∀ q, borrow cfg s path = .ok q → 0 < A cfg s q := by
  cases path with
  | nil => simp [borrow]
  | cons p path =>
    simp only [borrow]
    split
    · refine follow_ok hI path p ?_
      rw [A_eq]
      have : 0 < s.handles.count p := List.count_pos_iff.mpr (by assumption)
      omega
    · simp

theorem Inv.small_count {cfg : Cfg V} {s : State V} (hI : Inv cfg s) (p : Addr) : A cfg s p < cfg.W :=
  hI.small p

/-- Two threads cannot hold the same shard lock. -/
theorem Inv.excl {cfg : Cfg V} {s : State V} (hI : Inv cfg s) {t u : Tid} {th thu : Thread V} {i : Nat}
    (ht : s.threads[t]? = some th) (hu : s.threads[u]? = some thu)
    (h1 : th.pc.holds = some i) (h2 : thu.pc.holds = some i) : t = u := by
  have a := (hI.lk i t).mpr ⟨th, ht, h1⟩
  have b := (hI.lk i u).mpr ⟨thu, hu, h2⟩
  rw [a] at b; exact Option.some.inj b

/-- If a thread holding the shard lock of `b` is not itself undoing, nobody is undoing on `b`. -/
theorem Inv.no_undo [LawfulHashable V] {cfg : Cfg V} {s : State V} (hI : Inv cfg s) {t : Tid} {th : Thread V}
    (ht : s.threads[t]? = some th) {b : Addr} {x : Cell V} (hx : get s.heap b = some x)
    (hh : th.pc.holds = some (cfg.shardOf x.data)) (hn : b ∉ th.pc.undoing) : U s b = 0 := by
  rcases Nat.eq_zero_or_pos (U s b) with h | h
  · exact h
  · obtain ⟨u, thu, hu, hb⟩ := (count_flatMap_pos _ b s.threads).mp h
    have hb0 := hb
    have hi := (hI.th u thu hu).pc
    cases hpu : thu.pc <;> simp [hpu, Pc.undoing] at hb
    rename_i c sh r
    subst hb
    rw [hpu] at hi
    obtain ⟨_, h2, h3, y, h4, h5⟩ := hi
    rw [hx] at h4; cases h4
    have : t = u := hI.excl ht hu hh (by rw [hpu, shardOf_congr h5, ← h2]; rfl)
    subst this
    rw [ht] at hu; cases hu
    exact absurd hb0 hn

/-- If the thread is undoing on `b`, the transient increment is the only one. -/
theorem Inv.one_undo [LawfulHashable V] {cfg : Cfg V} {s : State V} (hI : Inv cfg s) {t : Tid} {th : Thread V}
    (ht : s.threads[t]? = some th) {c : Call V} {sh : Nat} {b : Addr} (hpc : th.pc = .newUndo c sh b) :
    U s b = 1 := by
  have hi := (hI.th t th ht).pc
  rw [hpc] at hi
  obtain ⟨_, h2, h3, y, h4, h5⟩ := hi
  have h1 := undoing_set s.threads ({} : Thread V) ht b
  have h0 : ((s.threads.set t {}).flatMap (fun th => th.pc.undoing)).count b = 0 := by
    rcases Nat.eq_zero_or_pos (((s.threads.set t {}).flatMap (fun th => th.pc.undoing)).count b) with h | h
    · exact h
    · obtain ⟨u, thu, hu, hb⟩ := (count_flatMap_pos _ b _).mp h
      rw [set_getElem? _ _ _ _ _ ht] at hu
      by_cases hut : u = t
      · rw [if_pos hut] at hu; cases hu; simp [Pc.undoing] at hb
      · rw [if_neg hut] at hu
        have hi' := (hI.th u thu hu).pc
        cases hpu : thu.pc <;> simp [hpu, Pc.undoing] at hb
        rename_i c' sh' r
        subst hb
        rw [hpu] at hi'
        obtain ⟨_, h2', h3', y', h4', h5'⟩ := hi'
        rw [h4] at h4'; cases h4'
        have : t = u := hI.excl ht hu (i := cfg.shardOf y.data)
          (by rw [hpc, shardOf_congr h5, ← h2]; rfl) (by rw [hpu, shardOf_congr h5', ← h2']; rfl)
        exact absurd this.symm hut
  have h2 : th.pc.undoing.count b = 1 := by rw [hpc]; simp [Pc.undoing]
  have h3 : ({} : Thread V).pc.undoing.count b = 0 := by simp [Pc.undoing]
  simp only [U]
  omega

/-- Result of an action in a state satisfying the invariant: never `ub`, and the invariant is kept. -/
def Kept (cfg : Cfg V) (r : Res (State V)) : Prop :=
  r ≠ .ub ∧ ∀ s', r = .ok s' → Small cfg s' → Inv cfg s'

theorem kept_ok {cfg : Cfg V} {s' : State V} (h : Small cfg s' → Inv cfg s') : Kept cfg (.ok s') :=
  ⟨by simp, fun s'' e hS => by cases e; exact h hS⟩
theorem kept_blocked {cfg : Cfg V} : Kept cfg (.blocked : Res (State V)) := ⟨by simp, fun _ e => by cases e⟩

omit [BEq V] [Hashable V] in
theorem isIdle_iff {th : Thread V} : th.isIdle = true ↔ th.pc = .idle ∧ th.todo = [] ∧ th.ret = none := by
  simp only [Thread.isIdle, Bool.and_eq_true, List.isEmpty_iff, Option.isNone_iff_eq_none]
  constructor
  · rintro ⟨⟨h1, h2⟩, h3⟩
    refine ⟨?_, h2, h3⟩
    split at h1 <;> simp_all
  · rintro ⟨h1, h2, h3⟩; simp [h1, h2, h3]

theorem isNone_of_not {o : Option Tid} (h : ¬ o.isSome = true) : o = none := by
  cases o <;> simp_all

theorem run_kept [LawfulHashable V] [EquivBEq V] {cfg : Cfg V} (hv : cfg.Valid) {s : State V} {t : Tid}
    {th : Thread V} (hI : Inv cfg s) (ht : s.threads[t]? = some th) (a : Addr) :
    Kept cfg (run cfg s t th a) := by
  have hth := hI.th t th ht
  have hpi := hth.pc
  have hemp := hth.empty
  have hW := hv.W_ge
  unfold run
  cases hpc : th.pc with
  | idle =>
    cases htodo : th.todo with
    | cons p ps =>
      simp only
      refine kept_ok fun _ => inv_thread hI ht rfl rfl rfl rfl ?_ ?_ ?_ ?_ (hI.locks_same ht ?_) ⟨?_, ?_, ?_⟩
      · intro q
        simp only [Thread.owned, Pc.owned, hpc, htodo, State.setThread, List.count_append, List.count_cons,
          List.count_nil]
        omega
      · simp [Pc.priv, hpc]
      · simp [Pc.undoing, hpc]
      · simp [Pc.removing, hpc]
      · simp [Pc.holds, hpc]
      · exact True.intro
      · simp [Pc.dropping]
      · exact hth.ret
    | nil =>
      cases hret : th.ret with
      | none => exact kept_blocked
      | some b =>
        simp only
        refine kept_ok fun _ => inv_thread (th' := {}) hI ht rfl rfl rfl rfl ?_ ?_ ?_ ?_ (hI.locks_same ht ?_) ⟨?_, ?_, ?_⟩
        · intro q
          simp only [Thread.owned, Pc.owned, hpc, htodo, hret, List.count_append, List.count_cons,
            List.count_nil, Option.toList]
          omega
        · simp [Pc.priv, hpc]
        · simp [Pc.undoing, hpc]
        · simp [Pc.removing, hpc]
        · simp [Pc.holds, hpc]
        · exact True.intro
        · simp
        · intro b hb; cases hb
  | newLoop c =>
    rw [hpc] at hpi hemp
    have hnr := hemp rfl
    simp only
    by_cases hl : (s.locks (cfg.shardOf c.val)).isSome
    · rw [if_pos hl]; exact kept_blocked
    rw [if_neg hl, if_neg (by simp [hI.tableOk])]
    have hfree := isNone_of_not hl
    cases hf : find s c.val with
    | some b =>
      refine kept_ok fun _ => inv_thread hI ht rfl rfl rfl rfl ?_ ?_ ?_ ?_
        (hI.locks_acquire ht (by rw [hpc]; rfl) hfree rfl) ⟨?_, ?_, ?_⟩
      · intro q; simp [Thread.owned, Pc.owned, hpc, State.setThread, State.lock]
      · simp [Pc.priv, hpc]
      · simp [Pc.undoing, hpc]
      · simp [Pc.removing, hpc]
      · exact ⟨hpi, rfl, find_some hf⟩
      · intro _; exact hnr
      · intro r hr; rw [hnr.2] at hr; cases hr
    | none =>
      simp only
      cases hc : c.conv with
      | some b =>
        refine kept_ok fun _ => inv_thread hI ht rfl rfl rfl rfl ?_ ?_ ?_ ?_ (hI.locks_same ht ?_) ⟨?_, ?_, ?_⟩
        · intro q
          have hd : c.dst = true := by
            cases hd : c.dst with
            | true => rfl
            | false => have := hpi.2.1 hd; rw [hc] at this; cases this
          simp [Thread.owned, Pc.owned, hpc, State.setThread, hpi.2.2.1 hd]
        · simp [Pc.priv, hpc, hc]
        · simp [Pc.undoing, hpc]
        · simp [Pc.removing, hpc]
        · simp [Pc.holds, hpc]
        · exact ⟨⟨hpi.1, fun _ => rfl, hpi.2.2.1, fun b hb => by cases hb⟩, rfl, hpi.2.2.2 b hc⟩
        · intro _; exact hnr
        · intro r hr; rw [hnr.2] at hr; cases hr
      | none =>
        refine kept_ok fun _ => inv_thread hI ht rfl rfl rfl rfl ?_ ?_ ?_ ?_ (hI.locks_same ht ?_) ⟨?_, ?_, ?_⟩
        · intro q; simp [Thread.owned, Pc.owned, hpc, State.setThread]
        · simp [Pc.priv, hpc, hc]
        · simp [Pc.undoing, hpc]
        · simp [Pc.removing, hpc]
        · simp [Pc.holds, hpc]
        · exact ⟨hpi, hc⟩
        · intro _; exact hnr
        · intro r hr; rw [hnr.2] at hr; cases hr
  | newFound c sh b =>
    rw [hpc] at hpi hemp
    have hnr := hemp rfl
    obtain ⟨hcall, hsh, hmem, x, hx, hxv⟩ := hpi
    have hTb : 0 < T s b := List.count_pos_iff.mpr hmem
    have hU0 : U s b = 0 := hI.no_undo ht hx (by rw [hpc, shardOf_congr hxv, ← hsh]; rfl) (by simp [hpc, Pc.undoing])
    have hcnt := hI.cnt b x hTb hx
    have hpend := hI.pend b
    have hsm := hI.small_count b
    have hconv : ∀ r, c.conv = some r → r ≠ b := by
      rintro r hr rfl
      exact hI.not_priv hmem ht (by simp [hpc, Pc.priv, hr])
    simp only [hx]
    by_cases hc : x.count ≠ 0
    · rw [if_pos hc]
      refine kept_ok fun hS => ?_
      refine inv_count (b := b) (n := cfg.inc x.count) hI ht hmem rfl rfl rfl rfl ?_ ?_ ?_ ?_ (A cfg s b + 1) 0 (R s b) ?_ ?_ ?_ ?_ ?_ ?_ (hI.locks_same ht ?_) hS ⟨?_, ?_, ?_⟩
      · intro q hq
        simp [Thread.owned, Pc.owned, hpc, State.setThread, List.count_cons, Ne.symm hq]
      · simp [Pc.priv, hpc]
      · simp [Pc.undoing, hpc]
      · simp [Pc.removing, hpc]
      · simp only [Thread.owned, Pc.owned, hpc, State.setThread, List.count_append, List.count_cons_self, List.count_nil] <;> omega
      · simp only [Pc.undoing, hpc, List.count_cons_self, List.count_nil] <;> omega
      · simp only [Pc.removing, hpc, List.count_cons_self, List.count_nil] <;> omega
      · intro _; rw [inc_eq (by omega)]; omega
      · split at hpend <;> split <;> omega
      · omega
      · simp [Pc.holds, hpc]
      · refine ⟨callOk_frame (s := s) ?_ hcall, hsh, hmem, ?_⟩
        · intro r hr; simp only [State.setThread]; rw [get_setCount, if_neg (hconv r hr)]
        · simp only [State.setThread]; rw [get_setCount, if_pos rfl, hx]; exact ⟨_, rfl, hxv⟩
      · intro _; exact hnr
      · intro r hr; rw [hnr.2] at hr; cases hr
    · rw [if_neg hc]
      have hc0 : x.count = 0 := by omega
      refine kept_ok fun hS => ?_
      refine inv_count (b := b) (n := cfg.inc x.count) hI ht hmem rfl rfl rfl rfl ?_ ?_ ?_ ?_ (A cfg s b) 1 (R s b) ?_ ?_ ?_ ?_ ?_ ?_ (hI.locks_same ht ?_) hS ⟨?_, ?_, ?_⟩
      · intro q hq
        simp [Thread.owned, Pc.owned, hpc, State.setThread]
      · simp [Pc.priv, hpc]
      · intro q hq; simp [Pc.undoing, hpc, Ne.symm hq]
      · simp [Pc.removing, hpc]
      · simp only [Thread.owned, Pc.owned, hpc, State.setThread, List.count_append, List.count_cons_self, List.count_nil] <;> omega
      · simp only [Pc.undoing, hpc, List.count_cons_self, List.count_nil] <;> omega
      · simp only [Pc.removing, hpc, List.count_cons_self, List.count_nil] <;> omega
      · intro _; rw [inc_eq (by omega)]; omega
      · split at hpend <;> split <;> omega
      · omega
      · simp [Pc.holds, hpc]
      · refine ⟨callOk_frame (s := s) ?_ hcall, hsh, hmem, ?_⟩
        · intro r hr; simp only [State.setThread]; rw [get_setCount, if_neg (hconv r hr)]
        · simp only [State.setThread]; rw [get_setCount, if_pos rfl, hx]; exact ⟨_, rfl, hxv⟩
      · intro _; exact hnr
      · intro r hr; rw [hnr.2] at hr; cases hr
  | newUndo c sh b =>
    have hU1 := hI.one_undo ht hpc
    rw [hpc] at hpi hemp
    have hnr := hemp rfl
    obtain ⟨hcall, hsh, hmem, x, hx, hxv⟩ := hpi
    have hTb : 0 < T s b := List.count_pos_iff.mpr hmem
    have hcnt := hI.cnt b x hTb hx
    have hpend := hI.pend b
    have hA0 := (hI.undo b (by omega)).2
    have hconv : ∀ r, c.conv = some r → r ≠ b := by
      rintro r hr rfl
      exact hI.not_priv hmem ht (by simp [hpc, Pc.priv, hr])
    simp only [hx]
    have one : [b].count b = 1 := by simp
    refine kept_ok fun hS => ?_
    refine inv_count (b := b) (n := cfg.dec x.count) hI ht hmem rfl rfl rfl rfl ?_ ?_ ?_ ?_ (A cfg s b) 0 (R s b) ?_ ?_ ?_ ?_ ?_ ?_ (hI.locks_same ht ?_) hS ⟨?_, ?_, ?_⟩
    · intro q hq
      simp [Thread.owned, Pc.owned, hpc, State.setThread]
    · simp [Pc.priv, hpc]
    · intro q hq; simp [Pc.undoing, hpc, Ne.symm hq]
    · simp [Pc.removing, hpc]
    · simp only [Thread.owned, Pc.owned, hpc, State.setThread, List.count_append, List.count_cons_self, List.count_nil] <;> omega
    · simp only [Pc.undoing, hpc, List.count_cons_self, List.count_nil] <;> omega
    · simp only [Pc.removing, hpc, List.count_cons_self, List.count_nil] <;> omega
    · intro _; rw [dec_eq (by omega) (by omega)]; omega
    · split at hpend <;> split <;> omega
    · omega
    · simp [Pc.holds, hpc]
    · refine ⟨callOk_frame (s := s) ?_ hcall, hsh⟩
      intro r hr; simp only [State.setThread]; rw [get_setCount, if_neg (hconv r hr)]
    · intro _; exact hnr
    · intro r hr; rw [hnr.2] at hr; cases hr
  | newRelease c sh =>
    rw [hpc] at hpi hemp
    have hnr := hemp rfl
    refine kept_ok fun _ => inv_thread hI ht rfl rfl rfl rfl ?_ ?_ ?_ ?_
        (hI.locks_release ht (by rw [hpc]; rfl) rfl) ⟨?_, ?_, ?_⟩
    · intro q; simp [Thread.owned, Pc.owned, hpc, State.setThread, State.unlock]
    · simp [Pc.priv, hpc]
    · simp [Pc.undoing, hpc]
    · simp [Pc.removing, hpc]
    · exact hpi.1
    · intro _; exact hnr
    · intro r hr; rw [hnr.2] at hr; cases hr
  | newHit c sh b =>
    rw [hpc] at hpi hemp
    have hnr := hemp rfl
    refine kept_ok fun _ => inv_thread hI ht rfl rfl rfl rfl ?_ ?_ ?_ ?_
        (hI.locks_release ht (by rw [hpc]; rfl) ?_) ⟨?_, ?_, ?_⟩
    · intro q
      have ho : (unwindCall cfg c (some b) th.arg).pc.owned cfg = [] := by
        unfold unwindCall; cases c.conv <;> rfl
      simp only [Thread.owned, ho]
      simp only [unwindCall, Pc.owned, hpc, hnr, State.setThread, State.unlock, List.count_append, List.count_cons,
        List.count_nil, Option.toList]
      omega
    · unfold unwindCall; cases hcv : c.conv <;> simp [Pc.priv, hpc, hcv]
    · unfold unwindCall; cases hcv : c.conv <;> simp [Pc.undoing, hpc]
    · unfold unwindCall; cases hcv : c.conv <;> simp [Pc.removing, hpc]
    · unfold unwindCall; cases hcv : c.conv <;> simp [Pc.holds]
    · unfold unwindCall; cases hcv : c.conv <;> exact True.intro
    · unfold unwindCall; cases hcv : c.conv <;> simp [Pc.dropping]
    · intro r hr
      simp only [unwindCall, Option.some.injEq] at hr
      subst hr
      exact ⟨c.val, hpi.1.1, hpi.2.2⟩
  | newAlloc c =>
    simp only
    by_cases ha : a = 0 ∨ a ∈ keys s.heap
    · rw [if_pos ha]; exact kept_blocked
    · rw [if_neg ha]
      simp only [not_or] at ha
      exact kept_ok fun _ => inv_alloc hI ht hpc ha.1 ha.2
  | newEntry c b =>
    rw [hpc] at hpi hemp
    have hnr := hemp rfl
    obtain ⟨hcall, hconv, hgb⟩ := hpi
    simp only [hgb]
    by_cases hl : (s.locks (cfg.shardOf c.val)).isSome
    · rw [if_pos hl]; exact kept_blocked
    rw [if_neg hl, if_neg (by simp [hI.tableOk])]
    have hfree := isNone_of_not hl
    cases hf : find s c.val with
    | some r =>
      refine kept_ok fun _ => inv_thread hI ht rfl rfl rfl rfl ?_ ?_ ?_ ?_
        (hI.locks_acquire ht (by rw [hpc]; rfl) hfree rfl) ⟨?_, ?_, ?_⟩
      · intro q; simp [Thread.owned, Pc.owned, hpc, State.setThread, State.lock]
      · simp [Pc.priv, hpc]
      · simp [Pc.undoing, hpc]
      · simp [Pc.removing, hpc]
      · exact ⟨hcall, hconv, hgb, rfl⟩
      · intro _; exact hnr
      · intro r hr; rw [hnr.2] at hr; cases hr
    | none =>
      refine kept_ok fun _ => inv_thread hI ht rfl rfl rfl rfl ?_ ?_ ?_ ?_
        (hI.locks_acquire ht (by rw [hpc]; rfl) hfree rfl) ⟨?_, ?_, ?_⟩
      · intro q; simp [Thread.owned, Pc.owned, hpc, State.setThread, State.lock]
      · simp [Pc.priv, hpc]
      · simp [Pc.undoing, hpc]
      · simp [Pc.removing, hpc]
      · exact ⟨hcall, hconv, hgb, rfl, find_none hf⟩
      · intro _; exact hnr
      · intro r hr; rw [hnr.2] at hr; cases hr
  | newVacant c sh b =>
    exact kept_ok fun hS => inv_insert hI ht hpc hS
  | newInserted c sh b =>
    rw [hpc] at hpi hemp
    have hnr := hemp rfl
    refine kept_ok fun _ => inv_thread hI ht rfl rfl rfl rfl ?_ ?_ ?_ ?_
        (hI.locks_release ht (by rw [hpc]; rfl) rfl) ⟨?_, ?_, ?_⟩
    · intro q
      simp only [Thread.owned, Pc.owned, hpc, hnr, State.setThread, State.unlock, List.count_append,
        List.count_nil, Option.toList]
      omega
    · simp [Pc.priv, hpc]
    · simp [Pc.undoing, hpc]
    · simp [Pc.removing, hpc]
    · exact True.intro
    · simp [Pc.dropping]
    · intro r hr; simp only [Option.some.injEq] at hr; subst hr
      exact ⟨c.val, hpi.1.1, hpi.2.2.2⟩
  | newOccupied c sh b =>
    rw [hpc] at hpi hemp
    have hnr := hemp rfl
    obtain ⟨hcall, hconv, hgb, hsh⟩ := hpi
    simp only
    cases hd : c.dst with
    | true =>
      refine kept_ok fun _ => inv_thread hI ht rfl rfl rfl rfl ?_ ?_ ?_ ?_
        (hI.locks_release ht (by rw [hpc]; rfl) rfl) ⟨?_, ?_, ?_⟩
      · intro q; simp [Thread.owned, Pc.owned, hpc, State.setThread, State.unlock, hcall.2.2.1 hd]
      · simp [Pc.priv, hpc]
      · simp [Pc.undoing, hpc]
      · simp [Pc.removing, hpc]
      · refine ⟨hcall.1, fun h => (by cases h), fun _ => hcall.2.2.1 hd, ?_⟩
        · intro r hr; simp only [Option.some.injEq] at hr; subst hr; exact hgb
      · intro _; exact hnr
      · intro r hr; rw [hnr.2] at hr; cases hr
    | false =>
      refine kept_ok fun _ => inv_thread hI ht rfl rfl rfl rfl ?_ ?_ ?_ ?_
        (hI.locks_release ht (by rw [hpc]; rfl) rfl) ⟨?_, ?_, ?_⟩
      · intro q; simp [Thread.owned, Pc.owned, hpc, State.setThread, State.unlock]
      · simp [Pc.priv, hpc]
      · simp [Pc.undoing, hpc]
      · simp [Pc.removing, hpc]
      · exact ⟨hcall, hconv, hd, hgb⟩
      · intro _; exact hnr
      · intro r hr; rw [hnr.2] at hr; cases hr
  | newUnbox c b =>
    rw [hpc] at hpi hemp
    have hnr := hemp rfl
    obtain ⟨hcall, hconv, hd, hgb⟩ := hpi
    simp only [hgb]
    refine kept_ok fun _ => inv_free hI ht hgb rfl rfl rfl rfl rfl rfl ?_ ?_ ?_ ?_ ?_ ?_ ?_ ⟨?_, ?_, ?_⟩
    · simp [Pc.priv, hpc]
    · simp [Pc.priv, hconv]
    · intro q; simp [Thread.owned, Pc.owned, hpc]; omega
    · simp [Pc.undoing, hpc]
    · simp [Pc.removing, hpc]
    · simp [Pc.holds, hpc]
    · simp [Pc.holds]
    · refine ⟨hcall.1, hcall.2.1, hcall.2.2.1, ?_⟩
      intro r hr; simp only at hr; rw [hconv] at hr; cases hr
    · intro _; exact hnr
    · intro r hr; rw [hnr.2] at hr; cases hr
  | dropSub b =>
    have hAb : 0 < A cfg s b := mem_owned_A ht (by simp [Thread.owned, hpc, Pc.owned])
    have hTb := hI.live b hAb
    have hmem : b ∈ s.table := List.count_pos_iff.mp hTb
    obtain ⟨x, hx⟩ := hI.deref hAb
    have hU0 : U s b = 0 := by have := hI.undo b; omega
    have hcnt := hI.cnt b x hTb hx
    have hpend := hI.pend b
    have hsm := hI.small_count b
    have one : [b].count b = 1 := by simp
    have hret : ∀ (s' : State V), s'.table = s.table →
        (∀ p, (get s'.heap p).map (·.data) = (get s.heap p).map (·.data)) →
        ∀ r, th.ret = some r → ∃ v, th.arg = some v ∧ matches' s' r v := by
      intro s' e1 e2 r hr
      obtain ⟨v, hv, h1, y, h2, h3⟩ := hth.ret r hr
      refine ⟨v, hv, by rw [e1]; exact h1, ?_⟩
      have := e2 r
      rw [h2] at this
      cases hg : get s'.heap r with
      | none => simp [hg] at this
      | some z => simp [hg] at this; exact ⟨z, rfl, by rw [this]; exact h3⟩
    simp only [hx]
    by_cases hc : x.count = 1
    · rw [if_pos hc]
      refine kept_ok fun hS => ?_
      refine inv_count (b := b) (n := cfg.dec x.count) hI ht hmem rfl rfl rfl rfl ?_ ?_ ?_ ?_ (A cfg s b - 1) 0 (R s b + 1) ?_ ?_ ?_ ?_ ?_ ?_ (hI.locks_same ht ?_) hS ⟨?_, ?_, ?_⟩
      · intro q hq
        simp [Thread.owned, Pc.owned, hpc, State.setThread, List.count_cons, Ne.symm hq]
      · simp [Pc.priv, hpc]
      · simp [Pc.undoing, hpc]
      · intro q hq; simp [Pc.removing, hpc, Ne.symm hq]
      · simp only [Thread.owned, Pc.owned, hpc, State.setThread, List.count_append, List.count_cons_self, List.count_nil] <;> omega
      · simp only [Pc.undoing, hpc, List.count_cons_self, List.count_nil] <;> omega
      · simp only [Pc.removing, hpc, List.count_cons_self, List.count_nil] <;> omega
      · intro _; rw [dec_eq (by omega) (by omega)]; omega
      · split at hpend <;> split <;> omega
      · omega
      · simp [Pc.holds, hpc]
      · exact True.intro
      · simp [Pc.dropping]
      · exact hret _ rfl (get_data_setCount _ _ _)
    · rw [if_neg hc]
      refine kept_ok fun hS => ?_
      refine inv_count (b := b) (n := cfg.dec x.count) hI ht hmem rfl rfl rfl rfl ?_ ?_ ?_ ?_ (A cfg s b - 1) 0 (R s b) ?_ ?_ ?_ ?_ ?_ ?_ (hI.locks_same ht ?_) hS ⟨?_, ?_, ?_⟩
      · intro q hq
        simp [Thread.owned, Pc.owned, hpc, State.setThread, List.count_cons, Ne.symm hq]
      · simp [Pc.priv, hpc]
      · simp [Pc.undoing, hpc]
      · simp [Pc.removing, hpc]
      · simp only [Thread.owned, Pc.owned, hpc, State.setThread, List.count_append, List.count_cons_self, List.count_nil] <;> omega
      · simp only [Pc.undoing, hpc, List.count_cons_self, List.count_nil] <;> omega
      · simp only [Pc.removing, hpc, List.count_cons_self, List.count_nil] <;> omega
      · intro _; rw [dec_eq (by omega) (by omega)]; omega
      · split at hpend <;> split <;> omega
      · omega
      · simp [Pc.holds, hpc]
      · exact True.intro
      · simp [Pc.dropping]
      · exact hret _ rfl (get_data_setCount _ _ _)
  | dropRemove b =>
    have hRb : 0 < R s b := (count_flatMap_pos _ b s.threads).mpr ⟨t, th, ht, by simp [hpc, Pc.removing]⟩
    have hpend := hI.pend b
    have hTA : 0 < T s b ∧ A cfg s b = 0 := by
      by_cases h : 0 < T s b ∧ A cfg s b = 0
      · exact h
      · rw [if_neg h] at hpend; omega
    have hmem : b ∈ s.table := List.count_pos_iff.mp hTA.1
    obtain ⟨x, hx⟩ := exists_get (hI.mem_keys hmem)
    simp only [hx]
    by_cases hl : (s.locks (cfg.shardOf x.data)).isSome
    · rw [if_pos hl]; exact kept_blocked
    rw [if_neg hl, if_neg (by simp [hI.tableOk])]
    have hfree := isNone_of_not hl
    cases hf : find s x.data with
    | none =>
      exfalso
      have := find_none hf b x hmem hx
      simp at this
    | some r =>
      obtain ⟨h1, y, h2, h3⟩ := find_some hf
      have : r = b := hI.uniq r b y x h1 hmem h2 hx h3
      subst this
      exact kept_ok fun _ => inv_erase hI ht hpc hx hfree
  | dropFree b =>
    have hPb : 0 < P s b := mem_priv_P ht (by simp [hpc, Pc.priv])
    obtain ⟨x, hx⟩ : ∃ x, get s.heap b = some x := by
      apply exists_get
      have := hI.split b
      exact List.count_pos_iff.mp (by simp only [K] at this; omega)
    simp only [hx]
    refine kept_ok fun _ => inv_free hI ht hx rfl rfl rfl rfl rfl rfl ?_ ?_ ?_ ?_ ?_ ?_ ?_ ⟨?_, ?_, ?_⟩
    · simp [Pc.priv, hpc]
    · simp [Pc.priv]
    · intro q; simp [Thread.owned, Pc.owned, hpc]; omega
    · simp [Pc.undoing, hpc]
    · simp [Pc.removing, hpc]
    · simp [Pc.holds, hpc]
    · simp [Pc.holds]
    · exact True.intro
    · simp [Pc.dropping]
    · intro r hr
      obtain ⟨v, hv, h1, y, h2, h3⟩ := hth.ret r hr
      refine ⟨v, hv, h1, y, ?_, h3⟩
      simp only [State.setThread]
      rw [get_free, if_neg]; · exact h2
      rintro rfl
      exact hI.not_priv h1 ht (by simp [hpc, Pc.priv])
  | lenScan i m acc =>
    rw [hpc] at hemp
    have hnr := hemp rfl
    simp only
    by_cases hi : i < m
    · rw [if_pos hi]
      by_cases hl : (s.locks i).isSome
      · rw [if_pos hl]; exact kept_blocked
      rw [if_neg hl]
      refine kept_ok fun _ => inv_thread hI ht rfl rfl rfl rfl ?_ ?_ ?_ ?_ (hI.locks_same ht ?_) ⟨?_, ?_, ?_⟩
      · intro q; simp [Thread.owned, Pc.owned, hpc, State.setThread]
      · simp [Pc.priv, hpc]
      · simp [Pc.undoing, hpc]
      · simp [Pc.removing, hpc]
      · simp [Pc.holds, hpc]
      · exact True.intro
      · intro _; exact hnr
      · intro r hr; rw [hnr.2] at hr; cases hr
    · rw [if_neg hi]
      refine kept_ok fun _ => inv_thread hI ht rfl rfl rfl rfl ?_ ?_ ?_ ?_ (hI.locks_same ht ?_) ⟨?_, ?_, ?_⟩
      · intro q; simp [Thread.owned, Pc.owned, hpc, State.setThread]
      · simp [Pc.priv, hpc]
      · simp [Pc.undoing, hpc]
      · simp [Pc.removing, hpc]
      · simp [Pc.holds, hpc]
      · exact True.intro
      · intro _; exact hnr
      · intro r hr; rw [hnr.2] at hr; cases hr
  | lenDone n =>
    rw [hpc] at hemp
    have hnr := hemp rfl
    refine kept_ok fun _ => inv_thread hI ht rfl rfl rfl rfl ?_ ?_ ?_ ?_ (hI.locks_same ht ?_) ⟨?_, ?_, ?_⟩
    · intro q; simp [Thread.owned, Pc.owned, hpc, State.setThread]
    · simp [Pc.priv, hpc]
    · simp [Pc.undoing, hpc]
    · simp [Pc.removing, hpc]
    · simp [Pc.holds, hpc]
    · exact True.intro
    · intro _; exact hnr
    · intro r hr; rw [hnr.2] at hr; cases hr
  | shrinkScan i m =>
    rw [hpc] at hemp
    have hnr := hemp rfl
    simp only
    by_cases hi : i < m
    · rw [if_pos hi]
      by_cases hl : (s.locks i).isSome
      · rw [if_pos hl]; exact kept_blocked
      rw [if_neg hl]
      refine kept_ok fun _ => inv_thread hI ht rfl rfl rfl rfl ?_ ?_ ?_ ?_ (hI.locks_same ht ?_) ⟨?_, ?_, ?_⟩
      · intro q; simp [Thread.owned, Pc.owned, hpc, State.setThread]
      · simp [Pc.priv, hpc]
      · simp [Pc.undoing, hpc]
      · simp [Pc.removing, hpc]
      · simp [Pc.holds, hpc]
      · exact True.intro
      · intro _; exact hnr
      · intro r hr; rw [hnr.2] at hr; cases hr
    · rw [if_neg hi]
      refine kept_ok fun _ => inv_thread hI ht rfl rfl rfl rfl ?_ ?_ ?_ ?_ (hI.locks_same ht ?_) ⟨?_, ?_, ?_⟩
      · intro q; simp [Thread.owned, Pc.owned, hpc, State.setThread]
      · simp [Pc.priv, hpc]
      · simp [Pc.undoing, hpc]
      · simp [Pc.removing, hpc]
      · simp [Pc.holds, hpc]
      · exact True.intro
      · intro _; exact hnr
      · intro r hr; rw [hnr.2] at hr; cases hr

theorem runPanic_kept [LawfulHashable V] {cfg : Cfg V} {s : State V} {t : Tid}
    {th : Thread V} (hI : Inv cfg s) (ht : s.threads[t]? = some th) :
    Kept cfg (runPanic cfg s t th) := by
  have hth := hI.th t th ht
  have hpi := hth.pc
  have hemp := hth.empty
  unfold runPanic
  cases hpc : th.pc <;> simp only <;> try exact kept_blocked
  case newLoop c =>
    rw [hpc] at hpi hemp
    have hnr := hemp rfl
    refine kept_ok fun _ => inv_thread hI ht rfl rfl rfl rfl ?_ ?_ ?_ ?_ (hI.locks_same ht ?_) ⟨?_, ?_, ?_⟩
    · intro q
      have ho : (unwindCall cfg c none none).pc.owned cfg = [] := by
        unfold unwindCall; cases c.conv <;> rfl
      simp only [Thread.owned, ho]
      simp [unwindCall, Pc.owned, hpc, hnr, State.setThread]
    · unfold unwindCall; cases hcv : c.conv <;> simp [Pc.priv, hpc, hcv]
    · unfold unwindCall; cases hcv : c.conv <;> simp [Pc.undoing, hpc]
    · unfold unwindCall; cases hcv : c.conv <;> simp [Pc.removing, hpc]
    · unfold unwindCall; cases hcv : c.conv <;> simp [Pc.holds, hpc]
    · unfold unwindCall; cases hcv : c.conv <;> exact True.intro
    · unfold unwindCall; cases hcv : c.conv <;> simp [Pc.dropping]
    · intro r hr; simp [unwindCall] at hr
  case newEntry c b =>
    rw [hpc] at hpi hemp
    have hnr := hemp rfl
    refine kept_ok fun _ => inv_thread (th' := { pc := .dropFree b }) hI ht rfl rfl rfl rfl ?_ ?_ ?_ ?_ (hI.locks_same ht ?_) ⟨?_, ?_, ?_⟩
    · intro q; simp [Thread.owned, Pc.owned, hpc, hnr, State.setThread]
    · simp [Pc.priv, hpc]
    · simp [Pc.undoing, hpc]
    · simp [Pc.removing, hpc]
    · simp [Pc.holds, hpc]
    · exact True.intro
    · simp
    · intro r hr; cases hr
  case dropRemove b => exact kept_ok fun _ => inv_zombie hI ht hpc
  case shrinkScan i m =>
    rw [hpc] at hemp
    have hnr := hemp rfl
    split
    · refine kept_ok fun _ => inv_thread hI ht rfl rfl rfl rfl ?_ ?_ ?_ ?_ (hI.locks_same ht ?_) ⟨?_, ?_, ?_⟩
      · intro q; simp [Thread.owned, Pc.owned, hpc, State.setThread]
      · simp [Pc.priv, hpc]
      · simp [Pc.undoing, hpc]
      · simp [Pc.removing, hpc]
      · simp [Pc.holds, hpc]
      · exact True.intro
      · intro _; exact hnr
      · intro r hr; rw [hnr.2] at hr; cases hr
    · exact kept_blocked

theorem step_kept [LawfulHashable V] [EquivBEq V] {cfg : Cfg V} (hv : cfg.Valid) {s : State V}
    (hI : Inv cfg s) {act : Act V} (hs : act.Sane) : Kept cfg (step cfg s act) := by
  cases act <;> unfold step
  case spawn => exact kept_ok fun _ => inv_spawn hI
  case panicInsert => exact absurd hs (by simp [Act.Sane])
  case run t a =>
    simp only
    cases ht : s.threads[t]? with
    | none => exact kept_blocked
    | some th => exact run_kept hv hI ht a
  case panic t =>
    simp only
    cases ht : s.threads[t]? with
    | none => exact kept_blocked
    | some th => exact runPanic_kept hI ht
  case read t path =>
    simp only
    cases ht : s.threads[t]? with
    | none => exact kept_blocked
    | some th =>
      have hb := borrow_ok hI path
      simp only
      split
      · cases hp : borrow cfg s path with
        | ok q => exact kept_ok fun _ => hI
        | blocked => exact kept_blocked
        | ub => exact absurd hp hb.1
      · exact kept_blocked
  case clone t path =>
    simp only
    cases ht : s.threads[t]? with
    | none => exact kept_blocked
    | some th =>
      have hb := borrow_ok hI path
      simp only
      split
      · cases hp : borrow cfg s path with
        | blocked => exact kept_blocked
        | ub => exact absurd hp hb.1
        | ok b =>
          have hAb := hb.2 b hp
          have hTb := hI.live b hAb
          have hmem : b ∈ s.table := List.count_pos_iff.mp hTb
          obtain ⟨x, hx⟩ := hI.deref hAb
          have hU0 : U s b = 0 := by have := hI.undo b; omega
          have hcnt := hI.cnt b x hTb hx
          have hpend := hI.pend b
          simp only [hx]
          have hset : s.threads.set t th = s.threads := by
            apply List.ext_getElem?
            intro i; rw [set_getElem? _ _ _ _ _ ht]; split
            · subst_vars; exact ht.symm
            · rfl
          refine kept_ok fun hS => ?_
          refine inv_count (b := b) (n := cfg.inc x.count) (th' := th) hI ht hmem rfl rfl rfl hset.symm ?_ ?_ ?_ ?_ (A cfg s b + 1) 0 (R s b) ?_ ?_ ?_ ?_ ?_ ?_ (hI.locks_same ht rfl) hS ?_
          · intro q hq; simp [List.count_cons, Ne.symm hq]
          · simp
          · simp
          · simp
          · simp only [Thread.owned, Pc.owned, State.setThread, List.count_append, List.count_cons_self, List.count_nil] <;> omega
          · simp only [Pc.undoing, List.count_cons_self, List.count_nil] <;> omega
          · simp only [Pc.removing, List.count_cons_self, List.count_nil] <;> omega
          · intro _; rw [inc_eq (by omega)]; omega
          · split at hpend <;> split <;> omega
          · omega
          · have h0 := hI.th t th ht
            refine ⟨?_, h0.empty, ?_⟩
            · refine PcInv_frame ⟨?_, ?_, ?_, ?_⟩ h0.pc
              · intro p hpp
                simp only; rw [get_setCount, if_neg]
                rintro rfl; exact hI.not_priv hmem ht hpp
              · intro p y hpt hy
                simp only; rw [get_setCount]; split
                · rw [hy]; exact ⟨_, rfl, rfl⟩
                · exact ⟨y, hy, rfl⟩
              · intro p y hpt hy
                simp only at hy; rw [get_setCount] at hy; split at hy
                · cases hg : get s.heap p with
                  | none => simp [hg] at hy
                  | some z => simp [hg] at hy; exact ⟨z, rfl, by rw [← hy]⟩
                · exact ⟨y, hy, rfl⟩
              · intros; rfl
            · intro r hr
              obtain ⟨v, hv, h1, y, h2, h3⟩ := h0.ret r hr
              refine ⟨v, hv, h1, ?_⟩
              simp only; rw [get_setCount]; split
              · rw [h2]; exact ⟨_, rfl, h3⟩
              · exact ⟨y, h2, h3⟩
      · exact kept_blocked
  case new t v dst =>
    simp only
    cases ht : s.threads[t]? with
    | none => exact kept_blocked
    | some th =>
      simp only
      by_cases hc : (th.isIdle && ownsAll s.handles (cfg.kids v) && (!dst || (cfg.kids v).isEmpty)) = true
      · rw [if_pos hc]
        simp only [Bool.and_eq_true] at hc
        obtain ⟨⟨h1, h2⟩, h3⟩ := hc
        rw [isIdle_iff] at h1
        rw [ownsAll_iff] at h2
        refine kept_ok fun _ => inv_thread (th' := { pc := .newLoop { val := v, dst := dst, conv := none }, arg := some v }) hI ht rfl rfl rfl rfl ?_ ?_ ?_ ?_ (hI.locks_same ht ?_) ⟨?_, ?_, ?_⟩
        · intro q
          have := h2 q
          simp [Thread.owned, Pc.owned, h1, count_eraseAll]; omega
        · simp [Pc.priv, h1]
        · simp [Pc.undoing, h1]
        · simp [Pc.removing, h1]
        · simp [Pc.holds, h1]
        · refine ⟨rfl, fun _ => rfl, ?_, fun b hb => by cases hb⟩
          intro hd; simp only at hd; subst hd; simpa using h3
        · simp
        · intro r hr; cases hr
      · rw [if_neg hc]; exact kept_blocked
  case drop t p =>
    simp only
    cases ht : s.threads[t]? with
    | none => exact kept_blocked
    | some th =>
      simp only
      by_cases hc : (th.isIdle && decide (p ∈ s.handles)) = true
      · rw [if_pos hc]
        simp only [Bool.and_eq_true, decide_eq_true_eq] at hc
        obtain ⟨h1, h2⟩ := hc
        rw [isIdle_iff] at h1
        refine kept_ok fun _ => inv_thread (th' := { pc := .dropSub p }) hI ht rfl rfl rfl rfl ?_ ?_ ?_ ?_ (hI.locks_same ht ?_) ⟨?_, ?_, ?_⟩
        · intro q
          have : 0 < s.handles.count p := List.count_pos_iff.mpr h2
          simp only [Thread.owned, Pc.owned, h1, count_erase', List.count_append, List.count_nil, Option.toList,
            List.count_cons, beq_iff_eq]
          split
          · subst_vars; omega
          · omega
        · simp [Pc.priv, h1]
        · simp [Pc.undoing, h1]
        · simp [Pc.removing, h1]
        · simp [Pc.holds, h1]
        · exact True.intro
        · simp
        · intro r hr; cases hr
      · rw [if_neg hc]; exact kept_blocked
  case len t lo up =>
    simp only
    cases ht : s.threads[t]? with
    | none => exact kept_blocked
    | some th =>
      simp only
      by_cases hc : th.isIdle = true
      · rw [if_pos hc]
        rw [isIdle_iff] at hc
        refine kept_ok fun _ => inv_thread (th' := { pc := .lenScan lo up 0 }) hI ht rfl rfl rfl rfl ?_ ?_ ?_ ?_ (hI.locks_same ht ?_) ⟨?_, ?_, ?_⟩
        · intro q; simp [Thread.owned, Pc.owned, hc, State.setThread]
        · simp [Pc.priv, hc]
        · simp [Pc.undoing, hc]
        · simp [Pc.removing, hc]
        · simp [Pc.holds, hc]
        · exact True.intro
        · simp
        · intro r hr; cases hr
      · rw [if_neg hc]; exact kept_blocked
  case shrink t lo up =>
    simp only
    cases ht : s.threads[t]? with
    | none => exact kept_blocked
    | some th =>
      simp only
      by_cases hc : th.isIdle = true
      · rw [if_pos hc]
        rw [isIdle_iff] at hc
        refine kept_ok fun _ => inv_thread (th' := { pc := .shrinkScan lo up }) hI ht rfl rfl rfl rfl ?_ ?_ ?_ ?_ (hI.locks_same ht ?_) ⟨?_, ?_, ?_⟩
        · intro q; simp [Thread.owned, Pc.owned, hc, State.setThread]
        · simp [Pc.priv, hc]
        · simp [Pc.undoing, hc]
        · simp [Pc.removing, hc]
        · simp [Pc.holds, hc]
        · exact True.intro
        · simp
        · intro r hr; cases hr
      · rw [if_neg hc]; exact kept_blocked

theorem reach_inv [LawfulHashable V] [EquivBEq V] {cfg : Cfg V} (hv : cfg.Valid) {s : State V}
    (h : Reach cfg s) : Inv cfg s := by
  induction h with
  | init => exact init_inv hv
  | step _ hs he hS ih => exact (step_kept hv ih hs).2 _ he hS

end Arc
