import Verif.Arc.Reentrant
import Verif.Arc.Complete
import Verif.Props.ArcCalls
/-! Invariant, progress and completion for `Verif/Arc/Reentrant.lean`. -/
namespace Arc.Re
variable {V : Type}

theorem suspended_iff {r : State V} {t : Tid} : suspended r t = true ↔ t ∈ r.nested.map (·.2) := by
  simp only [suspended, List.any_eq_true, beq_iff_eq, List.mem_map]

theorem suspended_not {r : State V} {t : Tid} : suspended r t = false ↔ t ∉ r.nested.map (·.2) := by
  rw [← suspended_iff]; simp

variable [BEq V] [Hashable V]

/-- A thread moves handles between the client's hands and the values it is destroying. -/
theorem inv_move {cfg : Cfg V} {s : Arc.State V} (hI : Inv cfg s) {t : Tid} {th th' : Thread V} (ht : s.threads[t]? = some th)
    (hd : th.pc = .idle) (hd' : th'.pc = .idle) (hret : th'.ret = none ∨ th'.ret = th.ret ∧ th'.arg = th.arg) {hs : List Addr}
    (hc : ∀ p, hs.count p + (th'.owned cfg).count p = s.handles.count p + (th.owned cfg).count p) :
    Inv cfg { s.setThread t th' with handles := hs } ∧ ∀ p, A cfg { s.setThread t th' with handles := hs } p = A cfg s p := by
  have hA : ∀ p, A cfg { s.setThread t th' with handles := hs } p = A cfg s p := by
    intro p
    have h1 := owned_set cfg s.threads th' ht p
    have h2 := hc p
    rw [A_eq, A_eq]
    simp only [State.setThread] at h1 ⊢
    omega
  have hP : ∀ p, P { s.setThread t th' with handles := hs } p = P s p := by
    intro p
    have := priv_set s.threads th' ht p
    rw [hd, hd'] at this
    simp only [P, State.setThread] at this ⊢; omega
  have hU : ∀ p, U { s.setThread t th' with handles := hs } p = U s p := by
    intro p
    have := undoing_set s.threads th' ht p
    rw [hd, hd'] at this
    simp only [U, State.setThread] at this ⊢; omega
  have hR : ∀ p, R { s.setThread t th' with handles := hs } p = R s p := by
    intro p
    have := removing_set s.threads th' ht p
    rw [hd, hd'] at this
    simp only [R, State.setThread] at this ⊢; omega
  refine ⟨?_, hA⟩
  constructor
  · exact hI.nd
  · intro b; rw [hP]; exact hI.split b
  · exact hI.uniq
  · intro p hp; rw [hA] at hp; exact hI.live p hp
  · intro b x h1 h2; rw [hA, hU]; exact hI.cnt b x h1 h2
  · intro b; rw [hR, hA]; exact hI.pend b
  · intro b h; rw [hU] at h; rw [hA]; exact hI.undo b h
  · intro i u
    rw [show ({ s.setThread t th' with handles := hs } : Arc.State V).locks i = s.locks i from rfl, hI.lk i u]
    show _ ↔ ∃ thu, (s.threads.set t th')[u]? = some thu ∧ _
    rw [set_getElem? _ _ _ _ _ ht]
    by_cases e : u = t
    · subst e
      rw [if_pos rfl, ht]
      constructor
      · rintro ⟨x, hx, hh⟩; cases hx; rw [hd] at hh; cases hh
      · rintro ⟨x, hx, hh⟩; cases hx; rw [hd'] at hh; cases hh
    · rw [if_neg e]
  · intro u thu hu
    rw [show ({ s.setThread t th' with handles := hs } : Arc.State V).threads = s.threads.set t th' from rfl,
      set_getElem? _ _ _ _ _ ht] at hu
    by_cases e : u = t
    · rw [if_pos e] at hu
      cases hu
      refine ⟨by rw [hd']; trivial, fun h => (by rw [hd'] at h; cases h), fun b hb => ?_⟩
      rcases hret with h | ⟨h1, h2⟩
      · rw [h] at hb; cases hb
      · rw [h1] at hb
        obtain ⟨v, h3, h4⟩ := (hI.th t th ht).ret b hb
        exact ⟨v, by rw [h2]; exact h3, h4⟩
    · rw [if_neg e] at hu
      have h := hI.th u thu hu
      refine ⟨?_, h.empty, h.ret⟩
      have := h.pc
      cases hpc : thu.pc <;> rw [hpc] at this <;> exact this
  · exact hI.ord
  · exact hI.self
  · exact hI.null
  · intro p
    have := hI.small p
    rw [show ((allHandles cfg { s.setThread t th' with handles := hs }).count p) = A cfg s p from hA p]
    exact this

/-- What holds in every reachable state: the invariant of `Verif/Arc/Inv.lean`; suspended threads are between two steps of a
destruction; the calls of a destructor run under a number that was new. -/
structure ReInv (cfg : Cfg V) (r : State V) : Prop where
  base : Inv cfg r.base
  idle : ∀ x ∈ r.nested, ∃ th, r.base.threads[x.2]? = some th ∧ th.pc = .idle
  num : ∀ x ∈ r.nested, x.1 < r.base.threads.length ∧ x.1 ≠ x.2
  ord : r.nested.Pairwise fun x y => x.1 ≠ y.2

omit [BEq V] [Hashable V] in
theorem getElem?_lt {l : List (Thread V)} {t : Nat} {x : Thread V} (h : l[t]? = some x) : t < l.length :=
  (List.getElem?_eq_some_iff.mp h).1

theorem threads_grow {cfg : Cfg V} {s s' : Arc.State V} {a : Arc.Act V} (h : Arc.step cfg s a = .ok s') :
    s.threads.length ≤ s'.threads.length := by
  have hR := step_R h
  cases hR with
  | run u a th _ hu hr => cases hr <;> simp [State.setThread, State.lock, State.unlock]
  | _ => simp [State.setThread, State.unlock]

/-- What a step may be. -/
inductive StepR (cfg : Cfg V) (r : State V) : Act V → State V → Prop
  | act (a : Arc.Act V) (s : Arc.State V) (h : Arc.step cfg r.base a = .ok s) (hn : ∀ t, a.tid = some t → t ∉ r.nested.map (·.2)) :
      StepR cfg r (.act a) ⟨s, r.nested⟩
  | enter (t : Tid) (th : Thread V) (ht : r.base.threads[t]? = some th) (hd : th.pc = .idle) (hn : t ∉ r.nested.map (·.2)) :
      StepR cfg r (.enter t) ⟨{ r.base with threads := r.base.threads ++ [{}] }, (r.base.threads.length, t) :: r.nested⟩
  | leave (u : Tid) (th : Thread V) (ht : r.base.threads[u]? = some th) (hi : th.isIdle = true) (hn : u ∉ r.nested.map (·.2))
      (hm : u ∈ r.nested.map (·.1)) : StepR cfg r (.leave u) ⟨r.base, r.nested.filter fun x => x.1 != u⟩
  | take (t : Tid) (p : Addr) (th : Thread V) (ht : r.base.threads[t]? = some th) (hm : t ∈ r.nested.map (·.2)) (hp : p ∈ th.todo) :
      StepR cfg r (.take t p) ⟨{ r.base.setThread t { th with todo := th.todo.erase p } with handles := p :: r.base.handles }, r.nested⟩
  | put (t : Tid) (p : Addr) (th : Thread V) (ht : r.base.threads[t]? = some th) (hm : t ∈ r.nested.map (·.2)) (hp : p ∈ r.base.handles) :
      StepR cfg r (.put t p) ⟨{ r.base.setThread t { th with todo := p :: th.todo } with handles := r.base.handles.erase p }, r.nested⟩

theorem step_StepR {cfg : Cfg V} {r r' : State V} {a : Act V} (h : step cfg r a = .ok r') : StepR cfg r a r' := by
  cases a with
  | act a =>
    simp only [step] at h
    split at h
    · cases h
    · rename_i hn
      cases hs : Arc.step cfg r.base a with
      | ok s =>
        rw [hs] at h; cases h
        refine .act a s hs fun t ht => suspended_not.mp ?_
        simpa [ht] using hn
      | blocked => rw [hs] at h; cases h
      | ub => rw [hs] at h; cases h
  | enter t =>
    simp only [step] at h
    cases ht : r.base.threads[t]? with
    | none => rw [ht] at h; cases h
    | some th =>
      rw [ht] at h
      simp only at h
      split at h
      · rename_i hc
        rw [Bool.and_eq_true] at hc
        cases h
        refine .enter t th ht ?_ (suspended_not.mp (by simpa using hc.2))
        have := hc.1
        simp only [destroying] at this
        cases hpc : th.pc <;> simp [hpc] at this
        rfl
      · cases h
  | leave u =>
    simp only [step] at h
    cases ht : r.base.threads[u]? with
    | none => rw [ht] at h; cases h
    | some th =>
      rw [ht] at h
      simp only at h
      split at h
      · rename_i hc
        rw [Bool.and_eq_true, Bool.and_eq_true] at hc
        cases h
        refine .leave u th ht hc.1.1 (suspended_not.mp (by simpa using hc.1.2)) ?_
        have := hc.2
        simp only [List.any_eq_true, beq_iff_eq] at this
        exact List.mem_map.mpr this
      · cases h
  | take t p =>
    simp only [step] at h
    cases ht : r.base.threads[t]? with
    | none => rw [ht] at h; cases h
    | some th =>
      rw [ht] at h
      simp only at h
      split at h
      · rename_i hc
        rw [Bool.and_eq_true] at hc
        cases h
        exact .take t p th ht (suspended_iff.mp hc.1) (by simpa using hc.2)
      · cases h
  | put t p =>
    simp only [step] at h
    cases ht : r.base.threads[t]? with
    | none => rw [ht] at h; cases h
    | some th =>
      rw [ht] at h
      simp only at h
      split at h
      · rename_i hc
        rw [Bool.and_eq_true] at hc
        cases h
        exact .put t p th ht (suspended_iff.mp hc.1) (by simpa using hc.2)
      · cases h

omit [BEq V] [Hashable V] in
theorem count_cons_erase {l : List Addr} {p : Addr} (hp : p ∈ l) (q : Addr) : (p :: l.erase p).count q = l.count q :=
  (List.perm_cons_erase hp).symm.count_eq q

variable [EquivBEq V] [LawfulHashable V]

theorem step_inv {cfg : Cfg V} (hv : cfg.Valid) {r r' : State V} (hI : ReInv cfg r) {a : Act V} (hs : a.Sane)
    (h : step cfg r a = .ok r') (hsm : Small cfg r'.base) : ReInv cfg r' := by
  have hR := step_StepR h
  cases hR with
  | act a s h0 hn =>
    refine ⟨(step_kept hv hI.base hs).2 _ h0 hsm, fun x hx => ?_, fun x hx => ?_, hI.ord⟩
    · obtain ⟨th, ht, hd⟩ := hI.idle x hx
      exact ⟨th, step_other h0 (fun e => hn _ e (List.mem_map_of_mem hx)) ht, hd⟩
    · have := hI.num x hx
      exact ⟨Nat.lt_of_lt_of_le this.1 (threads_grow h0), this.2⟩
  | enter t th ht hd hn =>
    refine ⟨(step_kept hv hI.base (act := .spawn) (by simp [Arc.Act.Sane])).2 _ rfl hsm, fun x hx => ?_, fun x hx => ?_, ?_⟩
    · rcases List.mem_cons.mp hx with rfl | hx
      · exact ⟨th, by simp only; rw [List.getElem?_append_left (getElem?_lt ht)]; exact ht, hd⟩
      · obtain ⟨th, ht, hd⟩ := hI.idle x hx
        exact ⟨th, by simp only; rw [List.getElem?_append_left (getElem?_lt ht)]; exact ht, hd⟩
    · have := getElem?_lt ht
      rcases List.mem_cons.mp hx with rfl | hx
      · simp only [List.length_append, List.length_cons, List.length_nil]
        exact ⟨Nat.lt_succ_self _, Nat.ne_of_gt this⟩
      · have := hI.num x hx
        simp only [List.length_append, List.length_cons, List.length_nil]
        exact ⟨Nat.lt_succ_of_lt this.1, this.2⟩
    · refine List.pairwise_cons.mpr ⟨fun y hy e => ?_, hI.ord⟩
      obtain ⟨thy, hty, _⟩ := hI.idle y hy
      have := getElem?_lt hty
      exact Nat.ne_of_gt this e
  | leave u th ht hi hn hm =>
    exact ⟨hI.base, fun x hx => hI.idle x (List.mem_filter.mp hx).1, fun x hx => hI.num x (List.mem_filter.mp hx).1, hI.ord.filter _⟩
  | take t p th ht hm hp =>
    obtain ⟨x, hx, rfl⟩ := List.mem_map.mp hm
    obtain ⟨th', ht', hd⟩ := hI.idle x hx
    rw [ht] at ht'; cases ht'
    refine ⟨(inv_move hI.base (th' := { th with todo := th.todo.erase p }) ht hd hd (Or.inr ⟨rfl, rfl⟩) (fun q => ?_)).1,
      fun y hy => ?_, fun y hy => ?_, hI.ord⟩
    · have := count_cons_erase hp q
      simp only [Thread.owned, List.count_append, List.count_cons] at this ⊢
      omega
    · obtain ⟨thy, hty, hdy⟩ := hI.idle y hy
      simp only [State.setThread]
      rw [set_getElem? _ _ _ _ _ ht]
      by_cases e : y.2 = x.2
      · exact ⟨_, if_pos e, hd⟩
      · exact ⟨thy, by rw [if_neg e]; exact hty, hdy⟩
    · simpa [State.setThread] using hI.num y hy
  | put t p th ht hm hp =>
    obtain ⟨x, hx, rfl⟩ := List.mem_map.mp hm
    obtain ⟨th', ht', hd⟩ := hI.idle x hx
    rw [ht] at ht'; cases ht'
    refine ⟨(inv_move hI.base (th' := { th with todo := p :: th.todo }) ht hd hd (Or.inr ⟨rfl, rfl⟩) (fun q => ?_)).1,
      fun y hy => ?_, fun y hy => ?_, hI.ord⟩
    · have := count_cons_erase hp q
      simp only [Thread.owned, List.count_append, List.count_cons] at this ⊢
      omega
    · obtain ⟨thy, hty, hdy⟩ := hI.idle y hy
      simp only [State.setThread]
      rw [set_getElem? _ _ _ _ _ ht]
      by_cases e : y.2 = x.2
      · exact ⟨_, if_pos e, hd⟩
      · exact ⟨thy, by rw [if_neg e]; exact hty, hdy⟩
    · simpa [State.setThread] using hI.num y hy

theorem step_no_ub {cfg : Cfg V} (hv : cfg.Valid) {r : State V} (hI : ReInv cfg r) {a : Act V} (hs : a.Sane) : step cfg r a ≠ .ub := by
  cases a with
  | act a =>
    have := (step_kept hv hI.base hs).1
    simp only [step]
    split
    · simp
    · cases h : Arc.step cfg r.base a with
      | ok s => simp
      | blocked => simp
      | ub => exact absurd h this
  | enter t => simp only [step]; split <;> (try split) <;> simp
  | leave u => simp only [step]; split <;> (try split) <;> simp
  | take t p => simp only [step]; split <;> (try split) <;> simp
  | put t p => simp only [step]; split <;> (try split) <;> simp

theorem reach_re {cfg : Cfg V} (hv : cfg.Valid) {r : State V} (h : Reach cfg r) : ReInv cfg r := by
  induction h with
  | init =>
    refine ⟨init_inv hv, ?_, ?_, .nil⟩ <;> (intro x hx; cases hx)
  | step _ hs h hsm ih => exact step_inv hv ih hs h hsm

omit [EquivBEq V] [LawfulHashable V] in
theorem ReachND.reach {cfg : Cfg V} {r : State V} (h : ReachND cfg r) : Reach cfg r := by
  induction h with
  | init => exact .init
  | step _ hs _ h hsm ih => exact .step ih hs h hsm

omit [EquivBEq V] [LawfulHashable V] in
theorem ReachND.zombies {cfg : Cfg V} {r : State V} (h : ReachND cfg r) : r.base.zombies = [] := by
  induction h with
  | init => rfl
  | step _ hs hd h hsm ih =>
    have hR := step_StepR h
    cases hR with
    | act a s h0 hn =>
      rcases step_zombies h0 with e | ⟨t, th, b, e, h1, h2, _⟩
      · exact e.trans ih
      · subst e; exact absurd ⟨th, b, h1, h2⟩ hd
    | _ => exact ih

omit [EquivBEq V] [LawfulHashable V] in
theorem ExecIn.reach {cfg : Cfg V} {P : State V → Prop} {r r' : State V} (h : Reach cfg r) (e : ExecIn cfg P r r') : Reach cfg r' := by
  induction e with
  | refl _ => exact h
  | step _ h1 h2 h3 _ ih => exact .step ih h1 h2 h3

omit [EquivBEq V] [LawfulHashable V] in
/-- The values of registered objects never change. -/
theorem re_data {cfg : Cfg V} {r r' : State V} (hI : ReInv cfg r) {a : Act V} (hs : a.Sane)
    (h : step cfg r a = .ok r') {p : Addr} (hp : p ∈ r.base.table) : deref r'.base p = deref r.base p := by
  have hR := step_StepR h
  cases hR with
  | act a s h0 hn => exact step_data hI.base hs h0 hp
  | _ => rfl

omit [EquivBEq V] [LawfulHashable V] in
/-- The innermost destructor of all is not suspended. -/
theorem head_free {cfg : Cfg V} {r : State V} (hI : ReInv cfg r) {x : Tid × Tid} {l : List (Tid × Tid)} (h : r.nested = x :: l) :
    x.1 ∉ r.nested.map (·.2) := by
  rw [h]
  intro hm
  obtain ⟨y, hy, e⟩ := List.mem_map.mp hm
  rcases List.mem_cons.mp hy with rfl | hy
  · exact (hI.num y (by rw [h]; simp)).2 e.symm
  · have := hI.ord
    rw [h] at this
    exact (List.pairwise_cons.mp this).1 y hy e.symm

/-! ### Completion -/

/-- `m` is `s`, except that the threads in `S`, which are between two steps, do nothing: what they own has been given to clients. -/
structure Masked (cfg : Cfg V) (S : List Tid) (s m : Arc.State V) : Prop where
  heap : m.heap = s.heap
  table : m.table = s.table
  locks : m.locks = s.locks
  zombies : m.zombies = s.zombies
  out : ∀ t : Tid, t ∉ S → m.threads[t]? = s.threads[t]?
  ins : ∀ t ∈ S, m.threads[t]? = some {}
  cnt : ∀ p, A cfg m p = A cfg s p

omit [EquivBEq V] [LawfulHashable V] in
theorem mask {cfg : Cfg V} {s : Arc.State V} (hI : Inv cfg s) : ∀ S : List Tid, (∀ t ∈ S, ∃ th, s.threads[t]? = some th ∧ th.pc = .idle) →
    ∃ m, Masked cfg S s m ∧ Inv cfg m ∧ pendingNews m = pendingNews s
  | [], _ => ⟨s, ⟨rfl, rfl, rfl, rfl, fun _ _ => rfl, (by intro _ h; cases h), fun _ => rfl⟩, hI, rfl⟩
  | t :: S, h => by
    obtain ⟨m, hm, hIm, hp⟩ := mask hI S (fun u hu => h u (List.mem_cons_of_mem _ hu))
    by_cases hts : t ∈ S
    · refine ⟨m, ⟨hm.heap, hm.table, hm.locks, hm.zombies, fun u hu => hm.out u (fun h => hu (List.mem_cons_of_mem _ h)), fun u hu => ?_,
        hm.cnt⟩, hIm, hp⟩
      rcases List.mem_cons.mp hu with rfl | hu
      · exact hm.ins _ hts
      · exact hm.ins _ hu
    · obtain ⟨th, ht, hd⟩ := h t (by simp)
      have htm : m.threads[t]? = some th := (hm.out t hts).trans ht
      obtain ⟨h1, h2⟩ := inv_move hIm (th' := {}) (hs := th.owned cfg ++ m.handles) htm hd rfl (Or.inl rfl) (fun p => by
        simp only [Thread.owned, Pc.owned, List.count_append, Option.toList, List.count_nil]; omega)
      have hget : ∀ u : Tid, (m.threads.set t {})[u]? = if u = t then some {} else m.threads[u]? := fun u => set_getElem? _ _ _ _ _ htm
      refine ⟨{ m.setThread t {} with handles := th.owned cfg ++ m.handles }, ⟨hm.heap, hm.table, hm.locks, hm.zombies, fun u hu => ?_,
        fun u hu => ?_, fun p => (h2 p).trans (hm.cnt p)⟩, h1, ?_⟩
      · simp only [State.setThread]
        rw [hget, if_neg (fun e => hu (by simp [e]))]
        exact hm.out u (fun h => hu (List.mem_cons_of_mem _ h))
      · simp only [State.setThread]
        rw [hget]
        by_cases e : u = t
        · rw [if_pos e]
        · rw [if_neg e]
          exact hm.ins u ((List.mem_cons.mp hu).resolve_left e)
      · have := countP_set (fun th : Thread V => th.pc.pending) m.threads t th {} htm
        rw [hd] at this
        rw [← hp]
        simpa [pendingNews, State.setThread, Pc.pending] using this

omit [EquivBEq V] [LawfulHashable V] in
/-- A step of the masked state is a step of a thread that is not masked. -/
theorem masked_step {cfg : Cfg V} {S : List Tid} {s m m' : Arc.State V} (hM : Masked cfg S s m) (hto : tableOk m = true) {u : Tid} {a : Addr}
    (h : Arc.step cfg m (.run u a) = .ok m') : u ∉ S ∧ ∃ s', Arc.step cfg s (.run u a) = .ok s' ∧ Masked cfg S s' m' := by
  have hR := step_R h
  cases hR with
  | run _ _ th _ hu hr =>
    have huS : u ∉ S := by
      intro hin
      rw [hM.ins u hin] at hu
      cases hu
      cases hr <;> simp_all
    refine ⟨huS, ?_⟩
    have hus : s.threads[u]? = some th := (hM.out u huS).symm.trans hu
    obtain ⟨e1, e2, e3, e4, out, ins, cnt⟩ := hM
    obtain ⟨heap, table, locks, handles, threads, zombies⟩ := s
    obtain ⟨heap', table', locks', handles', threads', zombies'⟩ := m
    simp only at e1 e2 e3 e4 out ins hu hus
    subst e1 e2 e3 e4
    have go : ∀ (th' : Thread V) (pre : List Addr) (hp : List (Addr × Cell V)) (tb : List Addr) (lk : Nat → Option Tid) (m' : Arc.State V),
        m' = ⟨hp, tb, lk, pre ++ handles', threads'.set u th', zombies'⟩ →
        RunR cfg ⟨heap', table', locks', handles, threads, zombies'⟩ u th a ⟨hp, tb, lk, pre ++ handles, threads.set u th', zombies'⟩ →
        ∃ s', Arc.step cfg ⟨heap', table', locks', handles, threads, zombies'⟩ (.run u a) = .ok s' ∧ Masked cfg S s' m' := by
      rintro th' pre hp tb lk m' rfl hr'
      refine ⟨_, R_step' (Or.inr hto) hus hr', rfl, rfl, rfl, rfl, fun t ht => ?_, fun t ht => ?_, fun p => ?_⟩
      · simp only
        rw [set_getElem? _ _ _ _ _ hu, set_getElem? _ _ _ _ _ hus, out t ht]
      · simp only
        rw [set_getElem? _ _ _ _ _ hu, if_neg (fun e : t = u => huS (e ▸ ht))]
        exact ins t ht
      · have h1 := cnt p
        have h2 := owned_set cfg threads' th' hu p
        have h3 := owned_set cfg threads th' hus p
        rw [A_eq, A_eq] at h1 ⊢
        simp only [List.count_append] at h1 ⊢
        omega
    cases hr with
    | todo p ps h1 h2 => exact go _ [] _ _ _ _ rfl (.todo p ps h1 h2)
    | ret b h1 h2 h3 => exact go _ [b] _ _ _ _ rfl (.ret b h1 h2 h3)
    | found c b h1 h2 h3 => exact go _ [] _ _ _ _ rfl (.found c b h1 h2 h3)
    | cached c b h1 h2 h3 h4 => exact go _ [] _ _ _ _ rfl (.cached c b h1 h2 h3 h4)
    | missing c h1 h2 h3 h4 => exact go _ [] _ _ _ _ rfl (.missing c h1 h2 h3 h4)
    | hit c sh b x h1 h2 h3 => exact go _ [] _ _ _ _ rfl (.hit c sh b x h1 h2 h3)
    | dying c sh b x h1 h2 h3 => exact go _ [] _ _ _ _ rfl (.dying c sh b x h1 h2 h3)
    | undo c sh b x h1 h2 => exact go _ [] _ _ _ _ rfl (.undo c sh b x h1 h2)
    | release c sh h1 => exact go _ [] _ _ _ _ rfl (.release c sh h1)
    | hitRet c sh b h1 => exact go _ [] _ _ _ _ rfl (.hitRet c sh b h1)
    | alloc c h1 h2 h3 => exact go _ [] _ _ _ _ rfl (.alloc c h1 h2 h3)
    | vacant c b x h1 h2 h3 h4 => exact go _ [] _ _ _ _ rfl (.vacant c b x h1 h2 h3 h4)
    | occupied c b r x h1 h2 h3 h4 => exact go _ [] _ _ _ _ rfl (.occupied c b r x h1 h2 h3 h4)
    | insert c sh b h1 => exact go _ [] _ _ _ _ rfl (.insert c sh b h1)
    | inserted c sh b h1 => exact go _ [] _ _ _ _ rfl (.inserted c sh b h1)
    | cache c sh b h1 h2 => exact go _ [] _ _ _ _ rfl (.cache c sh b h1 h2)
    | intoKey c sh b h1 h2 => exact go _ [] _ _ _ _ rfl (.intoKey c sh b h1 h2)
    | unbox c b x h1 h2 => exact go _ [] _ _ _ _ rfl (.unbox c b x h1 h2)
    | subLast b x h1 h2 h3 => exact go _ [] _ _ _ _ rfl (.subLast b x h1 h2 h3)
    | sub b x h1 h2 h3 => exact go _ [] _ _ _ _ rfl (.sub b x h1 h2 h3)
    | remove b r x h1 h2 h3 h4 => exact go _ [] _ _ _ _ rfl (.remove b r x h1 h2 h3 h4)
    | removeNone b x h1 h2 h3 h4 => exact go _ [] _ _ _ _ rfl (.removeNone b x h1 h2 h3 h4)
    | free b x h1 h2 => exact go _ [] _ _ _ _ rfl (.free b x h1 h2)
    | lenScan i m acc h1 h2 h3 => exact go _ [] _ _ _ _ rfl (.lenScan i m acc h1 h2 h3)
    | lenEnd i m acc h1 h2 => exact go _ [] _ _ _ _ rfl (.lenEnd i m acc h1 h2)
    | lenDone n h1 => exact go _ [] _ _ _ _ rfl (.lenDone n h1)
    | shrink i m h1 h2 h3 => exact go _ [] _ _ _ _ rfl (.shrink i m h1 h2 h3)
    | shrinkEnd i m h1 h2 => exact go _ [] _ _ _ _ rfl (.shrinkEnd i m h1 h2)

omit [EquivBEq V] [LawfulHashable V] in
theorem Runs.trans {cfg : Cfg V} {r r' r'' : State V} (h : Runs cfg r r') (h' : Runs cfg r' r'') : Runs cfg r r'' := by
  induction h with
  | refl => exact h'
  | run h1 h2 _ ih => exact .run h1 h2 (ih h')
  | leave h1 _ ih => exact .leave h1 (ih h')

/-- Runs of the masked state are runs of the threads that are not suspended. -/
theorem masked_runs {cfg : Cfg V} (hv : cfg.Valid) {m m' : Arc.State V} (e : Arc.Runs cfg m m') :
    ∀ {r : State V}, ReInv cfg r → Okay cfg r.base → Okay cfg m → Masked cfg (r.nested.map (·.2)) r.base m →
      ∃ r', Runs cfg r r' ∧ r'.nested = r.nested ∧ ReInv cfg r' ∧ Okay cfg r'.base ∧ Masked cfg (r'.nested.map (·.2)) r'.base m' := by
  induction e with
  | refl m => exact fun {r} h1 h2 _ h4 => ⟨r, .refl r, rfl, h1, h2, h4⟩
  | @step m m1 m2 t a hs hsm _ ih =>
    intro r hI hO hOm hM
    obtain ⟨ht, s1, hs1, hM1⟩ := masked_step hM hOm.inv.tableOk hs
    have hst : step cfg r (.act (.run t a)) = .ok ⟨s1, r.nested⟩ := by
      have : suspended r t = false := suspended_not.mpr ht
      simp [step, Arc.Act.tid, this, hs1]
    have hO1 := okay_step hv hO hs1
    obtain ⟨r', e1, e2, e3⟩ := ih (r := ⟨s1, r.nested⟩) (step_inv hv hI (by simp [Act.Sane, Arc.Act.Sane]) hst hO1.2.1) hO1.1
      (okay_step hv hOm hs).1 hM1
    exact ⟨r', .run hst hO1.2.1 e1, e2, e3⟩

/-- Everything that is running can be completed. -/
theorem re_complete {cfg : Cfg V} (hv : cfg.Valid) : ∀ (n : Nat) {r : State V}, r.nested.length < n → ReInv cfg r → Okay cfg r.base →
    ∃ r', Runs cfg r r' ∧ Quiescent r' := by
  intro n
  induction n with
  | zero => intro r h; omega
  | succ n ih =>
    intro r hn hI hO
    obtain ⟨m, hM, hIm, hp⟩ := mask hI.base (r.nested.map (·.2)) (fun t ht => by
      obtain ⟨x, hx, rfl⟩ := List.mem_map.mp ht
      exact hI.idle x hx)
    have hOm : Okay cfg m := ⟨hIm, fun p => by rw [hM.cnt, hp]; exact hO.room p, hM.zombies.trans hO.zom⟩
    obtain ⟨m', e, hq⟩ := complete hv _ m (Nat.lt_succ_self _) hOm
    obtain ⟨r1, e1, hn1, hI1, hO1, hM1⟩ := masked_runs hv e hI hO hOm hM
    have hidle : ∀ (t : Tid) (th : Thread V), t ∉ r1.nested.map (·.2) → r1.base.threads[t]? = some th → th.isIdle = true := by
      intro t th ht hth
      exact hq th (mem_of_getElem? ((hM1.out t ht).trans hth))
    cases hnest : r1.nested with
    | nil =>
      refine ⟨r1, e1, fun th hth => ?_, hnest⟩
      obtain ⟨t, ht⟩ := List.getElem?_of_mem hth
      exact hidle t th (by simp [hnest]) ht
    | cons x l =>
      have hx := head_free hI1 hnest
      have hlt := (hI1.num x (by simp [hnest])).1
      have hth := List.getElem?_eq_getElem hlt
      have hst : step cfg r1 (.leave x.1) = .ok ⟨r1.base, r1.nested.filter fun y => y.1 != x.1⟩ := by
        have h1 : suspended r1 x.1 = false := suspended_not.mpr hx
        have h2 := hidle _ _ hx hth
        have h3 : (r1.nested.any fun y => y.1 == x.1) = true := by simp [hnest]
        simp [step, hth, h1, h2, h3]
      obtain ⟨r2, e2, hq2⟩ := ih (r := ⟨r1.base, r1.nested.filter fun y => y.1 != x.1⟩) (by
        have : (r1.nested.filter fun y => y.1 != x.1).length < r1.nested.length := by
          rw [hnest]
          simp only [List.filter_cons, bne_self_eq_false, Bool.false_eq_true, if_false, List.length_cons]
          exact Nat.lt_succ_of_le (List.length_filter_le _ _)
        rw [hn1] at this
        rw [hn1]
        exact Nat.lt_of_lt_of_le this (Nat.le_of_lt_succ hn)) (step_inv hv hI1 (by simp [Act.Sane]) hst hI1.base.small) hO1
      exact ⟨r2, e1.trans (.leave hst e2), hq2⟩

end Arc.Re
