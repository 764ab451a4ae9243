import Verif.Props.InternMore
/-
Properties C35-C38 of `Arena<T>` (src/arena.rs). See `Verif/Props/Intern.lean` for the reading guide. `cfg.owns k = true`:
`k` is an arena; `k ∉ s.gone`: it has not been dropped.
-/
namespace Pool
variable {K V : Type} [DecidableEq K] [BEq V] [Hashable V]

/-- **C35.** Two handles of one (live) arena are equal exactly when the values they point to are equal, and exactly when
the values that were interned are equal. -/
theorem C35_pointer_eq_iff_value_eq [EquivBEq V] [LawfulHashable V] {cfg : Cfg K V} (lay : cfg.Layout) {s : State K V}
    (r : Reach cfg s) {k : K} (hk : k ∉ s.gone) {v w : V} {p p' : Ptr} (h : Returned s k v p) (h' : Returned s k w p') :
    ∃ x y, deref s k p = some x ∧ deref s k p' = some y ∧ (p = p' ↔ (x == y) = true) ∧ (p = p' ↔ (v == w) = true) := by
  obtain ⟨t, q, h⟩ := h
  obtain ⟨t', q', h'⟩ := h'
  obtain ⟨_, x, e, hx, dx, ex⟩ := r.handle lay hk (r.done_sub h)
  obtain ⟨_, y, e', hy, dy, ey⟩ := r.handle lay hk (r.done_sub h')
  cases e; cases e'
  have i := r.kept_inj lay hk hx hy
  refine ⟨x, y, dx, dy, i, i.trans ?_⟩
  rw [BEq.congr_left ex, BEq.congr_right ey]

/-- **C36.** As long as the arena is not dropped, every handle obtained from it points to allocated memory holding the
same value as when it was obtained, equal to what was interned. -/
theorem C36_valid_until_dropped [EquivBEq V] [LawfulHashable V] {cfg : Cfg K V} (lay : cfg.Layout) {s s' : State K V}
    (r : Reach cfg s) (st : Steps cfg s s') {k : K} (hk : k ∉ s'.gone) {v : V} {p : Ptr} (h : Returned s k v p) :
    ∃ x, deref s k p = some x ∧ deref s' k p = some x ∧ (x == v) = true := by
  obtain ⟨t, q, h⟩ := h
  have hk0 : k ∉ s.gone := fun c => hk (st.log.2.2 k c)
  obtain ⟨_, x, e, hx, dx, ex⟩ := r.handle lay hk0 (r.done_sub h)
  cases e
  have I' := (st.reach r).inv lay
  obtain ⟨l, hl⟩ := st.log.1
  obtain ⟨m, hm⟩ := interned_mono l s.log k
  refine ⟨x, dx, ?_, ex⟩
  have hx' : (p, x) ∈ interned s'.log k := by rw [hl, hm]; exact List.mem_append_right _ hx
  exact (I'.deref_iff lay k p x).mpr (I'.vals k hk _ hx')

/-- C36: as long as the arena is not dropped, reading through a handle never touches freed memory. -/
theorem C36_no_use_after_free [EquivBEq V] [LawfulHashable V] {cfg : Cfg K V} (lay : cfg.Layout) {s : State K V}
    (r : Reach cfg s) {k : K} (hk : k ∉ s.gone) {v : V} {p : Ptr} (h : Returned s k v p) :
    step cfg s (.read k p) = .ok s := by
  obtain ⟨x, h1, _, _⟩ := C36_valid_until_dropped lay r .refl hk h
  simp only [step, h1]

/-- C36: no call of any function touches freed memory, in an arena or in an Intern pool. -/
theorem C36_calls_never_ub [EquivBEq V] [LawfulHashable V] {cfg : Cfg K V} (lay : cfg.Layout) {s : State K V}
    (r : Reach cfg s) {a : Act K V} (hl : a.Lawful) : step cfg s a ≠ .ub := by
  have I := r.inv lay
  intro h
  cases a with
  | spawn => cases h
  | call t o =>
    simp only [step] at h
    split at h
    · split at h <;> cases h
    · cases h
  | run t a =>
    simp only [step] at h
    split at h
    · rename_i pc ht
      cases pc with
      | idle => cases h
      | want o =>
        simp only [run] at h
        split at h <;> cases h
      | inside o =>
        simp only [run, I.tableOk, if_true] at h
        cases o with
        | intern k q v =>
          simp only at h
          cases hf : find s k q with
          | some p => rw [hf] at h; cases h
          | none => rw [hf] at h; cases h
        | query k q => cases h
        | len k => cases h
        | clear k => exact (I.pcs t _ ht).elim
      | build k q v =>
        simp only [run] at h
        split at h <;> cases h
      | insert k q v p =>
        simp only [run, I.tableOk, if_true] at h
        cases hf : find s k (.ofVal v) with
        | some p' => rw [hf] at h; cases h
        | none => rw [hf] at h; cases h
      | dropArg k q v p => cases h
      | leave o x => cases h
    · cases h
  | panic t =>
    simp only [step] at h
    split at h
    · rename_i pc ht
      cases pc <;> cases h
    · cases h
  | dropArena k =>
    simp only [step] at h
    split at h <;> cases h
  | read k p => exact hl.elim

theorem length_free {h : List (Obj K V)} {k : K} {p : Ptr} (hm : 0 < h.countP (Obj.is k p)) :
    (free h k p).length + 1 = h.length := by
  obtain ⟨o, ho, hio⟩ := List.countP_pos_iff.mp hm
  unfold free
  rw [List.length_eraseP_of_mem ho hio]
  have := List.length_pos_of_mem ho
  omega

theorem foldl_free_length (k : K) (l : List Ptr) (h : List (Obj K V)) (hc : ∀ p, h.countP (Obj.is k p) = l.count p) :
    (l.foldl (fun h p => free h k p) h).length + l.length = h.length := by
  induction l generalizing h with
  | nil => rfl
  | cons a l ih =>
    have hpos : 0 < h.countP (Obj.is k a) := by rw [hc, List.count_cons_self]; exact Nat.succ_pos _
    rw [List.foldl_cons]
    have h1 := ih (free h k a) (fun p' => by
      have := count_free hpos k p'
      have h2 := hc p'
      rw [List.count_cons] at h2
      by_cases e : a = p'
      · subst e
        simp at this h2
        omega
      · have e' : ¬ (k = k ∧ a = p') := fun c => e c.2
        rw [if_neg e'] at this
        simp [e] at h2
        omega)
    have h2 := length_free hpos
    simp only [List.length_cons]
    omega

/-- **C36, drop.** Dropping an arena frees every value stored in it exactly once and nothing else: exactly as many boxes are
freed as the arena has values, none of its boxes is left (nothing leaks), and the boxes of all other pools stay. -/
theorem C36_drop_frees_exactly [EquivBEq V] [LawfulHashable V] {cfg : Cfg K V} (lay : cfg.Layout) {s s' : State K V}
    (r : Reach cfg s) {k : K} (h : step cfg s (.dropArena k) = .ok s') :
    s.heap.length = s'.heap.length + (interned s.log k).length ∧
    (∀ o ∈ s'.heap, o.pool ≠ k) ∧
    s'.heap = s.heap.filter (fun o => decide (o.pool ≠ k)) ∧ k ∈ s'.gone := by
  have I := r.inv lay
  have I' := (r.step (a := .dropArena k) True.intro h).inv lay
  simp only [step] at h
  split at h
  · rename_i hc
    simp only [Bool.and_eq_true] at hc
    obtain ⟨⟨ho, hg⟩, hidle⟩ := hc
    have hg : k ∉ s.gone := by simpa using hg
    have noins : ∀ p, s.threads.countP (Pc.isInsert k p) = 0 := by
      intro p
      rw [List.countP_eq_zero]
      intro pc hpc
      have := List.all_eq_true.mp hidle pc hpc
      cases pc with
      | insert k' _ _ p' =>
        simp only [Pc.isInsert, decide_eq_true_eq]
        rintro ⟨rfl, _⟩
        simp [Pc.pool?] at this
      | _ => simp [Pc.isInsert]
    have hcount : ∀ p, s.heap.countP (Obj.is k p) = (s.table k).count p := by
      intro p
      rw [I.owned k ho p, noins]
      rfl
    cases h
    have hnone : ∀ o ∈ (s.table k).foldl (fun h p => free h k p) s.heap, o.pool ≠ k := by
      intro o hm e
      have := foldl_free_count k (s.table k) s.heap hcount o.ptr
      rw [List.countP_eq_zero] at this
      exact this o hm (by simp [Obj.is, e])
    refine ⟨?_, hnone, ?_, List.mem_cons_self⟩
    · have := foldl_free_length k (s.table k) s.heap hcount
      rw [← this]
      show _ = ((s.table k).foldl (fun h p => free h k p) s.heap).length + _
      rw [I.tab k hg, List.length_map]
    · show (s.table k).foldl (fun h p => free h k p) s.heap = _
      rw [← foldl_free_other k (s.table k) s.heap]
      symm
      rw [List.filter_eq_self]
      intro o hm
      simpa using hnone o hm
  · cases h

/-- The demo extended: handles of arenas 2 and 3 are out, equal and different ones, then arena 2 (holding three values) is
dropped while the handle of arena 3 stays valid. -/
example : ∃ s s', Reach Demo.cfg s ∧ step Demo.cfg s (.dropArena 2) = .ok s' ∧ (interned s.log 2).length = 3 ∧
    deref s 2 ⟨3000, 0⟩ = some (⟨5, 3⟩ : Demo.Val) ∧ deref s' 2 ⟨3000, 0⟩ = none ∧
    deref s' 3 ⟨4000, 0⟩ = some (⟨5, 4⟩ : Demo.Val) := by
  obtain ⟨s, h, c⟩ := Demo.scripted Demo.script (fun s => match step Demo.cfg s (.dropArena 2) with
    | .ok s' => decide ((interned s.log 2).length = 3 ∧ deref s 2 ⟨3000, 0⟩ = some (⟨5, 3⟩ : Demo.Val) ∧
        deref s' 2 ⟨3000, 0⟩ = none ∧ deref s' 3 ⟨4000, 0⟩ = some (⟨5, 4⟩ : Demo.Val))
    | _ => false) (by decide)
  split at c
  · rename_i s' hs'
    rw [decide_eq_true_eq] at c
    exact ⟨s, s', h, hs', c⟩
  · cases c

/-- **C37 (negative), disagreeing From.** With a lawful `Borrow` (the identity) and a `From` that does not borrow back to
the key, `intern_from`/`intern_ref` returns a handle to memory that is already freed: reading through it is undefined
behaviour, although only safe functions were called and the arena is alive. -/
theorem C37_disagreeing_from_dangles :
    ∃ s p, exec Demo.cfg init (disagree 2) = .ok s ∧ (2 ∉ s.gone) ∧ (s.done.head?.map (·.ret)) = some (.ptr p) ∧
      deref s 2 p = none ∧ step Demo.cfg s (.read 2 p) = .ub := by
  obtain ⟨s, h, c⟩ := exec_check (cfg := Demo.cfg) (l := disagree 2) (fun s => decide (
    2 ∉ s.gone ∧ (s.done.head?.map (·.ret)) = some (.ptr ⟨2000, 0⟩) ∧ deref s 2 ⟨2000, 0⟩ = none)) (by decide)
  rw [decide_eq_true_eq] at c
  exact ⟨s, _, h, c.1, c.2.1, c.2.2, by simp only [step, c.2.2]⟩

/-- **C37 (negative), inconsistent Hash.** `arena.intern(v)` with a `Hash` that gives another value the first time it is
called (in the lookup) and the right one the second time (in the insertion). -/
theorem C37_inconsistent_hash_dangles :
    ∃ s p, exec Demo.cfg init [.spawn, .call 0 (.intern 2 (.ofVal ⟨5, 1⟩) ⟨5, 1⟩), .run 0 0, .run 0 0, .run 0 1000,
        .run 0 0, .run 0 0,
        .call 0 (.intern 2 { hash := 77, eq := fun x => x == ⟨5, 2⟩ } ⟨5, 2⟩), .run 0 0, .run 0 0, .run 0 2000, .run 0 0,
        .run 0 0] = .ok s ∧ (2 ∉ s.gone) ∧ (s.done.head?.map (·.ret)) = some (.ptr p) ∧ deref s 2 p = none ∧
      step Demo.cfg s (.read 2 p) = .ub := by
  obtain ⟨s, h, c⟩ := exec_check (cfg := Demo.cfg) (l := [.spawn, .call 0 (.intern 2 (.ofVal ⟨5, 1⟩) ⟨5, 1⟩), .run 0 0,
        .run 0 0, .run 0 1000, .run 0 0, .run 0 0,
        .call 0 (.intern 2 { hash := 77, eq := fun x => x == ⟨5, 2⟩ } ⟨5, 2⟩), .run 0 0, .run 0 0, .run 0 2000, .run 0 0,
        .run 0 0]) (fun s => decide (
    2 ∉ s.gone ∧ (s.done.head?.map (·.ret)) = some (.ptr ⟨2000, 0⟩) ∧ deref s 2 ⟨2000, 0⟩ = none)) (by decide)
  rw [decide_eq_true_eq] at c
  exact ⟨s, _, h, c.1, c.2.1, c.2.2, by simp only [step, c.2.2]⟩

/-- C37: the same calls on an `Intern` pool do not free anything (the value is leaked): the handle stays readable. -/
theorem C37_intern_only_leaks : ∃ s p x, exec Demo.cfg init (disagree 0) = .ok s ∧
    (s.done.head?.map (·.ret)) = some (.ptr p) ∧ deref s 0 p = some x := by
  obtain ⟨s, h, p, p', x, y, h1, h2, h3, _, _⟩ := C31_disagreement_breaks_canonicality
  refine ⟨s, p', y, h, ?_, h3⟩
  cases hd : s.done with
  | nil => rw [hd] at h1; cases h1
  | cons e l => rw [hd] at h1; simp at h1 ⊢; exact h1.1

/-- Does action `a` work on pool `j`? -/
def Touches (s : State K V) (j : K) : Act K V → Prop
  | .run t _ | .panic t => ∃ pc, s.threads[t]? = some pc ∧ pc.pool? = some j
  | .dropArena k => k = j
  | _ => False

theorem free_other {h : List (Obj K V)} {k j : K} {p : Ptr} (hne : k ≠ j) :
    (free h k p).filter (fun o => decide (o.pool = j)) = h.filter (fun o => decide (o.pool = j)) := by
  unfold free
  induction h with
  | nil => rfl
  | cons a h ih =>
    rw [List.eraseP_cons]
    cases hia : Obj.is k p a with
    | true =>
      simp only [Obj.is, decide_eq_true_eq] at hia
      rw [cond_true, List.filter_cons_of_neg]
      simp only [decide_eq_true_eq]
      rw [hia.1]; exact hne
    | false => rw [cond_false, List.filter_cons, List.filter_cons, ih]

theorem foldl_free_other' {k j : K} (hne : k ≠ j) (l : List Ptr) (h : List (Obj K V)) :
    (l.foldl (fun h p => free h k p) h).filter (fun o => decide (o.pool = j)) =
      h.filter (fun o => decide (o.pool = j)) := by
  induction l generalizing h with
  | nil => rfl
  | cons p l ih => rw [List.foldl_cons, ih, free_other hne]

/-- **C38, independence.** A step that works on another arena (including dropping it) or on no arena leaves the table and
all boxes of arena `j` as they are. Holds for all calls, lawful or not. -/
theorem C38_independent {cfg : Cfg K V} {s s' : State K V} {a : Act K V} {j : K} (h : step cfg s a = .ok s')
    (ht : ¬ Touches s j a) :
    s'.table j = s.table j ∧ s'.heap.filter (fun o => decide (o.pool = j)) = s.heap.filter (fun o => decide (o.pool = j)) := by
  cases a with
  | spawn => cases h; exact ⟨rfl, rfl⟩
  | call t o =>
    simp only [step] at h
    split at h
    · split at h
      · cases h
      · cases h; exact ⟨rfl, rfl⟩
    · cases h
  | run t a =>
    simp only [step] at h
    split at h
    · rename_i pc hpc
      have hne : pc.pool? ≠ some j := fun c => ht ⟨pc, hpc, c⟩
      cases pc with
      | idle => cases h
      | want o =>
        simp only [run] at h
        split at h
        · cases h
        · cases h; exact ⟨rfl, rfl⟩
      | inside o =>
        simp only [run] at h
        split at h
        · cases o with
          | intern k q v =>
            simp only at h
            cases hf : find s k q with
            | some p => rw [hf] at h; cases h; exact ⟨rfl, rfl⟩
            | none => rw [hf] at h; cases h; exact ⟨rfl, rfl⟩
          | query k q => cases h; exact ⟨rfl, rfl⟩
          | len k => cases h; exact ⟨rfl, rfl⟩
          | clear k =>
            simp only at h
            have hne' : j ≠ k := fun e => hne (e ▸ rfl)
            split at h
            · cases h
            · cases h; exact ⟨if_neg hne', rfl⟩
        · cases h
      | build k q v =>
        simp only [run] at h
        have hne' : k ≠ j := fun e => hne (e ▸ rfl)
        split at h
        · cases h
        · cases h
          refine ⟨rfl, ?_⟩
          show List.filter _ (_ :: s.heap) = _
          rw [List.filter_cons_of_neg]
          simpa using hne'
      | insert k q v p =>
        simp only [run] at h
        have hne' : k ≠ j := fun e => hne (e ▸ rfl)
        split at h
        · cases hf : find s k (.ofVal v) with
          | some p' =>
            rw [hf] at h
            by_cases ho : cfg.owns k = true
            · simp only [ho, if_true] at h
              cases h; exact ⟨rfl, free_other hne'⟩
            · simp only [ho] at h
              cases h; exact ⟨rfl, rfl⟩
          | none => rw [hf] at h; cases h; exact ⟨if_neg (fun e => hne' e.symm), rfl⟩
        · cases h
      | dropArg k q v p => cases h; exact ⟨rfl, rfl⟩
      | leave o x => cases h; exact ⟨rfl, rfl⟩
    · cases h
  | panic t =>
    simp only [step] at h
    split at h
    · rename_i pc hpc
      have hne : pc.pool? ≠ some j := fun c => ht ⟨pc, hpc, c⟩
      cases pc with
      | insert k q v p =>
        have hne' : k ≠ j := fun e => hne (e ▸ rfl)
        cases h
        refine ⟨rfl, ?_⟩
        show List.filter _ (if cfg.owns k then free s.heap k p else s.heap) = _
        split
        · exact free_other hne'
        · rfl
      | idle => cases h
      | want o => cases h
      | leave o x => cases h
      | _ => cases h; exact ⟨rfl, rfl⟩
    · cases h
  | dropArena k =>
    have hne : k ≠ j := ht
    simp only [step] at h
    split at h
    · cases h; exact ⟨if_neg (fun e => hne e.symm), foldl_free_other' hne _ _⟩
    · cases h
  | read k p =>
    simp only [step] at h
    split at h
    · cases h; exact ⟨rfl, rfl⟩
    · cases h

theorem addr_ne {cfg : Cfg K V} {l : List (Obj K V)}
    (a : l.Pairwise fun o o' => cfg.zst o.pool o.val = false → cfg.zst o'.pool o'.val = false → o.ptr.addr ≠ o'.ptr.addr)
    {o o' : Obj K V} (h : o ∈ l) (h' : o' ∈ l) (hne : o ≠ o') (z : cfg.zst o.pool o.val = false)
    (z' : cfg.zst o'.pool o'.val = false) : o.ptr.addr ≠ o'.ptr.addr := by
  induction l with
  | nil => cases h
  | cons b l ih =>
    rw [List.pairwise_cons] at a
    rcases List.mem_cons.mp h with rfl | h1
    · rcases List.mem_cons.mp h' with rfl | h2
      · exact absurd rfl hne
      · exact a.1 _ h2 z z'
    · rcases List.mem_cons.mp h' with rfl | h2
      · exact fun c => a.1 _ h1 z' z c.symm
      · exact ih a.2 h1 h2

/-- **C38, handles.** Handles from two different live pools: of non-zero-sized values, they point to different addresses (so
they never compare equal); of zero-sized values of one type (`dangle`, the alignment, does not depend on the arena), they
share one address. -/
theorem C38_handles_of_different_arenas [EquivBEq V] [LawfulHashable V] {cfg : Cfg K V} (lay : cfg.Layout)
    {s : State K V} (r : Reach cfg s) {j k : K} (hjk : j ≠ k) (hj : j ∉ s.gone) (hk : k ∉ s.gone) {v w : V} {p p' : Ptr}
    (h : Returned s j v p) (h' : Returned s k w p') :
    ∃ x y, deref s j p = some x ∧ deref s k p' = some y ∧
      (cfg.zst j x = false → cfg.zst k y = false → p.addr ≠ p'.addr) ∧
      (cfg.zst j x = true → cfg.zst k y = true → cfg.dangle j x = cfg.dangle k y → p.addr = p'.addr) := by
  have I := r.inv lay
  obtain ⟨x, hx, _, _⟩ := C36_valid_until_dropped lay r .refl hj h
  obtain ⟨y, hy, _, _⟩ := C36_valid_until_dropped lay r .refl hk h'
  refine ⟨x, y, hx, hy, fun zx zy => ?_, fun zx zy hd => ?_⟩
  · exact addr_ne I.addrs (deref_mem hx) (deref_mem hy) (fun e => hjk (by injection e)) zx zy
  · have a := (I.shape _ (deref_mem hx)).2 zx
    have b := (I.shape _ (deref_mem hy)).2 zy
    simp only at a b
    rw [a, b, hd]

/-- The demo: equal values of arenas 2 and 3 have different handles, the zero-sized ones the same. -/
example : ∃ s, Reach Demo.cfg s ∧ s.gone = [] ∧ deref s 2 ⟨3000, 0⟩ = some (⟨5, 3⟩ : Demo.Val) ∧
    deref s 3 ⟨4000, 0⟩ = some (⟨5, 4⟩ : Demo.Val) ∧ deref s 2 ⟨8, 1⟩ = some (⟨0, 0⟩ : Demo.Val) ∧
    deref s 3 ⟨8, 1⟩ = some (⟨0, 0⟩ : Demo.Val) ∧ Demo.results s = Demo.expected := by
  obtain ⟨s, h, c⟩ := Demo.scripted Demo.script (fun s => decide (s.gone = [] ∧
    deref s 2 ⟨3000, 0⟩ = some (⟨5, 3⟩ : Demo.Val) ∧
    deref s 3 ⟨4000, 0⟩ = some (⟨5, 4⟩ : Demo.Val) ∧ deref s 2 ⟨8, 1⟩ = some (⟨0, 0⟩ : Demo.Val) ∧
    deref s 3 ⟨8, 1⟩ = some (⟨0, 0⟩ : Demo.Val) ∧ Demo.results s = Demo.expected)) (by decide)
  exact ⟨s, h, by simpa using c⟩

end Pool
