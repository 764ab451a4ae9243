import Verif.Arc.Complete
/-! A measure that every step of a running call decreases, except the retry loop of `new` on a dying entry (C54). -/
namespace Arc
variable {V : Type} [BEq V] [Hashable V]

/-- A call of `new` whose argument still belongs to the call or to a private box. -/
def Pc.trying : Pc V → Nat
  | .newLoop _ | .newFound _ _ _ | .newUndo _ _ _ | .newRelease _ _ | .newAlloc _ | .newEntry _ _
  | .newVacant _ _ _ | .newOccupied _ _ _ | .newUnbox _ _ | .newHit _ _ _ => 1
  | _ => 0

/-- The retry loop of `new` on an entry that is about to be removed. -/
def Pc.spinning : Pc V → Bool
  | .newLoop _ | .newFound _ _ _ | .newUndo _ _ _ | .newRelease _ _ => true
  | _ => false

def missed (s : State V) (v : V) : Nat := if (find s v).isNone then 1 else 0

/-- 1 if the call will allocate (or use its cached box), as far as the table tells. -/
def Pc.mayAlloc (s : State V) : Pc V → Nat
  | .newAlloc _ => 1
  | .newLoop c | .newFound c _ _ | .newUndo c _ _ | .newRelease c _ | .newOccupied c _ _ | .newUnbox c _ => missed s c.val
  | _ => 0

def Pc.rank (cfg : Cfg V) : Pc V → Nat
  | .idle => 0
  | .newEntry _ _ => 10
  | .newOccupied _ _ _ => 9
  | .newUnbox _ _ => 8
  | .newLoop _ | .newFound _ _ _ | .newUndo _ _ _ | .newRelease _ _ => 7
  | .newAlloc _ => 6
  | .newVacant _ _ _ | .newHit _ _ _ | .newInserted _ _ _ => 5
  | .dropSub _ => 3
  | .dropRemove _ => 2
  | .dropFree _ => 1
  | .lenScan i m _ => m - i + 2
  | .lenDone _ => 1
  | .shrinkScan i m => m - i + 1

def Thread.work (cfg : Cfg V) (th : Thread V) : Nat :=
  th.pc.rank cfg + 4 * th.todo.length + (if th.ret.isSome then 1 else 0)

def m1 (s : State V) : Nat := (s.threads.map (fun th => th.pc.trying)).sum
def m3 (s : State V) : Nat := s.heap.length + 2 * (s.threads.map (fun th => th.pc.mayAlloc s)).sum
def m4 (cfg : Cfg V) (s : State V) : Nat := (s.threads.map (Thread.work cfg)).sum

/-- `s'` has less work to do than `s`. -/
def Less (cfg : Cfg V) (s' s : State V) : Prop :=
  m1 s' < m1 s ∨ m1 s' = m1 s ∧ (s'.table.length < s.table.length ∨ s'.table.length = s.table.length ∧
    (m3 s' < m3 s ∨ m3 s' = m3 s ∧ m4 cfg s' < m4 cfg s))

def Same (cfg : Cfg V) (s' s : State V) : Prop :=
  m1 s' = m1 s ∧ s'.table.length = s.table.length ∧ m3 s' = m3 s ∧ m4 cfg s' = m4 cfg s

theorem find_congr {s s' : State V} (h1 : s'.table = s.table) (h2 : ∀ b ∈ s.table, deref s' b = deref s b) (v : V) :
    find s' v = find s v := by
  unfold find
  rw [h1]
  have : ∀ l : List Addr, (∀ b ∈ l, deref s' b = deref s b) →
      l.find? (fun b => match get s'.heap b with | some c => keyEq c.data v | none => false) =
      l.find? (fun b => match get s.heap b with | some c => keyEq c.data v | none => false) := by
    intro l
    induction l with
    | nil => intro _; rfl
    | cons b l ih =>
      intro h
      have hb := h b List.mem_cons_self
      have : (match get s'.heap b with | some c => keyEq c.data v | none => false) =
          (match get s.heap b with | some c => keyEq c.data v | none => false) := by
        simp only [deref] at hb
        cases h1 : get s'.heap b <;> cases h2 : get s.heap b <;> simp [h1, h2] at hb ⊢
        rw [hb]
      simp only [List.find?_cons, this]
      rw [ih (fun b hb => h b (List.mem_cons_of_mem _ hb))]
  exact this _ h2

omit [BEq V] [Hashable V] in
theorem length_setCount (h : List (Addr × Cell V)) (a : Addr) (n : Nat) : (setCount h a n).length = h.length := by
  have := congrArg List.length (keys_setCount h a n)
  simpa [keys] using this

omit [BEq V] [Hashable V] in
theorem length_free {h : List (Addr × Cell V)} {a : Addr} (ha : a ∈ keys h) : (free h a).length < h.length := by
  unfold free
  rw [List.length_filter_lt_length_iff_exists]
  obtain ⟨e, he, rfl⟩ := List.mem_map.mp ha
  exact ⟨e, he, by simp⟩

/-- Each step of a running call either leaves less to do, or is a step of the retry loop. -/
theorem run_less [LawfulHashable V] [EquivBEq V] {cfg : Cfg V} {s s' : State V} (hI : Inv cfg s) {t : Tid} {a : Addr}
    (h : step cfg s (.run t a) = .ok s') :
    Less cfg s' s ∨ Same cfg s' s ∧ s'.table = s.table ∧ ∃ th th', s.threads[t]? = some th ∧ th.pc.spinning = true ∧
      th'.pc.spinning = true ∧ s'.threads = s.threads.set t th' := by
  have hd : ∀ b ∈ s.table, deref s' b = deref s b := fun b hb => step_data hI (by simp [Act.Sane]) h hb
  have hmA : s'.table = s.table → ∀ pc : Pc V, pc.mayAlloc s' = pc.mayAlloc s := by
    intro h1 pc
    have hm : ∀ v, missed s' v = missed s v := fun v => by unfold missed; rw [find_congr h1 hd]
    cases pc <;> simp only [Pc.mayAlloc, hm]
  have hR := step_R h
  cases hR with
  | run _ _ th _ ht hr =>
    have hth := hI.th t th ht
    have S1 : ∀ th', ((s.threads.set t th').map (fun th => th.pc.trying)).sum + th.pc.trying = m1 s + th'.pc.trying :=
      fun th' => sum_set (fun th : Thread V => th.pc.trying) s.threads t th th' ht
    have S3 : s'.table = s.table → ∀ th', ((s.threads.set t th').map (fun th => th.pc.mayAlloc s')).sum + th.pc.mayAlloc s =
        (s.threads.map (fun th => th.pc.mayAlloc s)).sum + th'.pc.mayAlloc s := by
      intro h1 th'
      have := sum_set (fun th : Thread V => th.pc.mayAlloc s) s.threads t th th' ht
      simpa only [hmA h1] using this
    have S4 : ∀ th', ((s.threads.set t th').map (Thread.work cfg)).sum + th.work cfg = m4 cfg s + th'.work cfg :=
      fun th' => sum_set (Thread.work cfg) s.threads t th th' ht
    have key1 : ∀ th', s'.threads = s.threads.set t th' → th'.pc.trying < th.pc.trying → Less cfg s' s := by
      intro th' h1 h2
      have := S1 th'
      left
      unfold m1 at *; rw [h1]; omega
    have key : ∀ th', s'.threads = s.threads.set t th' → s'.table = s.table → th'.pc.trying = th.pc.trying →
        (s'.heap.length + 2 * th'.pc.mayAlloc s < s.heap.length + 2 * th.pc.mayAlloc s ∨
          s'.heap.length + 2 * th'.pc.mayAlloc s = s.heap.length + 2 * th.pc.mayAlloc s ∧ th'.work cfg < th.work cfg) →
        Less cfg s' s := by
      intro th' h1 h2 h3 h4
      have a1 := S1 th'
      have a3 := S3 h2 th'
      have a4 := S4 th'
      right
      refine ⟨by unfold m1 at *; rw [h1]; omega, .inr ⟨by rw [h2], ?_⟩⟩
      unfold m3 m4 at *
      rw [h1]
      omega
    have same : ∀ th', s'.threads = s.threads.set t th' → s'.table = s.table → th'.pc.trying = th.pc.trying →
        s'.heap.length = s.heap.length → th'.pc.mayAlloc s = th.pc.mayAlloc s → th'.work cfg = th.work cfg → Same cfg s' s := by
      intro th' h1 h2 h3 h4 h5 h6
      have a1 := S1 th'
      have a3 := S3 h2 th'
      have a4 := S4 th'
      refine ⟨by unfold m1 at *; rw [h1]; omega, by rw [h2], ?_, ?_⟩
      · unfold m3; rw [h1]; omega
      · unfold m4 at *; rw [h1]; omega
    have w : ∀ (pc : Pc V), th.pc = pc → th.work cfg = pc.rank cfg + 4 * th.todo.length + (if th.ret.isSome then 1 else 0) := by
      rintro pc rfl; rfl
    cases hr with
    | todo p ps hpc htodo =>
      left
      refine key _ rfl rfl (by simp only [hpc, Pc.trying]) (.inr ⟨by simp only [hpc, Pc.mayAlloc, State.setThread], ?_⟩)
      simp only [Thread.work, hpc, Pc.rank, htodo, List.length_cons]; omega
    | ret b hpc htodo hret =>
      left
      refine key _ rfl rfl (by simp only [hpc, Pc.trying]) (.inr ⟨by simp only [hpc, Pc.mayAlloc, State.setThread], ?_⟩)
      simp [Thread.work, hpc, Pc.rank, htodo, hret]
    | found c b hpc hl hf =>
      right
      exact ⟨same _ rfl rfl (by simp only [hpc, Pc.trying]) rfl (by simp only [hpc, Pc.mayAlloc])
        (by simp only [Thread.work, hpc, Pc.rank]), rfl, th, _, ht, by rw [hpc]; rfl, rfl, rfl⟩
    | cached c b hpc hl hf hc =>
      left
      refine key _ rfl rfl (by simp only [hpc, Pc.trying]) (.inl ?_)
      simp [hpc, Pc.mayAlloc, State.setThread, missed, hf]
    | missing c hpc hl hf hc =>
      left
      refine key _ rfl rfl (by simp only [hpc, Pc.trying]) (.inr ⟨by simp [hpc, Pc.mayAlloc, State.setThread, missed, hf], ?_⟩)
      simp only [Thread.work, hpc, Pc.rank]; omega
    | hit c sh b x hpc hx hc =>
      left
      refine key _ rfl rfl (by simp only [hpc, Pc.trying]) ?_
      simp only [hpc, Pc.mayAlloc, Thread.work, Pc.rank, State.setThread, length_setCount]; omega
    | dying c sh b x hpc hx hc =>
      right
      exact ⟨same _ rfl rfl (by simp only [hpc, Pc.trying]) (length_setCount _ _ _) (by simp only [hpc, Pc.mayAlloc])
        (by simp only [Thread.work, hpc, Pc.rank]), rfl, th, _, ht, by rw [hpc]; rfl, rfl, rfl⟩
    | undo c sh b x hpc hx =>
      right
      exact ⟨same _ rfl rfl (by simp only [hpc, Pc.trying]) (length_setCount _ _ _) (by simp only [hpc, Pc.mayAlloc])
        (by simp only [Thread.work, hpc, Pc.rank]), rfl, th, _, ht, by rw [hpc]; rfl, rfl, rfl⟩
    | release c sh hpc =>
      right
      exact ⟨same _ rfl rfl (by simp only [hpc, Pc.trying]) rfl (by simp only [hpc, Pc.mayAlloc])
        (by simp only [Thread.work, hpc, Pc.rank]), rfl, th, _, ht, by rw [hpc]; rfl, rfl, rfl⟩
    | hitRet c sh b hpc =>
      left
      exact key1 _ rfl (by unfold unwindCall; cases c.conv <;> simp [hpc, Pc.trying])
    | alloc c hpc h0 hk =>
      left
      refine key _ rfl rfl (by simp only [hpc, Pc.trying]) (.inl ?_)
      simp only [hpc, Pc.mayAlloc, State.setThread, List.length_cons]; omega
    | vacant c b x hpc hx hl hf =>
      left
      refine key _ rfl rfl (by simp only [hpc, Pc.trying]) (.inr ⟨by simp only [hpc, Pc.mayAlloc, State.setThread, State.lock], ?_⟩)
      simp only [Thread.work, hpc, Pc.rank]; omega
    | occupied c b q x hpc hx hl hf =>
      left
      have hp := hth.pc
      simp only [hpc, PcInv] at hp
      rw [hp.2.2] at hx
      cases hx
      refine key _ rfl rfl (by simp only [hpc, Pc.trying]) (.inr ⟨by simp [hpc, Pc.mayAlloc, State.setThread, State.lock, missed, hf], ?_⟩)
      simp only [Thread.work, hpc, Pc.rank]; omega
    | insert c sh b hpc => left; exact key1 _ rfl (by simp [hpc, Pc.trying])
    | inserted c sh b hpc =>
      left
      have he := hth.empty (by rw [hpc]; rfl)
      refine key _ rfl rfl (by simp only [hpc, Pc.trying]) (.inr ⟨by simp only [hpc, Pc.mayAlloc, State.setThread, State.unlock], ?_⟩)
      simp [Thread.work, hpc, Pc.rank, he]
    | cache c sh b hpc hd =>
      left
      refine key _ rfl rfl (by simp only [hpc, Pc.trying]) (.inr ⟨by simp only [hpc, Pc.mayAlloc, State.setThread, State.unlock], ?_⟩)
      simp only [Thread.work, hpc, Pc.rank]; omega
    | intoKey c sh b hpc hd =>
      left
      refine key _ rfl rfl (by simp only [hpc, Pc.trying]) (.inr ⟨by simp only [hpc, Pc.mayAlloc, State.setThread, State.unlock], ?_⟩)
      simp only [Thread.work, hpc, Pc.rank]; omega
    | unbox c b x hpc hx =>
      left
      have hp := hth.pc
      simp only [hpc, PcInv] at hp
      have hx' := hx
      rw [hp.2.2.2] at hx'
      cases hx'
      refine key _ rfl rfl (by simp only [hpc, Pc.trying]) (.inl ?_)
      have := length_free (mem_keys_of_get hx)
      simp only [hpc, Pc.mayAlloc, State.setThread]; omega
    | subLast b x hpc hx hc =>
      left
      refine key _ rfl rfl (by simp only [hpc, Pc.trying]) (.inr ⟨by simp only [hpc, Pc.mayAlloc, State.setThread, length_setCount], ?_⟩)
      simp only [Thread.work, hpc, Pc.rank]; omega
    | sub b x hpc hx hc =>
      left
      refine key _ rfl rfl (by simp only [hpc, Pc.trying]) (.inr ⟨by simp only [hpc, Pc.mayAlloc, State.setThread, length_setCount], ?_⟩)
      simp only [Thread.work, hpc, Pc.rank]; omega
    | remove b q x hpc hx hl hf =>
      left
      have hq := (find_some hf).1
      have a1 := S1 { th with pc := .dropFree q }
      rw [hpc] at a1
      refine .inr ⟨a1, .inl ?_⟩
      simp only [State.setThread, List.length_erase_of_mem hq]
      have := List.length_pos_of_mem hq
      omega
    | removeNone b x hpc hx hl hf =>
      left
      refine key _ rfl rfl (by simp only [hpc, Pc.trying]) (.inr ⟨by simp only [hpc, Pc.mayAlloc, State.setThread], ?_⟩)
      simp only [Thread.work, hpc, Pc.rank]; omega
    | free b x hpc hx =>
      left
      refine key _ rfl rfl (by simp only [hpc, Pc.trying]) (.inl ?_)
      have := length_free (mem_keys_of_get hx)
      simp only [hpc, Pc.mayAlloc, State.setThread]; omega
    | lenScan i m acc hpc hi hl =>
      left
      refine key _ rfl rfl (by simp only [hpc, Pc.trying]) (.inr ⟨by simp only [hpc, Pc.mayAlloc, State.setThread], ?_⟩)
      simp only [Thread.work, hpc, Pc.rank]; omega
    | lenEnd i m acc hpc hi =>
      left
      refine key _ rfl rfl (by simp only [hpc, Pc.trying]) (.inr ⟨by simp only [hpc, Pc.mayAlloc, State.setThread], ?_⟩)
      simp only [Thread.work, hpc, Pc.rank]; omega
    | lenDone n hpc =>
      left
      refine key _ rfl rfl (by simp only [hpc, Pc.trying]) (.inr ⟨by simp only [hpc, Pc.mayAlloc, State.setThread], ?_⟩)
      simp only [Thread.work, hpc, Pc.rank]; omega
    | shrink i m hpc hi hl =>
      left
      refine key _ rfl rfl (by simp only [hpc, Pc.trying]) (.inr ⟨by simp only [hpc, Pc.mayAlloc, State.setThread], ?_⟩)
      simp only [Thread.work, hpc, Pc.rank]; omega
    | shrinkEnd i m hpc hi =>
      left
      refine key _ rfl rfl (by simp only [hpc, Pc.trying]) (.inr ⟨by simp only [hpc, Pc.mayAlloc, State.setThread], ?_⟩)
      simp only [Thread.work, hpc, Pc.rank]; omega

end Arc
