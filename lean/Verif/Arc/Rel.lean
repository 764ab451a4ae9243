import Verif.Arc.Main
/-! The transition function as a relation, one constructor per outcome, for case analysis in proofs. -/
namespace Arc
variable {V : Type} [BEq V] [Hashable V]

inductive RunR (cfg : Cfg V) (s : State V) (t : Tid) (th : Thread V) (a : Addr) : State V → Prop
  | todo (p : Addr) (ps : List Addr) (hpc : th.pc = .idle) (htodo : th.todo = p :: ps) :
      RunR cfg s t th a (s.setThread t { th with pc := .dropSub p, todo := ps })
  | ret (b : Addr) (hpc : th.pc = .idle) (htodo : th.todo = []) (hret : th.ret = some b) :
      RunR cfg s t th a { s.setThread t {} with handles := b :: s.handles }
  | found (c : Call V) (b : Addr) (hpc : th.pc = .newLoop c) (hl : s.locks (cfg.shardOf c.val) = none)
      (hf : find s c.val = some b) :
      RunR cfg s t th a ((s.lock (cfg.shardOf c.val) t).setThread t { th with pc := .newFound c (cfg.shardOf c.val) b })
  | cached (c : Call V) (b : Addr) (hpc : th.pc = .newLoop c) (hl : s.locks (cfg.shardOf c.val) = none)
      (hf : find s c.val = none) (hc : c.conv = some b) :
      RunR cfg s t th a (s.setThread t { th with pc := .newEntry { c with conv := none } b })
  | missing (c : Call V) (hpc : th.pc = .newLoop c) (hl : s.locks (cfg.shardOf c.val) = none)
      (hf : find s c.val = none) (hc : c.conv = none) :
      RunR cfg s t th a (s.setThread t { th with pc := .newAlloc c })
  | hit (c : Call V) (sh : Nat) (b : Addr) (x : Cell V) (hpc : th.pc = .newFound c sh b)
      (hx : get s.heap b = some x) (hc : x.count ≠ 0) :
      RunR cfg s t th a ({ s with heap := setCount s.heap b (cfg.inc x.count) }.setThread t { th with pc := .newHit c sh b })
  | dying (c : Call V) (sh : Nat) (b : Addr) (x : Cell V) (hpc : th.pc = .newFound c sh b)
      (hx : get s.heap b = some x) (hc : x.count = 0) :
      RunR cfg s t th a ({ s with heap := setCount s.heap b (cfg.inc x.count) }.setThread t { th with pc := .newUndo c sh b })
  | undo (c : Call V) (sh : Nat) (b : Addr) (x : Cell V) (hpc : th.pc = .newUndo c sh b)
      (hx : get s.heap b = some x) :
      RunR cfg s t th a ({ s with heap := setCount s.heap b (cfg.dec x.count) }.setThread t { th with pc := .newRelease c sh })
  | release (c : Call V) (sh : Nat) (hpc : th.pc = .newRelease c sh) :
      RunR cfg s t th a ((s.unlock sh).setThread t { th with pc := .newLoop c })
  | hitRet (c : Call V) (sh : Nat) (b : Addr) (hpc : th.pc = .newHit c sh b) :
      RunR cfg s t th a ((s.unlock sh).setThread t (unwindCall cfg c (some b) th.arg))
  | alloc (c : Call V) (hpc : th.pc = .newAlloc c) (h0 : a ≠ 0) (hk : a ∉ keys s.heap) :
      RunR cfg s t th a ({ s with heap := (a, { count := 1, data := c.val }) :: s.heap }.setThread t { th with pc := .newEntry c a })
  | vacant (c : Call V) (b : Addr) (x : Cell V) (hpc : th.pc = .newEntry c b) (hx : get s.heap b = some x)
      (hl : s.locks (cfg.shardOf x.data) = none) (hf : find s x.data = none) :
      RunR cfg s t th a ((s.lock (cfg.shardOf x.data) t).setThread t { th with pc := .newVacant c (cfg.shardOf x.data) b })
  | occupied (c : Call V) (b r : Addr) (x : Cell V) (hpc : th.pc = .newEntry c b) (hx : get s.heap b = some x)
      (hl : s.locks (cfg.shardOf x.data) = none) (hf : find s x.data = some r) :
      RunR cfg s t th a ((s.lock (cfg.shardOf x.data) t).setThread t { th with pc := .newOccupied c (cfg.shardOf x.data) b })
  | insert (c : Call V) (sh : Nat) (b : Addr) (hpc : th.pc = .newVacant c sh b) :
      RunR cfg s t th a ({ s with table := b :: s.table }.setThread t { th with pc := .newInserted c sh b })
  | inserted (c : Call V) (sh : Nat) (b : Addr) (hpc : th.pc = .newInserted c sh b) :
      RunR cfg s t th a ((s.unlock sh).setThread t { pc := .idle, todo := [], ret := some b, arg := th.arg })
  | cache (c : Call V) (sh : Nat) (b : Addr) (hpc : th.pc = .newOccupied c sh b) (hd : c.dst = true) :
      RunR cfg s t th a ((s.unlock sh).setThread t { th with pc := .newLoop { c with conv := some b } })
  | intoKey (c : Call V) (sh : Nat) (b : Addr) (hpc : th.pc = .newOccupied c sh b) (hd : c.dst = false) :
      RunR cfg s t th a ((s.unlock sh).setThread t { th with pc := .newUnbox c b })
  | unbox (c : Call V) (b : Addr) (x : Cell V) (hpc : th.pc = .newUnbox c b) (hx : get s.heap b = some x) :
      RunR cfg s t th a ({ s with heap := free s.heap b }.setThread t { th with pc := .newLoop { c with val := x.data } })
  | subLast (b : Addr) (x : Cell V) (hpc : th.pc = .dropSub b) (hx : get s.heap b = some x) (hc : x.count = 1) :
      RunR cfg s t th a ({ s with heap := setCount s.heap b (cfg.dec x.count) }.setThread t { th with pc := .dropRemove b })
  | sub (b : Addr) (x : Cell V) (hpc : th.pc = .dropSub b) (hx : get s.heap b = some x) (hc : x.count ≠ 1) :
      RunR cfg s t th a ({ s with heap := setCount s.heap b (cfg.dec x.count) }.setThread t { th with pc := .idle })
  | remove (b r : Addr) (x : Cell V) (hpc : th.pc = .dropRemove b) (hx : get s.heap b = some x)
      (hl : s.locks (cfg.shardOf x.data) = none) (hf : find s x.data = some r) :
      RunR cfg s t th a ({ s with table := s.table.erase r }.setThread t { th with pc := .dropFree r })
  | removeNone (b : Addr) (x : Cell V) (hpc : th.pc = .dropRemove b) (hx : get s.heap b = some x)
      (hl : s.locks (cfg.shardOf x.data) = none) (hf : find s x.data = none) :
      RunR cfg s t th a (s.setThread t { th with pc := .idle })
  | free (b : Addr) (x : Cell V) (hpc : th.pc = .dropFree b) (hx : get s.heap b = some x) :
      RunR cfg s t th a ({ s with heap := Arc.free s.heap b }.setThread t { th with pc := .idle, todo := cfg.kids x.data ++ th.todo })
  | lenScan (i m acc : Nat) (hpc : th.pc = .lenScan i m acc) (hi : i < m) (hl : s.locks i = none) :
      RunR cfg s t th a (s.setThread t { th with pc := .lenScan (i + 1) m (acc + shardLen cfg s i) })
  | lenEnd (i m acc : Nat) (hpc : th.pc = .lenScan i m acc) (hi : ¬ i < m) :
      RunR cfg s t th a (s.setThread t { th with pc := .lenDone acc })
  | lenDone (n : Nat) (hpc : th.pc = .lenDone n) :
      RunR cfg s t th a (s.setThread t { th with pc := .idle })
  | shrink (i m : Nat) (hpc : th.pc = .shrinkScan i m) (hi : i < m) (hl : s.locks i = none) :
      RunR cfg s t th a (s.setThread t { th with pc := .shrinkScan (i + 1) m })
  | shrinkEnd (i m : Nat) (hpc : th.pc = .shrinkScan i m) (hi : ¬ i < m) :
      RunR cfg s t th a (s.setThread t { th with pc := .idle })

theorem run_R {cfg : Cfg V} {s s' : State V} {t : Tid} {th : Thread V} {a : Addr}
    (h : run cfg s t th a = .ok s') : RunR cfg s t th a s' := by
  unfold run at h
  cases hpc : th.pc with
  | idle =>
    simp only [hpc] at h
    cases ht : th.todo with
    | cons p ps => simp only [ht] at h; cases h; exact .todo p ps hpc ht
    | nil =>
      cases hr : th.ret with
      | none => simp [ht, hr] at h
      | some b => simp only [ht, hr] at h; cases h; exact .ret b hpc ht hr
  | newLoop c =>
    simp only [hpc] at h
    by_cases hl : (s.locks (cfg.shardOf c.val)).isSome
    · rw [if_pos hl] at h; cases h
    rw [if_neg hl] at h
    by_cases ho : (!tableOk s) = true
    · rw [if_pos ho] at h; cases h
    rw [if_neg ho] at h
    cases hf : find s c.val with
    | some b => simp only [hf] at h; cases h; exact .found c b hpc (isNone_of_not hl) hf
    | none =>
      cases hc : c.conv with
      | some b => simp only [hf, hc] at h; cases h; exact .cached c b hpc (isNone_of_not hl) hf hc
      | none => simp only [hf, hc] at h; cases h; exact .missing c hpc (isNone_of_not hl) hf hc
  | newFound c sh b =>
    simp only [hpc] at h
    cases hx : get s.heap b with
    | none => simp [hx] at h
    | some x =>
      simp only [hx] at h
      by_cases hc : x.count ≠ 0
      · rw [if_pos hc] at h; cases h; exact .hit c sh b x hpc hx hc
      · rw [if_neg hc] at h; cases h; exact .dying c sh b x hpc hx (by omega)
  | newUndo c sh b =>
    simp only [hpc] at h
    cases hx : get s.heap b with
    | none => simp [hx] at h
    | some x => simp only [hx] at h; cases h; exact .undo c sh b x hpc hx
  | newRelease c sh => simp only [hpc] at h; cases h; exact .release c sh hpc
  | newHit c sh b => simp only [hpc] at h; cases h; exact .hitRet c sh b hpc
  | newAlloc c =>
    simp only [hpc] at h
    by_cases ha : a = 0 ∨ a ∈ keys s.heap
    · rw [if_pos ha] at h; cases h
    · rw [if_neg ha] at h; cases h; rw [not_or] at ha; exact .alloc c hpc ha.1 ha.2
  | newEntry c b =>
    simp only [hpc] at h
    cases hx : get s.heap b with
    | none => simp [hx] at h
    | some x =>
      simp only [hx] at h
      by_cases hl : (s.locks (cfg.shardOf x.data)).isSome
      · rw [if_pos hl] at h; cases h
      rw [if_neg hl] at h
      by_cases ho : (!tableOk s) = true
      · rw [if_pos ho] at h; cases h
      rw [if_neg ho] at h
      cases hf : find s x.data with
      | some r => simp only [hf] at h; cases h; exact .occupied c b r x hpc hx (isNone_of_not hl) hf
      | none => simp only [hf] at h; cases h; exact .vacant c b x hpc hx (isNone_of_not hl) hf
  | newVacant c sh b => simp only [hpc] at h; cases h; exact .insert c sh b hpc
  | newInserted c sh b => simp only [hpc] at h; cases h; exact .inserted c sh b hpc
  | newOccupied c sh b =>
    simp only [hpc] at h
    cases hd : c.dst with
    | true => simp only [hd, if_true] at h; cases h; rw [← hd]; exact .cache c sh b hpc hd
    | false => simp only [hd] at h; cases h; exact .intoKey c sh b hpc hd
  | newUnbox c b =>
    simp only [hpc] at h
    cases hx : get s.heap b with
    | none => simp [hx] at h
    | some x => simp only [hx] at h; cases h; exact .unbox c b x hpc hx
  | dropSub b =>
    simp only [hpc] at h
    cases hx : get s.heap b with
    | none => simp [hx] at h
    | some x =>
      simp only [hx] at h
      by_cases hc : x.count = 1
      · rw [if_pos hc] at h; cases h; exact .subLast b x hpc hx hc
      · rw [if_neg hc] at h; cases h; exact .sub b x hpc hx hc
  | dropRemove b =>
    simp only [hpc] at h
    cases hx : get s.heap b with
    | none => simp [hx] at h
    | some x =>
      simp only [hx] at h
      by_cases hl : (s.locks (cfg.shardOf x.data)).isSome
      · rw [if_pos hl] at h; cases h
      rw [if_neg hl] at h
      by_cases ho : (!tableOk s) = true
      · rw [if_pos ho] at h; cases h
      rw [if_neg ho] at h
      cases hf : find s x.data with
      | some r => simp only [hf] at h; cases h; exact .remove b r x hpc hx (isNone_of_not hl) hf
      | none => simp only [hf] at h; cases h; exact .removeNone b x hpc hx (isNone_of_not hl) hf
  | dropFree b =>
    simp only [hpc] at h
    cases hx : get s.heap b with
    | none => simp [hx] at h
    | some x => simp only [hx] at h; cases h; exact .free b x hpc hx
  | lenScan i m acc =>
    simp only [hpc] at h
    by_cases hi : i < m
    · rw [if_pos hi] at h
      by_cases hl : (s.locks i).isSome
      · rw [if_pos hl] at h; cases h
      rw [if_neg hl] at h; cases h; exact .lenScan i m acc hpc hi (isNone_of_not hl)
    · rw [if_neg hi] at h; cases h; exact .lenEnd i m acc hpc hi
  | lenDone n => simp only [hpc] at h; cases h; exact .lenDone n hpc
  | shrinkScan i m =>
    simp only [hpc] at h
    by_cases hi : i < m
    · rw [if_pos hi] at h
      by_cases hl : (s.locks i).isSome
      · rw [if_pos hl] at h; cases h
      rw [if_neg hl] at h; cases h; exact .shrink i m hpc hi (isNone_of_not hl)
    · rw [if_neg hi] at h; cases h; exact .shrinkEnd i m hpc hi

inductive StepR (cfg : Cfg V) (s : State V) : Act V → State V → Prop
  | spawn : StepR cfg s .spawn { s with threads := s.threads ++ [{}] }
  | new (t : Tid) (v : V) (dst : Bool) (th : Thread V) (ht : s.threads[t]? = some th) (hid : th.isIdle = true)
      (hown : ∀ p, (cfg.kids v).count p ≤ s.handles.count p) (hd : dst = true → cfg.kids v = []) :
      StepR cfg s (.new t v dst) { s.setThread t { pc := .newLoop { val := v, dst := dst, conv := none }, arg := some v } with
          handles := eraseAll s.handles (cfg.kids v) }
  | clone (t : Tid) (path : List Addr) (th : Thread V) (p : Addr) (x : Cell V) (ht : s.threads[t]? = some th)
      (hid : th.isIdle = true) (hp : borrow cfg s path = .ok p) (hx : get s.heap p = some x) :
      StepR cfg s (.clone t path) { s with heap := setCount s.heap p (cfg.inc x.count), handles := p :: s.handles }
  | read (t : Tid) (path : List Addr) (th : Thread V) (p : Addr) (ht : s.threads[t]? = some th)
      (hid : th.isIdle = true) (hp : borrow cfg s path = .ok p) : StepR cfg s (.read t path) s
  | drop (t : Tid) (p : Addr) (th : Thread V) (ht : s.threads[t]? = some th)
      (hid : th.isIdle = true) (hp : p ∈ s.handles) :
      StepR cfg s (.drop t p) { s.setThread t { pc := .dropSub p } with handles := s.handles.erase p }
  | len (t : Tid) (lo up : Nat) (th : Thread V) (ht : s.threads[t]? = some th) (hid : th.isIdle = true) :
      StepR cfg s (.len t lo up) (s.setThread t { pc := .lenScan lo up 0 })
  | shrink (t : Tid) (lo up : Nat) (th : Thread V) (ht : s.threads[t]? = some th) (hid : th.isIdle = true) :
      StepR cfg s (.shrink t lo up) (s.setThread t { pc := .shrinkScan lo up })
  | run (t : Tid) (a : Addr) (th : Thread V) (s' : State V) (ht : s.threads[t]? = some th)
      (hr : RunR cfg s t th a s') : StepR cfg s (.run t a) s'
  | panicLoop (t : Tid) (th : Thread V) (c : Call V) (ht : s.threads[t]? = some th) (hpc : th.pc = .newLoop c) :
      StepR cfg s (.panic t) (s.setThread t (unwindCall cfg c none none))
  | panicEntry (t : Tid) (th : Thread V) (c : Call V) (b : Addr) (ht : s.threads[t]? = some th) (hpc : th.pc = .newEntry c b) :
      StepR cfg s (.panic t) (s.setThread t { pc := .dropFree b })
  | panicRemove (t : Tid) (th : Thread V) (b : Addr) (ht : s.threads[t]? = some th) (hpc : th.pc = .dropRemove b) :
      StepR cfg s (.panic t) { s.setThread t { th with pc := .idle } with zombies := b :: s.zombies }
  | panicShrink (t : Tid) (th : Thread V) (i m : Nat) (ht : s.threads[t]? = some th) (hpc : th.pc = .shrinkScan i m)
      (hi : i < m) (hl : s.locks i = none) : StepR cfg s (.panic t) (s.setThread t { th with pc := .idle })
  | panicInsert (t : Tid) (th : Thread V) (c : Call V) (sh : Nat) (b : Addr) (ht : s.threads[t]? = some th)
      (hpc : th.pc = .newVacant c sh b) :
      StepR cfg s (.panicInsert t) ({ s with heap := free s.heap b }.unlock sh |>.setThread t { pc := .dropSub b })

theorem step_R {cfg : Cfg V} {s s' : State V} {act : Act V} (h : step cfg s act = .ok s') :
    StepR cfg s act s' := by
  cases act with
  | spawn => simp only [step] at h; cases h; exact .spawn
  | new t v dst =>
    simp only [step] at h
    cases ht : s.threads[t]? with
    | none => simp [ht] at h
    | some th =>
      simp only [ht] at h
      by_cases hc : (th.isIdle && ownsAll s.handles (cfg.kids v) && (!dst || (cfg.kids v).isEmpty)) = true
      · rw [if_pos hc] at h; cases h
        simp only [Bool.and_eq_true] at hc
        obtain ⟨⟨h1, h2⟩, h3⟩ := hc
        rw [ownsAll_iff] at h2
        exact .new t v dst th ht h1 h2 (by rintro rfl; simpa using h3)
      · rw [if_neg hc] at h; cases h
  | clone t path =>
    simp only [step] at h
    cases ht : s.threads[t]? with
    | none => simp [ht] at h
    | some th =>
      simp only [ht] at h
      by_cases hc : th.isIdle = true
      · rw [if_pos hc] at h
        cases hp : borrow cfg s path with
        | ok p =>
          simp only [hp] at h
          cases hx : get s.heap p with
          | none => simp [hx] at h
          | some x => simp only [hx] at h; cases h; exact .clone t path th p x ht hc hp hx
        | blocked => simp [hp] at h
        | ub => simp [hp] at h
      · rw [if_neg hc] at h; cases h
  | read t path =>
    simp only [step] at h
    cases ht : s.threads[t]? with
    | none => simp [ht] at h
    | some th =>
      simp only [ht] at h
      by_cases hc : th.isIdle = true
      · rw [if_pos hc] at h
        cases hp : borrow cfg s path with
        | ok p => simp only [hp] at h; cases h; exact .read t path th p ht hc hp
        | blocked => simp [hp] at h
        | ub => simp [hp] at h
      · rw [if_neg hc] at h; cases h
  | drop t p =>
    simp only [step] at h
    cases ht : s.threads[t]? with
    | none => simp [ht] at h
    | some th =>
      simp only [ht] at h
      by_cases hc : (th.isIdle && decide (p ∈ s.handles)) = true
      · rw [if_pos hc] at h; cases h
        simp only [Bool.and_eq_true, decide_eq_true_eq] at hc
        exact .drop t p th ht hc.1 hc.2
      · rw [if_neg hc] at h; cases h
  | len t lo up =>
    simp only [step] at h
    cases ht : s.threads[t]? with
    | none => simp [ht] at h
    | some th =>
      simp only [ht] at h
      by_cases hc : th.isIdle = true
      · rw [if_pos hc] at h; cases h; exact .len t lo up th ht hc
      · rw [if_neg hc] at h; cases h
  | shrink t lo up =>
    simp only [step] at h
    cases ht : s.threads[t]? with
    | none => simp [ht] at h
    | some th =>
      simp only [ht] at h
      by_cases hc : th.isIdle = true
      · rw [if_pos hc] at h; cases h; exact .shrink t lo up th ht hc
      · rw [if_neg hc] at h; cases h
  | run t a =>
    simp only [step] at h
    cases ht : s.threads[t]? with
    | none => simp [ht] at h
    | some th => simp only [ht] at h; exact .run t a th s' ht (run_R h)
  | panic t =>
    simp only [step] at h
    cases ht : s.threads[t]? with
    | none => simp [ht] at h
    | some th =>
      simp only [ht, runPanic] at h
      cases hpc : th.pc <;> simp only [hpc] at h <;> first | (cases h; done) | skip
      case newLoop c => cases h; exact .panicLoop t th c ht hpc
      case newEntry c b => cases h; exact .panicEntry t th c b ht hpc
      case dropRemove b => cases h; exact .panicRemove t th b ht hpc
      case shrinkScan i m =>
        split at h
        · rename_i hc
          cases h
          exact .panicShrink t th i m ht hpc hc.1 (by simpa using hc.2)
        · cases h
  | panicInsert t =>
    simp only [step] at h
    cases ht : s.threads[t]? with
    | none => simp [ht] at h
    | some th =>
      simp only [ht, runPanicInsert] at h
      cases hpc : th.pc <;> simp only [hpc] at h <;> first | (cases h; done) | skip
      case newVacant c sh b => cases h; exact .panicInsert t th c sh b ht hpc

end Arc
