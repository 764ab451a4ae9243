import Verif.Arc.Facts
/-
Two executions of `ArcIntern` that differ only in the hash function and the sharding. `DashMap::new` (arc.rs:137-160) takes a random seed and as
many shards as the machine wants; in the model this is `Hashable V`, `Cfg.pick` and `Cfg.shards`.
-/
namespace Arc
variable {V : Type}

/-- Forget which shard's lock a thread holds. -/
def Pc.erase : Pc V → Pc V
  | .newFound c _ b => .newFound c 0 b
  | .newUndo c _ b => .newUndo c 0 b
  | .newRelease c _ => .newRelease c 0
  | .newHit c _ b => .newHit c 0 b
  | .newVacant c _ b => .newVacant c 0 b
  | .newInserted c _ b => .newInserted c 0 b
  | .newOccupied c _ b => .newOccupied c 0 b
  | pc => pc

def Thread.erase (th : Thread V) : Thread V := { th with pc := th.pc.erase }

def State.erase (s : State V) : State V := { s with threads := s.threads.map Thread.erase, locks := fun _ => none }

def Res.erase : Res (State V) → Res (State V)
  | .ok s => .ok s.erase
  | .blocked => .blocked
  | .ub => .ub

/-- All values in the same bucket. -/
@[reducible] def oneBucket : Hashable V := ⟨fun _ => 0⟩

/-- The same program with a table that has a single shard. -/
def Cfg.one (cfg : Cfg V) : Cfg V := { cfg with shards := 1, pick := fun _ => 0 }

/-- The thread is about to take a shard's lock. -/
def Pc.locks : Pc V → Bool
  | .newLoop _ | .newEntry _ _ | .dropRemove _ => true
  | _ => false

/-- The thread is inside `num_objects_interned` or `shrink_to_fit`: how many steps these take depends on the number of shards. -/
def Pc.scans : Pc V → Bool
  | .lenScan _ _ _ | .lenDone _ | .shrinkScan _ _ => true
  | _ => false

/-- `a` is not a call (or a step of a call) of `num_objects_interned` or `shrink_to_fit`, and if it takes a lock, no lock is held. -/
def CalmAct (s : State V) : Act V → Prop
  | .run t _ => ∀ th, s.threads[t]? = some th → th.pc.scans = false ∧ (th.pc.locks = true → ∀ i, s.locks i = none)
  | .panic t => ∀ th, s.threads[t]? = some th → th.pc.scans = false
  | .len _ _ _ | .shrink _ _ _ => False
  | _ => True

theorem erase_isIdle (th : Thread V) : th.erase.isIdle = th.isIdle := by
  rcases th with ⟨pc, todo, ret, arg⟩
  cases pc <;> rfl

theorem Thread.erase_erase (th : Thread V) : th.erase.erase = th.erase := by
  rcases th with ⟨pc, todo, ret, arg⟩
  cases pc <;> rfl

theorem same_of {u w : State V} (h1 : u.heap = w.heap) (h2 : u.table = w.table) (h3 : u.handles = w.handles) (h4 : u.zombies = w.zombies)
    (h5 : u.threads = w.threads.map Thread.erase) : u.erase = w.erase := by
  have : (w.threads.map Thread.erase).map Thread.erase = w.threads.map Thread.erase := by
    rw [List.map_map]; exact List.map_congr_left fun th _ => th.erase_erase
  simp only [State.erase, h1, h2, h3, h4, h5, this]

theorem same_set {u w : State V} (h : u.erase = w.erase) (t : Tid) {th th' : Thread V} (ht : th.erase = th'.erase) :
    (u.setThread t th).erase = (w.setThread t th').erase := by
  have h1 : u.threads.map Thread.erase = w.threads.map Thread.erase := congrArg State.threads h
  have h2 := congrArg State.heap h
  have h3 := congrArg State.table h
  have h4 := congrArg State.handles h
  have h5 := congrArg State.zombies h
  simp only [State.erase] at h2 h3 h4 h5
  simp only [State.setThread, State.erase, List.map_set, h1, ht, h2, h3, h4, h5]

variable [BEq V]

theorem find_erase [Hashable V] [LawfulHashable V] (s : State V) (v : V) : @find V _ oneBucket s.erase v = find s v := by
  unfold find
  show List.find? _ s.table = _
  congr 1
  funext b
  show (match get s.heap b with | some c => _ | none => false) = _
  cases get s.heap b with
  | none => rfl
  | some c =>
    show ((0 : UInt64) == 0 && c.data == v) = (hash c.data == hash v && c.data == v)
    cases hx : c.data == v with
    | false => simp
    | true => simp [LawfulHashable.hash_eq _ _ hx]

omit [BEq V] in
theorem follow_erase (cfg : Cfg V) (s : State V) (path : List Addr) : ∀ p, follow cfg.one s.erase p path = follow cfg s p path := by
  induction path with
  | nil => intro p; rfl
  | cons q path ih =>
    intro p
    simp only [follow]
    show (match get s.heap p with | some c => _ | none => _) = _
    cases get s.heap p with
    | none => rfl
    | some c => simp only [ih]; rfl

omit [BEq V] in
theorem borrow_erase (cfg : Cfg V) (s : State V) (path : List Addr) : borrow cfg.one s.erase path = borrow cfg s path := by
  cases path with
  | nil => rfl
  | cons p path => simp only [borrow, follow_erase]; rfl

theorem run_erase [Hashable V] [LawfulHashable V] (cfg : Cfg V) (s : State V) (t : Tid) (th : Thread V) (a : Addr)
    (h1 : th.pc.scans = false) (h2 : th.pc.locks = true → ∀ i, s.locks i = none) :
    (@run V _ oneBucket cfg.one s.erase t th.erase a).erase = (run cfg s t th a).erase := by
  rcases th with ⟨pc, todo, ret, arg⟩
  have hg : ∀ b, get s.erase.heap b = get s.heap b := fun _ => rfl
  have hok : tableOk s.erase = tableOk s := rfl
  have key : ∀ {u w : State V} {th th' : Thread V}, u.heap = w.heap → u.table = w.table → u.handles = w.handles → u.zombies = w.zombies →
      u.threads = w.threads.map Thread.erase → th.erase = th'.erase →
      Res.erase (.ok (u.setThread t th)) = Res.erase (.ok (w.setThread t th')) := fun a b c d e f =>
    congrArg Res.ok (same_set (same_of a b c d e) t f)
  cases pc with
  | idle =>
    cases todo with
    | cons p ps => exact key rfl rfl rfl rfl rfl rfl
    | nil =>
      cases ret with
      | none => rfl
      | some b =>
        exact congrArg Res.ok (same_set (u := { s.erase with handles := b :: s.handles }) (w := { s with handles := b :: s.handles })
          (same_of rfl rfl rfl rfl rfl) t rfl)
  | newLoop c =>
    have hl := h2 rfl
    simp only [run, Thread.erase, Pc.erase, hok, find_erase, hl, Option.isSome_none]
    simp only [State.erase, Option.isSome_none, Bool.false_eq_true, if_false]
    by_cases ho : tableOk s = true
    · simp only [ho, Bool.not_true, Bool.false_eq_true, if_false]
      cases find s c.val with
      | some b => exact key rfl rfl rfl rfl rfl rfl
      | none =>
        simp only
        cases c.conv with
        | some b => exact key rfl rfl rfl rfl rfl rfl
        | none => exact key rfl rfl rfl rfl rfl rfl
    · simp only [ho, Bool.not_false, if_true]
  | newFound c sh b =>
    simp only [run, Thread.erase, Pc.erase, hg]
    cases get s.heap b with
    | none => rfl
    | some x =>
      simp only
      by_cases hx : x.count ≠ 0
      · rw [if_pos hx, if_pos hx]; exact key rfl rfl rfl rfl rfl rfl
      · rw [if_neg hx, if_neg hx]; exact key rfl rfl rfl rfl rfl rfl
  | newUndo c sh b =>
    simp only [run, Thread.erase, Pc.erase, hg]
    cases get s.heap b with
    | none => rfl
    | some x => exact key rfl rfl rfl rfl rfl rfl
  | newRelease c sh => exact key rfl rfl rfl rfl rfl rfl
  | newHit c sh b => exact key rfl rfl rfl rfl rfl rfl
  | newAlloc c =>
    simp only [run, Thread.erase, Pc.erase]
    by_cases ha : a = 0 ∨ a ∈ keys s.heap
    · rw [if_pos ha, if_pos (by exact ha)]
    · rw [if_neg ha, if_neg (by exact ha)]; exact key rfl rfl rfl rfl rfl rfl
  | newEntry c b =>
    have hl := h2 rfl
    simp only [run, Thread.erase, Pc.erase, hg, hok]
    cases get s.heap b with
    | none => rfl
    | some x =>
      simp only [find_erase, hl, Option.isSome_none]
      simp only [State.erase, Option.isSome_none, Bool.false_eq_true, if_false]
      by_cases ho : tableOk s = true
      · simp only [ho, Bool.not_true, Bool.false_eq_true, if_false]
        cases find s x.data with
        | some b => exact key rfl rfl rfl rfl rfl rfl
        | none => exact key rfl rfl rfl rfl rfl rfl
      · simp only [ho, Bool.not_false, if_true]
  | newVacant c sh b => exact key rfl rfl rfl rfl rfl rfl
  | newInserted c sh b => exact key rfl rfl rfl rfl rfl rfl
  | newOccupied c sh b =>
    simp only [run, Thread.erase, Pc.erase]
    by_cases hd : c.dst = true
    · rw [if_pos hd, if_pos hd]; exact key rfl rfl rfl rfl rfl rfl
    · rw [if_neg hd, if_neg hd]; exact key rfl rfl rfl rfl rfl rfl
  | newUnbox c b =>
    simp only [run, Thread.erase, Pc.erase, hg]
    cases get s.heap b with
    | none => rfl
    | some x => exact key rfl rfl rfl rfl rfl rfl
  | dropSub b =>
    simp only [run, Thread.erase, Pc.erase, hg]
    cases get s.heap b with
    | none => rfl
    | some x =>
      simp only
      by_cases hx : x.count = 1
      · rw [if_pos hx, if_pos hx]; exact key rfl rfl rfl rfl rfl rfl
      · rw [if_neg hx, if_neg hx]; exact key rfl rfl rfl rfl rfl rfl
  | dropRemove b =>
    have hl := h2 rfl
    simp only [run, Thread.erase, Pc.erase, hg, hok]
    cases get s.heap b with
    | none => rfl
    | some x =>
      simp only [find_erase, hl, Option.isSome_none]
      simp only [State.erase, Option.isSome_none, Bool.false_eq_true, if_false]
      by_cases ho : tableOk s = true
      · simp only [ho, Bool.not_true, Bool.false_eq_true, if_false]
        cases find s x.data with
        | some b => exact key rfl rfl rfl rfl rfl rfl
        | none => exact key rfl rfl rfl rfl rfl rfl
      · simp only [ho, Bool.not_false, if_true]
  | dropFree b =>
    simp only [run, Thread.erase, Pc.erase, hg]
    cases get s.heap b with
    | none => rfl
    | some x => exact key rfl rfl rfl rfl rfl rfl
  | lenScan i m acc => cases h1
  | lenDone n => cases h1
  | shrinkScan i m => cases h1

/-- **One step.** With one bucket and one shard, a calm step does the same. -/
theorem step_erase [Hashable V] [LawfulHashable V] (cfg : Cfg V) (s : State V) (a : Act V) (hc : CalmAct s a) (hs : a.Sane) :
    (@step V _ oneBucket cfg.one s.erase a).erase = (step cfg s a).erase := by
  have ht : ∀ t : Nat, s.erase.threads[t]? = (s.threads[t]?).map Thread.erase := fun t => List.getElem?_map
  have hg : ∀ b, get s.erase.heap b = get s.heap b := fun _ => rfl
  cases a with
  | spawn =>
    refine congrArg Res.ok (same_of rfl rfl rfl rfl ?_)
    simp only [State.erase, List.map_append, List.map_cons, List.map_nil]; rfl
  | new t v dst =>
    simp only [step, ht]
    cases s.threads[t]? with
    | none => rfl
    | some th =>
      simp only [Option.map_some, erase_isIdle]
      by_cases hc : (th.isIdle && ownsAll s.handles (cfg.kids v) && (!dst || (cfg.kids v).isEmpty)) = true
      · rw [if_pos hc, if_pos (by exact hc)]
        exact congrArg Res.ok (same_set (u := { s.erase with handles := eraseAll s.handles (cfg.kids v) })
          (w := { s with handles := eraseAll s.handles (cfg.kids v) }) (same_of rfl rfl rfl rfl rfl) t rfl)
      · rw [if_neg hc, if_neg (by exact hc)]
  | clone t path =>
    simp only [step, ht]
    cases s.threads[t]? with
    | none => rfl
    | some th =>
      simp only [Option.map_some, erase_isIdle, borrow_erase]
      by_cases hi : th.isIdle = true
      · rw [if_pos hi, if_pos hi]
        cases borrow cfg s path with
        | blocked => rfl
        | ub => rfl
        | ok p =>
          simp only [hg]
          cases get s.heap p with
          | none => rfl
          | some x => exact congrArg Res.ok (same_of rfl rfl rfl rfl rfl)
      · rw [if_neg hi, if_neg hi]
  | read t path =>
    simp only [step, ht]
    cases s.threads[t]? with
    | none => rfl
    | some th =>
      simp only [Option.map_some, erase_isIdle, borrow_erase]
      by_cases hi : th.isIdle = true
      · rw [if_pos hi, if_pos hi]
        cases borrow cfg s path with
        | blocked => rfl
        | ub => rfl
        | ok p => exact congrArg Res.ok (same_of rfl rfl rfl rfl rfl)
      · rw [if_neg hi, if_neg hi]
  | drop t p =>
    simp only [step, ht]
    cases s.threads[t]? with
    | none => rfl
    | some th =>
      simp only [Option.map_some, erase_isIdle]
      by_cases hi : (th.isIdle && decide (p ∈ s.handles)) = true
      · rw [if_pos hi, if_pos (by exact hi)]
        exact congrArg Res.ok (same_set (u := { s.erase with handles := s.handles.erase p })
          (w := { s with handles := s.handles.erase p }) (same_of rfl rfl rfl rfl rfl) t rfl)
      · rw [if_neg hi, if_neg (by exact hi)]
  | len t lo up => exact hc.elim
  | shrink t lo up => exact hc.elim
  | run t n =>
    simp only [step, ht]
    cases he : s.threads[t]? with
    | none => rfl
    | some th => exact run_erase cfg s t th n (hc th he).1 (hc th he).2
  | panic t =>
    simp only [step, ht]
    cases he : s.threads[t]? with
    | none => rfl
    | some th =>
      have h1 := hc th he
      rcases th with ⟨pc, todo, ret, arg⟩
      cases pc with
      | newLoop c => exact congrArg Res.ok (same_set (u := s.erase) (w := s) (same_of rfl rfl rfl rfl rfl) t rfl)
      | newEntry c b => exact congrArg Res.ok (same_set (u := s.erase) (w := s) (same_of rfl rfl rfl rfl rfl) t rfl)
      | dropRemove b =>
        exact congrArg Res.ok (same_set (u := { s.erase with zombies := b :: s.zombies })
          (w := { s with zombies := b :: s.zombies }) (same_of rfl rfl rfl rfl rfl) t rfl)
      | shrinkScan i m => cases h1
      | _ => rfl
  | panicInsert t => exact hs.elim

/-- Executions all of whose steps are calm, with the actions that were done. -/
inductive CalmRun [Hashable V] (cfg : Cfg V) : List (Act V) → State V → Prop
  | init : CalmRun cfg [] init
  | step {l : List (Act V)} {s s' : State V} {a : Act V} : CalmRun cfg l s → a.Sane → CalmAct s a → step cfg s a = .ok s' → Small cfg s' →
      CalmRun cfg (l ++ [a]) s'

theorem CalmRun.reach [Hashable V] {cfg : Cfg V} {l : List (Act V)} {s : State V} (h : CalmRun cfg l s) : Reach cfg s := by
  induction h with
  | init => exact .init
  | step _ h1 _ h2 h3 ih => exact .step ih h1 h2 h3

theorem CalmRun.executes [Hashable V] {cfg : Cfg V} {l : List (Act V)} {s : State V} (h : CalmRun cfg l s) : Arc.exec cfg Arc.init l = .ok s := by
  induction h with
  | init => rfl
  | step _ h1 _ h2 h3 ih => rw [exec_append, ih]; simp only [Arc.exec, h2]

omit [BEq V] in
theorem erase_pc_facts (th : Thread V) : th.erase.pc.scans = th.pc.scans ∧ th.erase.pc.locks = th.pc.locks ∧
    th.erase.pc.holds.isNone = th.pc.holds.isNone := by
  rcases th with ⟨pc, todo, ret, arg⟩
  cases pc <;> exact ⟨rfl, rfl, rfl⟩

omit [BEq V] in
theorem allHandles_erase (cfg : Cfg V) (s : State V) : allHandles cfg.one s.erase = allHandles cfg s := by
  have : ∀ th : Thread V, th.erase.owned cfg.one = th.owned cfg := by
    rintro ⟨pc, todo, ret, arg⟩
    cases pc <;> rfl
  simp only [allHandles, State.erase, List.flatMap_map, this]
  rfl

theorem locks_free [Hashable V] {cfg : Cfg V} {s : State V} (I : Inv cfg s) :
    (∀ i, s.locks i = none) ↔ ∀ th ∈ s.threads.map Thread.erase, th.pc.holds.isNone = true := by
  constructor
  · intro h th hth
    obtain ⟨th, hm, rfl⟩ := List.mem_map.mp hth
    rw [(erase_pc_facts th).2.2]
    obtain ⟨t, ht⟩ := List.mem_iff_getElem?.mp hm
    cases hh : th.pc.holds with
    | none => rfl
    | some i =>
      have := (I.lk i t).mpr ⟨th, ht, hh⟩
      rw [h i] at this; cases this
  · intro h i
    cases hl : s.locks i with
    | none => rfl
    | some t =>
      obtain ⟨th, ht, hh⟩ := (I.lk i t).mp hl
      have := h th.erase (List.mem_map.mpr ⟨th, List.mem_of_getElem? ht, rfl⟩)
      rw [(erase_pc_facts th).2.2, hh] at this; cases this

theorem calm_same [h1 : Hashable V] {c1 : Cfg V} {s1 : State V} (I1 : Inv c1 s1) {h2 : Hashable V} {c2 : Cfg V} {s2 : State V}
    (I2 : @Inv V _ h2 c2 s2) (e : s2.erase = s1.erase) {a : Act V} (hc : CalmAct s1 a) : CalmAct s2 a := by
  have et : s2.threads.map Thread.erase = s1.threads.map Thread.erase := congrArg State.threads e
  have key : ∀ t : Tid, (∀ th : Thread V, s1.threads[t]? = some th → th.pc.scans = false ∧ (th.pc.locks = true → ∀ i, s1.locks i = none)) →
      ∀ th : Thread V, s2.threads[t]? = some th → th.pc.scans = false ∧ (th.pc.locks = true → ∀ i, s2.locks i = none) := by
    intro t h th ht
    have : (s1.threads.map Thread.erase)[t]? = some th.erase := by rw [← et, List.getElem?_map, ht]; rfl
    rw [List.getElem?_map] at this
    obtain ⟨th1, ht1, he⟩ := Option.map_eq_some_iff.mp this
    have f1 := erase_pc_facts th1
    have f2 := erase_pc_facts th
    rw [he] at f1
    obtain ⟨g1, g2⟩ := h th1 ht1
    refine ⟨by rw [← f2.1, f1.1]; exact g1, fun hl => ?_⟩
    rw [← f2.2.1, f1.2.1] at hl
    rw [@locks_free V _ h2 c2 s2 I2, et]
    exact (@locks_free V _ h1 c1 s1 I1).mp (g2 hl)
  cases a with
  | run t n => exact key t hc
  | panic t =>
    intro th ht
    have : (s1.threads.map Thread.erase)[t]? = some th.erase := by rw [← et, List.getElem?_map, ht]; rfl
    rw [List.getElem?_map] at this
    obtain ⟨th1, ht1, he⟩ := Option.map_eq_some_iff.mp this
    rw [← (erase_pc_facts th).1, ← he, (erase_pc_facts th1).1]
    exact hc th1 ht1
  | len t lo up => exact hc.elim
  | shrink t lo up => exact hc.elim
  | spawn => trivial
  | new t v dst => trivial
  | clone t path => trivial
  | read t path => trivial
  | drop t p => trivial
  | panicInsert t => trivial

omit [BEq V] in
theorem Res.erase_ok {r : Res (State V)} {s : State V} (h : r.erase = .ok s) : ∃ s', r = .ok s' ∧ s'.erase = s := by
  cases r with
  | ok s' => exact ⟨s', rfl, by injection h⟩
  | blocked => cases h
  | ub => cases h

/-- Executions of programs that do not call `num_objects_interned` and `shrink_to_fit`, with the actions that were done. -/
inductive ActsRun [Hashable V] (cfg : Cfg V) : List (Act V) → State V → Prop
  | init : ActsRun cfg [] init
  | step {l : List (Act V)} {s s' : State V} {a : Act V} : ActsRun cfg l s → a.Sane → (∀ t lo up, a ≠ .len t lo up ∧ a ≠ .shrink t lo up) →
      step cfg s a = .ok s' → Small cfg s' → ActsRun cfg (l ++ [a]) s'

theorem CalmRun.runs [Hashable V] {cfg : Cfg V} {l : List (Act V)} {s : State V} (h : CalmRun cfg l s) : ActsRun cfg l s := by
  induction h with
  | init => exact .init
  | step _ h1 h h2 h3 ih =>
    refine .step ih h1 (fun t lo up => ⟨?_, ?_⟩) h2 h3
    · rintro rfl; exact h
    · rintro rfl; exact h

theorem ActsRun.reach [Hashable V] {cfg : Cfg V} {l : List (Act V)} {s : State V} (h : ActsRun cfg l s) : Reach cfg s := by
  induction h with
  | init => exact .init
  | step _ h1 _ h2 h3 ih => exact .step ih h1 h2 h3

theorem ActsRun.executes [Hashable V] {cfg : Cfg V} {l : List (Act V)} {s : State V} (h : ActsRun cfg l s) : Arc.exec cfg Arc.init l = .ok s := by
  induction h with
  | init => rfl
  | step _ h1 _ h2 h3 ih => rw [exec_append, ih]; simp only [Arc.exec, h2]

theorem run_scans [Hashable V] {cfg : Cfg V} {s s' : State V} {t : Tid} {th : Thread V} {n : Addr} (h0 : th.pc.scans = false)
    (h : run cfg s t th n = .ok s') : ∃ th', s'.threads = s.threads.set t th' ∧ th'.pc.scans = false := by
  rcases th with ⟨pc, todo, ret, arg⟩
  cases pc with
  | idle =>
    simp only [run] at h
    cases todo with
    | cons p ps => cases h; exact ⟨_, rfl, rfl⟩
    | nil =>
      cases ret with
      | none => cases h
      | some b => cases h; exact ⟨_, rfl, rfl⟩
  | newLoop c =>
    simp only [run] at h
    split at h
    · cases h
    split at h
    · cases h
    split at h
    · cases h; exact ⟨_, rfl, rfl⟩
    split at h
    · cases h; exact ⟨_, rfl, rfl⟩
    · cases h; exact ⟨_, rfl, rfl⟩
  | newHit c sh b =>
    cases h
    refine ⟨_, rfl, ?_⟩
    unfold unwindCall
    cases c.conv <;> rfl
  | newFound c sh b =>
    simp only [run] at h
    split at h
    · cases h
    split at h
    · cases h; exact ⟨_, rfl, rfl⟩
    · cases h; exact ⟨_, rfl, rfl⟩
  | newUndo c sh b =>
    simp only [run] at h
    split at h
    · cases h
    · cases h; exact ⟨_, rfl, rfl⟩
  | newRelease c sh => cases h; exact ⟨_, rfl, rfl⟩
  | newAlloc c =>
    simp only [run] at h
    split at h
    · cases h
    · cases h; exact ⟨_, rfl, rfl⟩
  | newEntry c b =>
    simp only [run] at h
    split at h
    · cases h
    split at h
    · cases h
    split at h
    · cases h
    split at h
    · cases h; exact ⟨_, rfl, rfl⟩
    · cases h; exact ⟨_, rfl, rfl⟩
  | newVacant c sh b => cases h; exact ⟨_, rfl, rfl⟩
  | newInserted c sh b => cases h; exact ⟨_, rfl, rfl⟩
  | newOccupied c sh b =>
    simp only [run] at h
    split at h
    · cases h; exact ⟨_, rfl, rfl⟩
    · cases h; exact ⟨_, rfl, rfl⟩
  | newUnbox c b =>
    simp only [run] at h
    split at h
    · cases h
    · cases h; exact ⟨_, rfl, rfl⟩
  | dropSub b =>
    simp only [run] at h
    split at h
    · cases h
    split at h
    · cases h; exact ⟨_, rfl, rfl⟩
    · cases h; exact ⟨_, rfl, rfl⟩
  | dropRemove b =>
    simp only [run] at h
    split at h
    · cases h
    split at h
    · cases h
    split at h
    · cases h
    split at h
    · cases h; exact ⟨_, rfl, rfl⟩
    · cases h; exact ⟨_, rfl, rfl⟩
  | dropFree b =>
    simp only [run] at h
    split at h
    · cases h
    · cases h; exact ⟨_, rfl, rfl⟩
  | lenScan i m acc => cases h0
  | lenDone n => cases h0
  | shrinkScan i m => cases h0

/-- Without calls of the scanning functions no thread is in one; threads do not disappear. -/
theorem step_scans [Hashable V] {cfg : Cfg V} {s s' : State V} {a : Act V} (hs : a.Sane)
    (ha : ∀ t lo up, a ≠ .len t lo up ∧ a ≠ .shrink t lo up) (h0 : ∀ th ∈ s.threads, th.pc.scans = false) (h : step cfg s a = .ok s') :
    (∀ th ∈ s'.threads, th.pc.scans = false) ∧ s.threads.length ≤ s'.threads.length := by
  have key : ∀ (t : Tid) (th : Thread V), th.pc.scans = false → s'.threads = s.threads.set t th →
      (∀ th ∈ s'.threads, th.pc.scans = false) ∧ s.threads.length ≤ s'.threads.length := by
    intro t th hp e
    rw [e]
    refine ⟨fun th' h' => ?_, by rw [List.length_set]; exact Nat.le_refl _⟩
    rcases List.mem_or_eq_of_mem_set h' with h' | rfl
    · exact h0 _ h'
    · exact hp
  cases a with
  | spawn =>
    cases h
    refine ⟨fun th hth => ?_, by simp⟩
    rcases List.mem_append.mp hth with hth | hth
    · exact h0 _ hth
    · rw [List.mem_singleton.mp hth]; rfl
  | new t v dst =>
    simp only [step] at h
    split at h
    · cases h
    split at h
    · cases h; exact key t _ (by rfl) rfl
    · cases h
  | clone t path =>
    simp only [step] at h
    split at h
    · cases h
    split at h
    · split at h
      · split at h
        · cases h; exact ⟨h0, Nat.le_refl _⟩
        · cases h
      · cases h
      · cases h
    · cases h
  | read t path =>
    simp only [step] at h
    split at h
    · cases h
    split at h
    · split at h
      · cases h; exact ⟨h0, Nat.le_refl _⟩
      · cases h
      · cases h
    · cases h
  | drop t p =>
    simp only [step] at h
    split at h
    · cases h
    split at h
    · cases h; exact key t _ (by rfl) rfl
    · cases h
  | len t lo up => exact absurd rfl (ha t lo up).1
  | shrink t lo up => exact absurd rfl (ha t lo up).2
  | run t n =>
    simp only [step] at h
    split at h
    · cases h
    · rename_i th ht
      obtain ⟨th', e, hp⟩ := run_scans (h0 _ (List.mem_of_getElem? ht)) h
      exact key t th' hp e
  | panic t =>
    simp only [step] at h
    split at h
    · cases h
    · rename_i th ht
      have hp := h0 _ (List.mem_of_getElem? ht)
      rcases th with ⟨pc, todo, ret, arg⟩
      cases pc with
      | newLoop c =>
        cases h
        exact key t _ (by unfold unwindCall; cases c.conv <;> rfl) rfl
      | newEntry c b => cases h; exact key t _ (by rfl) rfl
      | dropRemove b => cases h; exact key t _ (by rfl) rfl
      | shrinkScan i m => cases hp
      | _ => cases h
  | panicInsert t => exact hs.elim

theorem ActsRun.scans [Hashable V] {cfg : Cfg V} {l : List (Act V)} {s : State V} (h : ActsRun cfg l s) : ∀ th ∈ s.threads, th.pc.scans = false := by
  induction h with
  | init => intro th hth; cases hth
  | step _ h1 h h2 _ ih => exact (step_scans h1 h ih h2).1

/-- If steps that take locks happen while no lock is held, the execution is calm. -/
theorem ActsRun.calm [Hashable V] {cfg : Cfg V} (P : State V → Prop)
    (hP : ∀ {s s' : State V} {a : Act V}, a.Sane → Reach cfg s → Arc.step cfg s a = .ok s' → s.threads.length ≤ s'.threads.length → P s' → P s)
    (hfree : ∀ {s s' : State V} {t : Tid} {n : Addr} {th : Thread V}, Reach cfg s → P s → s.threads[t]? = some th → th.pc.locks = true →
      Arc.step cfg s (.run t n) = .ok s' → ∀ i, s.locks i = none)
    {l : List (Act V)} {s : State V} (h : ActsRun cfg l s) (hp : P s) : CalmRun cfg l s := by
  induction h with
  | init => exact .init
  | @step l s s' a hr h1 h h2 h3 ih =>
    have hp' := hP h1 hr.reach h2 (step_scans h1 h hr.scans h2).2 hp
    refine .step (ih hp') h1 ?_ h2 h3
    cases a with
    | run t n => exact fun th ht => ⟨hr.scans th (List.mem_of_getElem? ht), fun hl => hfree hr.reach hp' ht hl h2⟩
    | panic t => exact fun th ht => hr.scans th (List.mem_of_getElem? ht)
    | len t lo up => exact absurd rfl (h t lo up).1
    | shrink t lo up => exact absurd rfl (h t lo up).2
    | spawn => trivial
    | new t v dst => trivial
    | clone t path => trivial
    | read t path => trivial
    | drop t p => trivial
    | panicInsert t => trivial

/-- With one thread all executions are calm. -/
theorem ActsRun.calm_one_thread [EquivBEq V] [Hashable V] [LawfulHashable V] {cfg : Cfg V} (hv : cfg.Valid) {l : List (Act V)} {s : State V}
    (h : ActsRun cfg l s) (h1 : s.threads.length ≤ 1) : CalmRun cfg l s := by
  refine h.calm (fun s => s.threads.length ≤ 1) (fun _ _ _ hle hp => Nat.le_trans hle hp) ?_ h1
  intro s s' t n th hr hp ht hl _
  rw [locks_free (reach_inv hv hr)]
  intro th' hth'
  obtain ⟨th1, hm, rfl⟩ := List.mem_map.mp hth'
  obtain ⟨u, hu⟩ := List.mem_iff_getElem?.mp hm
  have hu' := (List.getElem?_eq_some_iff.mp hu).1
  have ht' := (List.getElem?_eq_some_iff.mp ht).1
  have : u = t := by omega
  subst this
  rw [ht] at hu
  cases hu
  rw [(erase_pc_facts th).2.2]
  rcases th with ⟨pc, todo, ret, arg⟩
  cases pc <;> first | rfl | cases hl

theorem PcInv.shard [Hashable V] {cfg : Cfg V} (hv : cfg.Valid) {s : State V} {arg : Option V} {pc : Pc V} (h : PcInv cfg s arg pc)
    {i : Nat} (hh : pc.holds = some i) : i < cfg.shards := by
  cases pc with
  | newFound c sh b => cases hh; rw [h.2.1]; exact hv.pick_lt _
  | newUndo c sh b => cases hh; rw [h.2.1]; exact hv.pick_lt _
  | newHit c sh b => cases hh; rw [h.2.1]; exact hv.pick_lt _
  | newRelease c sh => cases hh; rw [h.2]; exact hv.pick_lt _
  | newVacant c sh b => cases hh; rw [h.2.2.2.1]; exact hv.pick_lt _
  | newInserted c sh b => cases hh; rw [h.2.2.1]; exact hv.pick_lt _
  | newOccupied c sh b => cases hh; rw [h.2.2.2]; exact hv.pick_lt _
  | _ => cases hh

/-- With one shard all executions are calm. -/
theorem ActsRun.calm_one_shard [EquivBEq V] [Hashable V] [LawfulHashable V] {cfg : Cfg V} (hv : cfg.Valid) {l : List (Act V)} {s : State V}
    (h : ActsRun cfg l s) (h1 : cfg.shards = 1) : CalmRun cfg l s := by
  refine h.calm (fun _ => True) (fun _ _ _ _ _ => trivial) ?_ trivial
  intro s s' t n th hr _ ht hl hs i
  have I := reach_inv hv hr
  have hlt : ∀ h, cfg.pick h = 0 := fun h => by have := hv.pick_lt h; omega
  have hzero : s.locks 0 = none := by
    simp only [Arc.step, ht] at hs
    rcases th with ⟨pc, todo, ret, arg⟩
    cases pc with
    | newLoop c =>
      simp only [run, Cfg.shardOf, hlt] at hs
      split at hs
      · cases hs
      · rename_i hn; simpa using hn
    | newEntry c b =>
      simp only [run, Cfg.shardOf, hlt] at hs
      split at hs
      · cases hs
      split at hs
      · cases hs
      · rename_i hn; simpa using hn
    | dropRemove b =>
      simp only [run, Cfg.shardOf, hlt] at hs
      split at hs
      · cases hs
      split at hs
      · cases hs
      · rename_i hn; simpa using hn
    | _ => cases hl
  cases hi : s.locks i with
  | none => rfl
  | some u =>
    obtain ⟨th', hu, hh⟩ := (I.lk i u).mp hi
    have := PcInv.shard hv (I.th u th' hu).pc hh
    have : i = 0 := by omega
    rw [this, hzero] at hi; cases hi

/-- **Simulation.** A calm execution is possible with every hash function and every number of shards, and goes through the same states. -/
theorem CalmRun.rehash [EquivBEq V] (h1 h2 : Hashable V) (l1 : @LawfulHashable V _ h1) (l2 : @LawfulHashable V _ h2) {c1 c2 : Cfg V}
    (v1 : c1.Valid) (v2 : c2.Valid) (hc : c2.one = c1.one) {l : List (Act V)} {s1 : State V} (h : @CalmRun V _ h1 c1 l s1) :
    ∃ s2, @CalmRun V _ h2 c2 l s2 ∧ s2.erase = s1.erase := by
  induction h with
  | init => exact ⟨Arc.init, @CalmRun.init V _ h2 c2, rfl⟩
  | @step l s1 s1' a hr hs hcalm hstep hsmall ih =>
    obtain ⟨s2, hr2, e⟩ := ih
    have hcalm2 := @calm_same V _ h1 c1 s1 (@reach_inv V _ h1 l1 _ c1 v1 s1 (@CalmRun.reach V _ h1 _ _ _ hr)) h2 c2 s2
      (@reach_inv V _ h2 l2 _ c2 v2 s2 (@CalmRun.reach V _ h2 _ _ _ hr2)) e a hcalm
    have e1 := @step_erase V _ h1 l1 c1 s1 a hcalm hs
    have e2 := @step_erase V _ h2 l2 c2 s2 a hcalm2 hs
    rw [e, hc, e1, hstep] at e2
    obtain ⟨s2', hs2, e3⟩ := Res.erase_ok e2.symm
    refine ⟨s2', @CalmRun.step V _ h2 c2 _ _ _ _ hr2 hs hcalm2 hs2 ?_, e3⟩
    intro p
    rw [← allHandles_erase c2 s2', e3, hc, allHandles_erase]
    have hW : c2.one.W = c1.one.W := by rw [hc]
    change c2.W = c1.W at hW
    rw [hW]
    exact hsmall p

end Arc
