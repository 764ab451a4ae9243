import Verif.Arc.HashFree
/-
What clients of `ArcIntern` can see of an execution (calls with their results), and a simulation between executions under different hash functions,
seeds and numbers of shards (`DashMap::new`, arc.rs:137-160). The simulating execution performs each critical section in one go, so that it never needs
a lock that is taken.
-/
namespace Arc
variable {V : Type}

/-- What a client can see happen.
* `called`: a call of `new` (arc.rs:224) or an unsized constructor, with the value.
* `cloned`: `clone` (arc.rs:273-283) of the handle reached by `path`, which is `p`.
* `read`: the value of the object `p` reached by `path`, and `refcount` (arc.rs:207-209).
* `dropping`: a handle is dropped (arc.rs:292).
* `panicked`: user code panics inside the current call of `t`.
* `finished`: the current call of `t` ends, returning a handle if it is a `new` that did not panic. -/
inductive Event (V : Type) where
  | spawned
  | called (t : Tid) (v : V) (dst : Bool)
  | cloned (t : Tid) (path : List Addr) (p : Addr)
  | read (t : Tid) (path : List Addr) (p : Addr) (v : V) (refs : Nat)
  | dropping (t : Tid) (p : Addr)
  | panicked (t : Tid)
  | finished (t : Tid) (r : Option Addr)
  deriving DecidableEq, Repr

/-- The calls that begin (and, for `clone` and reads, also end) with action `a`, and panics. -/
def begins (cfg : Cfg V) (s : State V) : Act V → List (Event V)
  | .spawn => [.spawned]
  | .new t v dst => [.called t v dst]
  | .clone t path => match borrow cfg s path with
    | .ok p => [.cloned t path p]
    | _ => []
  | .read t path => match borrow cfg s path with
    | .ok p => match get s.heap p with
      | some x => [.read t path p x.data x.count]
      | none => []
    | _ => []
  | .drop t p => [.dropping t p]
  | .panic t => [.panicked t]
  | _ => []

/-- Thread `t` was in a call, and is not in the next state. -/
def ending (t : Tid) (s s' : State V) : List (Event V) :=
  match s.threads[t]?, s'.threads[t]? with
  | some th, some th' => if th'.isIdle then [.finished t th.ret] else []
  | _, _ => []

/-- The calls that end with action `a`, which leads from `s` to `s'`. -/
def ends (s : State V) (a : Act V) (s' : State V) : List (Event V) :=
  match a with
  | .run t _ => ending t s s'
  | .panic t => ending t s s'
  | _ => []

/-- The executions of programs that do not call `num_objects_interned` and `shrink_to_fit`, with everything their clients saw, in order. -/
inductive Witnessed [BEq V] [Hashable V] (cfg : Cfg V) : List (Event V) → State V → Prop
  | init : Witnessed cfg [] init
  | step {l : List (Event V)} {s s' : State V} {a : Act V} : Witnessed cfg l s → a.Sane → (∀ t lo up, a ≠ .len t lo up ∧ a ≠ .shrink t lo up) →
      step cfg s a = .ok s' → Small cfg s' → Witnessed cfg (l ++ (begins cfg s a ++ ends s a s')) s'

/-! ### The simulation -/

/-- The box a thread is about to insert. -/
def Pc.vac : Pc V → List Addr
  | .newVacant _ _ b => [b]
  | _ => []

/-- A thread inside a critical section, moved to where it is decided that it will be at its end; a lookup that may still fail is taken back. -/
def Thread.settle (cfg : Cfg V) (th : Thread V) : Thread V :=
  match th.pc with
  | .newFound c _ _ | .newUndo c _ _ | .newRelease c _ => { th with pc := .newLoop c }
  | .newHit c _ b => unwindCall cfg c (some b) th.arg
  | .newVacant _ _ b | .newInserted _ _ b => { pc := .idle, todo := [], ret := some b, arg := th.arg }
  | .newOccupied c _ b => if c.dst then { th with pc := .newLoop { c with conv := some b } } else { th with pc := .newUnbox c b }
  | _ => th

/-- Without the transient increments `n`. -/
def settleHeap (h : List (Addr × Cell V)) (n : Addr → Nat) : List (Addr × Cell V) :=
  h.map fun e => (e.1, { e.2 with count := e.2.count - n e.1 })

/-- `u` is `s` with all critical sections completed (or not begun). -/
structure Sim (cfg : Cfg V) (s u : State V) : Prop where
  heap : u.heap = settleHeap s.heap (U s)
  table : ∀ p, T u p = (s.threads.flatMap (fun th => th.pc.vac)).count p + T s p
  locks : ∀ i, u.locks i = none
  handles : u.handles = s.handles
  zombies : u.zombies = s.zombies
  threads : u.threads = s.threads.map (Thread.settle cfg)

/-- The same program with another sharding. -/
def Cfg.reshard (cfg : Cfg V) (n : Nat) (f : UInt64 → Nat) : Cfg V := { cfg with shards := n, pick := f }

theorem settle_isIdle (cfg : Cfg V) (th : Thread V) : (th.settle cfg).isIdle = th.isIdle := by
  rcases th with ⟨pc, todo, ret, arg⟩
  cases pc <;> try rfl
  case newHit c sh b => simp [Thread.settle, Thread.isIdle, unwindCall]
  case newOccupied c sh b => cases h : c.dst <;> simp [Thread.settle, Thread.isIdle, h]

theorem get_settle (h : List (Addr × Cell V)) (n : Addr → Nat) (b : Addr) :
    get (settleHeap h n) b = (get h b).map fun x => { x with count := x.count - n b } := by
  induction h with
  | nil => rfl
  | cons e h ih =>
    obtain ⟨a, x⟩ := e
    simp only [settleHeap, List.map_cons, get] at ih ⊢
    split
    · rename_i h; subst h; rfl
    · exact ih

theorem keys_settle (h : List (Addr × Cell V)) (n : Addr → Nat) : keys (settleHeap h n) = keys h := by
  simp only [keys, settleHeap, List.map_map]; rfl

theorem stored_settle (cfg : Cfg V) (h : List (Addr × Cell V)) (n : Addr → Nat) : storedHandles cfg (settleHeap h n) = storedHandles cfg h := by
  simp only [storedHandles, settleHeap, List.flatMap_map]

theorem settle_free (h : List (Addr × Cell V)) (n : Addr → Nat) (b : Addr) : settleHeap (free h b) n = free (settleHeap h n) b := by
  simp only [settleHeap, free, List.filter_map]; rfl

/-- Storing a counter on both sides. -/
theorem settle_setCount (h : List (Addr × Cell V)) (n n' : Addr → Nat) (b : Addr) (k k' : Nat) (h1 : ∀ p, p ≠ b → n' p = n p) (h2 : k' = k - n' b) :
    settleHeap (setCount h b k) n' = setCount (settleHeap h n) b k' := by
  simp only [settleHeap, setCount, List.map_map]
  refine List.map_congr_left fun e _ => ?_
  simp only [Function.comp]
  by_cases he : e.1 = b
  · simp only [he, if_true, h2]
  · simp only [he, if_false, h1 _ he]

/-- A counter and its transient increments change alike. -/
theorem settle_same (h : List (Addr × Cell V)) (nd : ∀ b, (keys h).count b ≤ 1) (n n' : Addr → Nat) (b : Addr) (x : Cell V) (k : Nat)
    (hx : get h b = some x) (h1 : ∀ p, p ≠ b → n' p = n p) (h2 : k - n' b = x.count - n b) : settleHeap (setCount h b k) n' = settleHeap h n := by
  simp only [settleHeap, setCount, List.map_map]
  refine List.map_congr_left fun e he => ?_
  simp only [Function.comp]
  by_cases hb : e.1 = b
  · have := get_of_mem_nodup he nd
    rw [hb, hx] at this
    cases this
    simp only [hb, if_true, h2]
  · simp only [hb, if_false, h1 _ hb]

theorem U_set {s s' : State V} {t : Tid} {th th' : Thread V} (ht : s.threads[t]? = some th) (hs : s'.threads = s.threads.set t th')
    (h : th'.pc.undoing = th.pc.undoing) : U s' = U s := by
  funext p
  have := undoing_set s.threads th' ht p
  rw [h] at this
  simp only [U, hs]; omega

theorem vac_count_set (l : List (Thread V)) {t : Tid} {th : Thread V} (th' : Thread V) (h : l[t]? = some th) (p : Addr) :
    ((l.set t th').flatMap (fun th => th.pc.vac)).count p + th.pc.vac.count p = (l.flatMap (fun th => th.pc.vac)).count p + th'.pc.vac.count p :=
  count_flatMap_set _ p l t th th' h

theorem Sim.thread {cfg : Cfg V} {s u : State V} (S : Sim cfg s u) {t : Tid} {th : Thread V} (ht : s.threads[t]? = some th) :
    u.threads[t]? = some (th.settle cfg) := by
  rw [S.threads, List.getElem?_map, ht]; rfl

/-- One thread moves on both sides. -/
theorem Sim.next {cfg : Cfg V} {s u s' u' : State V} (S : Sim cfg s u) {t : Tid} {th th' : Thread V} (ht : s.threads[t]? = some th)
    (hs : s'.threads = s.threads.set t th') (hu : u'.threads = u.threads.set t (th'.settle cfg)) (hl : ∀ i, u'.locks i = none)
    (hh : u'.handles = s'.handles) (hz : u'.zombies = s'.zombies) (hheap : u'.heap = settleHeap s'.heap (U s'))
    (htab : ∀ p, T u' p + T s p + th.pc.vac.count p = T u p + T s' p + th'.pc.vac.count p) : Sim cfg s' u' where
  heap := hheap
  table := fun p => by
    have h1 := vac_count_set s.threads th' ht p
    have h2 := S.table p
    have h3 := htab p
    rw [hs]; omega
  locks := hl
  handles := hh
  zombies := hz
  threads := by rw [hu, hs, S.threads, List.map_set]

/-- One thread moves, inside its critical section. -/
theorem Sim.stutter {cfg : Cfg V} {s u s' : State V} (S : Sim cfg s u) {t : Tid} {th th' : Thread V} (ht : s.threads[t]? = some th)
    (hs : s'.threads = s.threads.set t th') (he : th'.settle cfg = th.settle cfg)
    (hh : s'.handles = s.handles) (hz : s'.zombies = s.zombies) (hheap : settleHeap s'.heap (U s') = settleHeap s.heap (U s))
    (htab : ∀ p, T s p + th.pc.vac.count p = T s' p + th'.pc.vac.count p) : Sim cfg s' u := by
  refine S.next ht hs ?_ S.locks (by rw [S.handles, hh]) (by rw [S.zombies, hz]) (by rw [S.heap, hheap]) fun p => by have := htab p; omega
  have h1 := S.thread ht
  rw [he]
  refine (List.ext_getElem? fun i => ?_)
  rw [set_getElem? _ _ _ _ _ h1]
  split
  · rename_i h; rw [h, h1]
  · rfl

theorem Sim.get {cfg : Cfg V} {s u : State V} (S : Sim cfg s u) {b : Addr} {x : Cell V} (hx : get s.heap b = some x) :
    Arc.get u.heap b = some { x with count := x.count - U s b } := by
  rw [S.heap, get_settle, hx]; rfl

theorem Sim.get' {cfg : Cfg V} {s u : State V} (S : Sim cfg s u) {b : Addr} {x : Cell V} (hx : Arc.get s.heap b = some x) (h0 : U s b = 0) :
    Arc.get u.heap b = some x := by
  rw [S.get hx, h0]; rfl

theorem Sim.mem {cfg : Cfg V} {s u : State V} (S : Sim cfg s u) {b : Addr} :
    b ∈ u.table ↔ b ∈ s.table ∨ ∃ (t : Tid) (th : Thread V) (c : Call V) (sh : Nat), s.threads[t]? = some th ∧ th.pc = .newVacant c sh b := by
  rw [← List.count_pos_iff, ← List.count_pos_iff (l := s.table)]
  have h1 := S.table b
  have h2 := count_flatMap_pos (fun th : Thread V => th.pc.vac) b s.threads
  simp only [T] at h1
  constructor
  · intro h
    rcases Nat.eq_zero_or_pos (s.table.count b) with h0 | h0
    · obtain ⟨t, th, ht, hb⟩ := h2.mp (by omega)
      refine Or.inr ⟨t, th, ?_⟩
      cases hpc : th.pc <;> simp [hpc, Pc.vac] at hb
      rename_i c sh r
      subst hb
      exact ⟨c, sh, ht, rfl⟩
    · exact Or.inl h0
  · rintro (h | ⟨t, th, c, sh, ht, hpc⟩)
    · omega
    · have := h2.mpr ⟨t, th, ht, by simp [hpc, Pc.vac]⟩
      omega

section
variable [BEq V]

omit [BEq V] in
/-- `follow` and `borrow` only look at the values. -/
theorem Sim.follow {cfg : Cfg V} {s u : State V} (S : Sim cfg s u) (n : Nat) (f : UInt64 → Nat) (path : List Addr) :
    ∀ p, follow (cfg.reshard n f) u p path = follow cfg s p path := by
  induction path with
  | nil =>
    intro p
    simp only [Arc.follow, S.heap, get_settle]
    cases Arc.get s.heap p <;> rfl
  | cons q path ih =>
    intro p
    simp only [Arc.follow, S.heap, get_settle]
    cases Arc.get s.heap p with
    | none => rfl
    | some c => simp only [Option.map_some, ih]; rfl

omit [BEq V] in
theorem Sim.borrow {cfg : Cfg V} {s u : State V} (S : Sim cfg s u) (n : Nat) (f : UInt64 → Nat) (path : List Addr) :
    borrow (cfg.reshard n f) u path = borrow cfg s path := by
  cases path with
  | nil => rfl
  | cons p path => simp only [Arc.borrow, S.follow, S.handles]

theorem find_unique [Hashable V] [LawfulHashable V] {u : State V} {v : V} {r : Addr} {x : Cell V} (h1 : r ∈ u.table) (h2 : get u.heap r = some x)
    (h3 : (x.data == v) = true) (h : ∀ r' x', r' ∈ u.table → get u.heap r' = some x' → (x'.data == v) = true → r' = r) : find u v = some r := by
  cases hf : find u v with
  | none => have := find_none hf r x h1 h2; rw [h3] at this; cases this
  | some r' =>
    obtain ⟨h4, x', h5, h6⟩ := find_some hf
    rw [h r' x' h4 h5 h6]

theorem find_absent [Hashable V] {u : State V} {v : V} (h : ∀ r x, r ∈ u.table → get u.heap r = some x → (x.data == v) = false) : find u v = none := by
  cases hf : find u v with
  | none => rfl
  | some r =>
    obtain ⟨h4, x, h5, h6⟩ := find_some hf
    rw [h r x h4 h5] at h6; cases h6

section source
variable [EquivBEq V] [Hashable V] [LawfulHashable V] {cfg : Cfg V} {s u : State V}

theorem Sim.tableOk (S : Sim cfg s u) (I : Inv cfg s) : tableOk u = true := by
  simp only [Arc.tableOk, List.all_eq_true]
  intro b hb
  rw [get_isSome, S.heap, keys_settle]
  rcases S.mem.mp hb with h | ⟨t, th, c, sh, ht, hpc⟩
  · exact I.mem_keys h
  · have := (I.th t th ht).pc
    rw [hpc] at this
    exact mem_keys_of_get this.2.2.1

/-- The registered object with a given value is unique on the other side, too. -/
theorem Sim.uniq (S : Sim cfg s u) (I : Inv cfg s) {v : V} {r : Addr} (hr : matches' s r v) :
    ∀ r' x', r' ∈ u.table → Arc.get u.heap r' = some x' → (x'.data == v) = true → r' = r := by
  intro r' x' h1 h2 h3
  obtain ⟨hr, x, hx, hv⟩ := hr
  rw [S.heap, get_settle] at h2
  cases h4 : Arc.get s.heap r' with
  | none => rw [h4] at h2; cases h2
  | some y =>
    rw [h4] at h2
    simp only [Option.map_some, Option.some.injEq] at h2
    have h5 : (y.data == v) = true := by rw [← h2] at h3; exact h3
    rcases S.mem.mp h1 with h | ⟨t, th, c, sh, ht, hpc⟩
    · exact I.uniq r' r y x h hr h4 hx (PartialEquivBEq.trans h5 (PartialEquivBEq.symm hv))
    · exfalso
      have hi := (I.th t th ht).pc
      rw [hpc] at hi
      obtain ⟨_, _, h6, _, h7⟩ := hi
      rw [h4] at h6; cases h6
      have := h7 r x hr hx
      rw [PartialEquivBEq.trans hv (PartialEquivBEq.symm h5)] at this
      cases this

/-- A value that is not registered, and whose shard is not locked, is not registered on the other side. -/
theorem Sim.absent (S : Sim cfg s u) (I : Inv cfg s) {v : V} (hf : find s v = none) (hl : s.locks (cfg.shardOf v) = none) :
    ∀ r x, r ∈ u.table → Arc.get u.heap r = some x → (x.data == v) = false := by
  intro r x h1 h2
  rw [S.heap, get_settle] at h2
  cases h4 : Arc.get s.heap r with
  | none => rw [h4] at h2; cases h2
  | some y =>
    rw [h4] at h2
    simp only [Option.map_some, Option.some.injEq] at h2
    subst h2
    rcases S.mem.mp h1 with h | ⟨t, th, c, sh, ht, hpc⟩
    · exact find_none hf r y h h4
    · have hi := (I.th t th ht).pc
      rw [hpc] at hi
      obtain ⟨_, _, h6, h7, _⟩ := hi
      rw [h4] at h6; cases h6
      cases hc : (c.val == v) with
      | false => rfl
      | true =>
        have := (I.lk (cfg.shardOf v) t).mpr ⟨th, ht, by rw [hpc, ← shardOf_congr hc, ← h7]; rfl⟩
        rw [hl] at this; cases this

omit [EquivBEq V] [LawfulHashable V] in
/-- Objects that have handles have no transient increments. -/
theorem Inv.calm_count (I : Inv cfg s) {p : Addr} (h : 0 < A cfg s p) : U s p = 0 := by
  rcases Nat.eq_zero_or_pos (U s p) with h0 | h0
  · exact h0
  · have := I.undo p h0; omega

omit [EquivBEq V] [LawfulHashable V] in
theorem Inv.calm_priv (I : Inv cfg s) {t : Tid} {th : Thread V} (ht : s.threads[t]? = some th) {p : Addr} (h : p ∈ th.pc.priv) : U s p = 0 := by
  rcases Nat.eq_zero_or_pos (U s p) with h0 | h0
  · exact h0
  · have := (I.undo p h0).1
    exact absurd h (I.not_priv (List.count_pos_iff.mp this) ht)

omit [EquivBEq V] [LawfulHashable V] in
/-- Thread by thread, the other side has the same handles, except that a box about to be inserted already has one. -/
theorem settle_owned (th : Thread V) (h : ThInv cfg s th) (p : Addr) :
    ((th.settle cfg).owned cfg).count p = (th.owned cfg).count p + th.pc.vac.count p := by
  rcases th with ⟨pc, todo, ret, arg⟩
  have he := h.empty
  have hp := h.pc
  cases pc <;> try (simp [Thread.settle, Thread.owned, Pc.owned, Pc.vac]; done)
  case newHit c sh b =>
    obtain ⟨h1, h2⟩ := he rfl
    simp only at h1 h2
    subst h1; subst h2
    cases hc : c.conv <;> simp [Thread.settle, Thread.owned, Pc.owned, Pc.vac, unwindCall, hc, List.count_append, List.count_cons]
  case newVacant c sh b =>
    obtain ⟨h1, h2⟩ := he rfl
    simp only at h1 h2
    subst h1; subst h2
    simp [Thread.settle, Thread.owned, Pc.owned, Pc.vac]
  case newInserted c sh b =>
    obtain ⟨h1, h2⟩ := he rfl
    simp only at h1 h2
    subst h1; subst h2
    simp [Thread.settle, Thread.owned, Pc.owned, Pc.vac]
  case newOccupied c sh b =>
    cases hd : c.dst with
    | false => simp [Thread.settle, Thread.owned, Pc.owned, Pc.vac, hd]
    | true =>
      have := hp.1.2.2.1 hd
      simp [Thread.settle, Thread.owned, Pc.owned, Pc.vac, hd, this]

theorem Sim.A (S : Sim cfg s u) (I : Inv cfg s) (p : Addr) : A cfg u p = A cfg s p + (s.threads.flatMap (fun th => th.pc.vac)).count p := by
  have h : ∀ l : List (Thread V), (∀ th ∈ l, ThInv cfg s th) → ((l.map (Thread.settle cfg)).flatMap (Thread.owned cfg)).count p =
      (l.flatMap (Thread.owned cfg)).count p + (l.flatMap (fun th => th.pc.vac)).count p := by
    intro l
    induction l with
    | nil => intro _; rfl
    | cons th l ih =>
      intro hl
      have h1 := ih fun th h => hl th (List.mem_cons_of_mem _ h)
      have h2 := settle_owned th (hl th List.mem_cons_self) p
      simp only [List.map_cons, List.flatMap_cons, List.count_append] at h1 h2 ⊢
      omega
  have := h s.threads fun th hth => by
    obtain ⟨t, ht⟩ := List.getElem?_of_mem hth
    exact I.th t th ht
  rw [A_eq, A_eq, S.heap, S.handles, S.threads, stored_settle]
  omega

theorem Sim.small (S : Sim cfg s u) (I : Inv cfg s) (hv : cfg.Valid) : Small cfg u := by
  intro p
  have h1 := S.A I p
  have h2 := I.small p
  simp only [Arc.A] at h1
  rcases Nat.eq_zero_or_pos ((s.threads.flatMap (fun th => th.pc.vac)).count p) with h0 | h0
  · omega
  · obtain ⟨t, th, ht, hb⟩ := (count_flatMap_pos _ p s.threads).mp h0
    have hp : p ∈ th.pc.priv := by
      cases hpc : th.pc <;> simp [hpc, Pc.vac, Pc.priv] at hb ⊢
      exact hb
    have h3 : (s.threads.flatMap (fun th => th.pc.vac)).count p ≤ P s p := by
      have : ∀ l : List (Thread V), (l.flatMap (fun th => th.pc.vac)).count p ≤ (l.flatMap (fun th => th.pc.priv)).count p := by
        intro l
        induction l with
        | nil => exact Nat.le_refl _
        | cons th l ih =>
          simp only [List.flatMap_cons, List.count_append]
          have : th.pc.vac.count p ≤ th.pc.priv.count p := by cases th.pc <;> simp [Pc.vac, Pc.priv]
          omega
      exact this s.threads
    have h4 := I.nd p
    have h5 := I.split p
    have h6 : Arc.A cfg s p = 0 := by
      rcases Nat.eq_zero_or_pos (Arc.A cfg s p) with h | h
      · exact h
      · exact absurd hp (I.not_priv (List.count_pos_iff.mp (I.live p h)) ht)
    have := hv.W_ge
    simp only [Arc.A] at h6
    omega

end source
end
end Arc
