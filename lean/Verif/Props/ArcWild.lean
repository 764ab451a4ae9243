import Verif.Arc.Insert
import Verif.Arc.Demo
/-!
C62: how much of the contract of `Eq` and `Hash` the memory safety of `ArcIntern` really needs.

C61 shows that `ArcIntern` is unsound when `Eq` is not symmetric or values change. The theorems here show that there are only two
places where this matters: the removal by value in `drop` (arc.rs:321-322) and the insertion in `new` (arc.rs:254). As long as the
removal finds the very object whose last handle was dropped, or nothing, and the two lookups that dashmap makes during an insertion
agree that the key was not there before and is there afterwards, all other lookups may answer anything, keys may change their
hash, and nothing dangles.
-/
namespace Arc
variable {V : Type} [BEq V] [Hashable V]

omit [BEq V] [Hashable V] in
theorem wild_handles_live {cfg : Cfg V} {home : Addr → Nat} {s : State V} (hI : Wild.Inv cfg home s) {p : Addr}
    (hp : p ∈ allHandles cfg s) : (deref s p).isSome = true ∧ refcount s p = some ((allHandles cfg s).count p) := by
  have hA : 0 < A cfg s p := List.count_pos_iff.mpr hp
  obtain ⟨x, hx⟩ := hI.deref hA
  have hc := hI.cnt p x (hI.live p hA) hx
  have hu : U s p = 0 := by have := hI.undo p; omega
  refine ⟨by simp [Arc.deref, hx], ?_⟩
  simp only [refcount, hx, Option.map_some, Option.some.injEq]
  rw [hc, hu]; rfl

theorem SelfReach.base {cfg : Cfg V} {s : State V} (h : SelfReach cfg s) : Reach cfg s := by
  induction h with
  | init => exact .init
  | step _ hs _ he hS ih => exact ih.step hs he hS

theorem self_remove [PartialEquivBEq V] [LawfulHashable V] {cfg : Cfg V} (hv : cfg.Valid) {s : State V} (h : SelfReach cfg s)
    (a : Act V) : SelfRemove s a := by
  obtain ⟨_, hD⟩ := h.base.self hv
  cases a with
  | run t a =>
    intro th ht b x hpc hx r hf
    obtain ⟨home, hw, hH⟩ := h.wild hv
    have hI := hw.inv hv
    have hRb : 0 < R s b := (count_flatMap_pos _ b s.threads).mpr ⟨t, th, ht, by simp [hpc, Pc.removing]⟩
    have hp := hI.pend b
    have hT : 0 < T s b := by
      by_cases h : 0 < T s b ∧ A cfg s b = 0
      · exact h.1
      · rw [if_neg h] at hp; omega
    obtain ⟨m, y, hy, e⟩ := find_some hf
    exact hD.1 r b y x m (List.count_pos_iff.mp hT) hy hx e
  | _ => trivial

/-- **C62 (adversarial lookups).** No action touches freed memory: neither a step of a call, whatever its lookup answers, nor a
client's read, clone or drop through any handle it has. -/
theorem C62_arbitrary_lookups_no_ub {cfg : Cfg V} (hv : cfg.Valid) {home : Addr → Nat} {s : State V}
    (h : Ins.WildReach cfg home s) {a : Act V} (hs : a.Sane) {sh : Nat} {found after : Option Addr}
    (ha : Ins.Answer home s sh found after a) : Ins.wildStep sh found after cfg s a ≠ .ub := by
  have hI := (h.wild hv).inv hv
  rw [Ins.wildStep_eq hI ha]
  exact (Wild.step_kept hv hI hs ha.1).1

/-- **C62 (adversarial lookups).** Every handle that exists anywhere points to an allocated object, and `refcount` of it is the
number of handles to it. -/
theorem C62_arbitrary_lookups_handles_live {cfg : Cfg V} (hv : cfg.Valid) {home : Addr → Nat} {s : State V}
    (h : Ins.WildReach cfg home s) {p : Addr} (hp : p ∈ allHandles cfg s) :
    (deref s p).isSome = true ∧ refcount s p = some ((allHandles cfg s).count p) :=
  wild_handles_live ((h.wild hv).inv hv) hp

/-- **C62 (the condition on insertions is needed).** If the first lookup of an insertion finds an equal element, or the second finds
nothing, freed memory is touched: in the same step, or in the next step of the thread, which drops the handle to be returned. -/
theorem C62_insertion_lookups_matter {cfg : Cfg V} (hv : cfg.Valid) {home : Addr → Nat} {s : State V} (h : Ins.WildReach cfg home s)
    {t : Tid} {th : Thread V} (ht : s.threads[t]? = some th) {c sh b} (hpc : th.pc = .newVacant c sh b) (i : Nat) (a : Addr) :
    (∀ r after, Ins.wildStep i (some r) after cfg s (.run t a) = .ub) ∧
    ∃ s', Ins.wildStep i none none cfg s (.run t a) = .ok s' ∧ b ∈ s'.table ∧ deref s' b = none ∧
      ∀ i' found after a', Ins.wildStep i' found after cfg s' (.run t a') = .ub := by
  have hI := (h.wild hv).inv hv
  refine ⟨fun r after => ?_, Ins.dangling s t sh b, ?_, List.mem_cons_self, ?_, fun i' found after a' => ?_⟩
  · simp [Ins.wildStep, ht, Ins.wildRun, hpc, hI.tableOk, Ins.insert]
  · simp [Ins.wildStep, ht, Ins.wildRun, hpc, hI.tableOk, Ins.insert]
  · exact Ins.dangling_deref s t sh b
  · simp only [Ins.wildStep, Ins.dangling_thread ht]
    simp only [Ins.wildRun, Wild.run, run]
    rw [show get (Ins.dangling s t sh b).heap b = none from Ins.dangling_get s t sh b]

/-- **C62 (deterministic `Eq` and `Hash`).** With arbitrary `BEq` and `Hashable`, lawful or not: an execution that inserts only
values that equal themselves, and all of whose removals find the object itself or nothing, is safe. -/
theorem C62_self_removal_suffices {cfg : Cfg V} (hv : cfg.Valid) {s : State V}
    (h : Ins.Reach cfg (fun s a => SelfRemove s a ∧ Ins.InsertsSelfEqual s a) s) :
    (∀ a : Act V, a.Sane → SelfRemove s a → Ins.InsertsSelfEqual s a → Ins.step cfg s a ≠ .ub) ∧
    ∀ p ∈ allHandles cfg s, (deref s p).isSome = true ∧ refcount s p = some ((allHandles cfg s).count p) := by
  have h := h.self hv
  obtain ⟨home, hw, hH⟩ := h.wild hv
  refine ⟨fun a hs hr hi => ?_, fun p hp => wild_handles_live (hw.inv hv) hp⟩
  rw [Ins.step_eq hv h hi]
  cases a with
  | run t b =>
    cases ht : s.threads[t]? with
    | none => simp [step, ht]
    | some th =>
      have := (Wild.step_kept hv (hw.inv hv) hs (lookup_answer hH ht hr)).1
      simpa only [Wild.step, step, ht, wild_run] using this
  | _ => exact (Wild.step_kept hv (hw.inv hv) (sh₀ := 0) (found := none) hs trivial).1

/-- **C62 (equality need not be reflexive).** If `Eq` is symmetric and transitive and equal values have equal hashes, but some
values are not equal to themselves (like NaN), then removals do find the object itself or nothing, and memory safety holds for
every execution of every program that never interns one of these values. -/
theorem C62_partial_equivalence_safe [PartialEquivBEq V] [LawfulHashable V] {cfg : Cfg V} (hv : cfg.Valid) {s : State V}
    (h : Ins.Reach cfg (fun _ a => Ins.SuppliesSelfEqual a) s) :
    (∀ a : Act V, a.Sane → Ins.step cfg s a ≠ .ub) ∧
    ∀ p ∈ allHandles cfg s, (deref s p).isSome = true ∧ refcount s p = some ((allHandles cfg s).count p) := by
  have h' : Ins.Reach cfg (fun s a => True ∧ Ins.SuppliesSelfEqual a) s := h.mono fun _ _ _ h => ⟨trivial, h⟩
  obtain ⟨h1, hA⟩ := h'.supplied hv fun s a hs _ => self_remove hv hs a
  obtain ⟨h2, h3⟩ := C62_self_removal_suffices hv h1
  have hself := h1.self hv
  refine ⟨fun a hs => h2 a hs (self_remove hv hself a) ?_, h3⟩
  cases a with
  | run t a =>
    intro th ht c sh b hpc
    obtain ⟨home, hw, _⟩ := hself.wild hv
    have hpi := ((hw.inv hv).th t th ht).pc
    rw [hpc] at hpi
    exact hA t th ht c.val hpi.1.1
  | _ => trivial

/-- **C62 (what happens to a value that is not equal to itself), in any state.** A thread that gets as far as inserting such a value
touches freed memory with its next but one step. -/
theorem C62_not_reflexive_ub_anywhere {cfg : Cfg V} (hv : cfg.Valid) {s : State V}
    (h : Ins.Reach cfg (fun s a => SelfRemove s a ∧ Ins.InsertsSelfEqual s a) s) {t : Tid} {th : Thread V}
    (ht : s.threads[t]? = some th) {c sh b} (hpc : th.pc = .newVacant c sh b) (hne : (c.val == c.val) = false) (a : Addr) :
    ∃ s', Ins.step cfg s (.run t a) = .ok s' ∧ b ∈ s'.table ∧ deref s' b = none ∧ ∀ a', Ins.step cfg s' (.run t a') = .ub := by
  refine ⟨Ins.dangling s t sh b, ?_, List.mem_cons_self, Ins.dangling_deref s t sh b, fun a' => ?_⟩
  · simp only [Ins.step, ht, Ins.run_vacant hv (h.self hv) ht hpc, hne]
    rfl
  · simp only [Ins.step, Ins.dangling_thread ht]
    simp only [Ins.run, run]
    rw [show get (Ins.dangling s t sh b).heap b = none from Ins.dangling_get s t sh b]

/-- **C62 (what happens to a value that is not equal to itself), from the start.** For every type and every value of it that
is not equal to itself: the very first call of `new` with this value touches freed memory, without any other thread, panic of user
code, or use of a handle by the client. -/
theorem C62_not_reflexive_ub {cfg : Cfg V} {v : V} (hk : cfg.kids v = []) (hne : (v == v) = false) :
    ∃ s : State V, Ins.exec cfg init [.spawn, .new 0 v false, .run 0 0, .run 0 1, .run 0 0, .run 0 0] = .ok s ∧
      ∀ a, Ins.step cfg s (.run 0 a) = .ub := by
  simp [Ins.exec, Ins.step, step, init, Thread.isIdle, ownsAll, hk, eraseAll, Ins.run, run, Ins.insert, State.setThread, tableOk, find,
    keys, get, State.lock, State.unlock, keyEq, hne, Ins.dangling, free]

/-! ### A type with a value that is not equal to itself -/
namespace NanLike

/-- `none` stands for NaN. -/
structure Val where
  n : Option Nat
  deriving DecidableEq
instance : BEq Val := ⟨fun a b => a.n.isSome && decide (a.n = b.n)⟩
instance : Hashable Val := ⟨fun a => UInt64.ofNat (a.n.getD 0)⟩

theorem beq_iff (a b : Val) : (a == b) = true ↔ a.n.isSome = true ∧ a.n = b.n := by
  show (a.n.isSome && decide (a.n = b.n)) = true ↔ _
  simp

instance : PartialEquivBEq Val where
  symm := by intro a b h; rw [beq_iff] at *; exact ⟨h.2 ▸ h.1, h.2.symm⟩
  trans := by intro a b c h1 h2; rw [beq_iff] at *; exact ⟨h1.1, h1.2.trans h2.2⟩
instance : LawfulHashable Val where
  hash_eq := by
    intro a b h; rw [beq_iff] at h
    show UInt64.ofNat (a.n.getD 0) = UInt64.ofNat (b.n.getD 0)
    rw [h.2]

def cfg : Cfg Val := { kids := fun _ => [], shards := 1, pick := fun _ => 0, W := 2 ^ 64 }
theorem valid : cfg.Valid := ⟨fun _ => Nat.zero_lt_one, by decide⟩

/-- Intern 7, then NaN up to the insertion, on the same thread. -/
def script : List (Act Val) :=
  [.spawn, .new 0 ⟨some 7⟩ false, .run 0 0, .run 0 10, .run 0 0, .run 0 0, .run 0 0, .run 0 0,
   .new 0 ⟨none⟩ false, .run 0 0, .run 0 20, .run 0 0]

/-- Is this an allowed action? -/
def allowed (s : State Val) : Act Val → Bool
  | .run t _ => match s.threads[t]? with
    | some th => match th.pc with
      | .newVacant c _ _ => c.val == c.val
      | .dropRemove _ => false
      | _ => true
    | none => true
  | .panicInsert _ => false
  | _ => true

def checked (s : State Val) : List (Act Val) → Option (State Val)
  | [] => some s
  | a :: l => match Ins.step cfg s a with
    | .ok s' => if allowed s a && decide ((allHandles cfg s').length < cfg.W) then checked s' l else none
    | _ => none

theorem checked_reach {l : List (Act Val)} {s s' : State Val} (h : checked s l = some s')
    (h0 : Ins.Reach cfg (fun s a => SelfRemove s a ∧ Ins.InsertsSelfEqual s a) s) :
    Ins.Reach cfg (fun s a => SelfRemove s a ∧ Ins.InsertsSelfEqual s a) s' := by
  induction l generalizing s with
  | nil => cases h; exact h0
  | cons a l ih =>
    simp only [checked] at h
    split at h
    · rename_i s1 hs
      split at h
      · rename_i hc
        simp only [Bool.and_eq_true, decide_eq_true_eq] at hc
        refine ih h (h0.step ?_ ?_ hs (small_of_length hc.2))
        · cases a <;> first | trivial | (simp [allowed] at hc)
        · cases a <;> try exact ⟨trivial, trivial⟩
          rename_i t a
          refine ⟨fun th ht b x hpc => ?_, fun th ht c sh b hpc => ?_⟩
          · have ht : s.threads[t]? = some th := ht
            simp [allowed, ht, hpc] at hc
          · have ht : s.threads[t]? = some th := ht
            simpa [allowed, ht, hpc] using hc.1
      · cases h
    · cases h

end NanLike

/-- The hypotheses of `C62_not_reflexive_ub_anywhere` (and of `C62_self_removal_suffices`) are met by a state in which another object has
a handle. -/
example : ∃ s th c sh, Ins.Reach NanLike.cfg (fun s a => SelfRemove s a ∧ Ins.InsertsSelfEqual s a) s ∧ s.handles = [10] ∧
    s.threads[0]? = some th ∧ th.pc = .newVacant c sh 20 ∧ (c.val == c.val) = false := by
  have h : ((NanLike.checked init NanLike.script).any fun s => decide (s.handles = [10]) && s.threads[0]?.any fun th =>
    match th.pc with | .newVacant c _ b => decide (b = 20) && !(c.val == c.val) | _ => false) = true := by decide
  obtain ⟨s, e, c⟩ := (Option.any_eq_true ..).mp h
  simp only [Bool.and_eq_true, decide_eq_true_eq] at c
  obtain ⟨c1, c2⟩ := c
  obtain ⟨th, ht, c2⟩ := (Option.any_eq_true ..).mp c2
  split at c2
  · rename_i c _ b hpc
    simp only [Bool.and_eq_true, decide_eq_true_eq, Bool.not_eq_true'] at c2
    exact ⟨s, th, c, _, NanLike.checked_reach e .init, c1, ht, by rw [hpc, c2.1], c2.2⟩
  · cases c2

/-- The hypotheses of `C62_partial_equivalence_safe` are met by a state with a handle. -/
example : ∃ s, Ins.Reach NanLike.cfg (fun _ a => Ins.SuppliesSelfEqual a) s ∧ s.handles = [10] := by
  have key : ∀ (l : List (Act NanLike.Val)) (s s' : State NanLike.Val), (∀ a ∈ l, a.Sane ∧ Ins.SuppliesSelfEqual a) →
      NanLike.checked s l = some s' → Ins.Reach NanLike.cfg (fun _ a => Ins.SuppliesSelfEqual a) s →
      Ins.Reach NanLike.cfg (fun _ a => Ins.SuppliesSelfEqual a) s' := by
    intro l
    induction l with
    | nil => intro s s' _ h h0; cases h; exact h0
    | cons a l ih =>
      intro s s' hl h h0
      simp only [NanLike.checked] at h
      split at h
      · rename_i s1 hs
        split at h
        · rename_i hc
          simp only [Bool.and_eq_true, decide_eq_true_eq] at hc
          obtain ⟨h1, h2⟩ := hl a List.mem_cons_self
          exact ih s1 s' (fun b hb => hl b (List.mem_cons_of_mem _ hb)) h (h0.step h1 h2 hs (small_of_length hc.2))
        · cases h
      · cases h
  have h : ((NanLike.checked init (NanLike.script.take 8)).any fun s => decide (s.handles = [10])) = true := by decide
  obtain ⟨s, e, c⟩ := (Option.any_eq_true ..).mp h
  rw [decide_eq_true_eq] at c
  refine ⟨s, key _ _ _ ?_ e .init, c⟩
  intro a ha
  simp only [NanLike.script, List.take, List.mem_cons, List.not_mem_nil, or_false] at ha
  rcases ha with rfl | rfl | rfl | rfl | rfl | rfl | rfl | rfl <;> exact ⟨trivial, by first | trivial | decide⟩

/-- The first call of `new` with NaN. -/
example : ∃ s : State NanLike.Val, Ins.exec NanLike.cfg init [.spawn, .new 0 ⟨none⟩ false, .run 0 0, .run 0 1, .run 0 0, .run 0 0] = .ok s ∧
    ∀ a, Ins.step NanLike.cfg s (.run 0 a) = .ub := C62_not_reflexive_ub rfl rfl

/-! ### Executions with adversarial lookups -/

/-- One thing that can happen: an action with the answer of its lookup, or a store into a value. -/
inductive WildAct (V : Type) where
  | act (sh : Nat) (found : Option Addr) (a : Act V)
  | store (path : List Addr) (v : V)

/-- Is the answer of the lookup an admissible one? -/
def wildOk (home : Addr → Nat) (s : State V) (sh : Nat) (found : Option Addr) (a : Act V) : Bool :=
  match found with
  | none => true
  | some r => decide (r ∈ s.table) && home r == sh && match a with
    | .run t _ => s.threads[t]?.all fun th => match th.pc with
      | .dropRemove b => r == b
      | .newVacant .. => false
      | _ => true
    | _ => false

/-- Run a list of these, checking all conditions. The second lookup of an insertion always finds something. -/
def wildExec [DecidableEq V] (cfg : Cfg V) (home : Addr → Nat) (s : State V) : List (WildAct V) → Option ((Addr → Nat) × State V)
  | [] => some (home, s)
  | .act sh found a :: l =>
    match Ins.wildStep sh found (some 0) cfg s a with
    | .ok s' => if a.sane && wildOk home s sh found a && decide ((allHandles cfg s').length < cfg.W) then wildExec cfg (Wild.rehome home s a) s' l else none
    | _ => none
  | .store path v :: l =>
    match borrow cfg s path with
    | .ok p => match get s.heap p with
      | some x => if cfg.kids v = cfg.kids x.data then wildExec cfg home { s with heap := setData s.heap p v } l else none
      | none => none
    | _ => none

theorem wildExec_reach [DecidableEq V] {cfg : Cfg V} {l : List (WildAct V)} {home home' : Addr → Nat} {s s' : State V}
    (h : wildExec cfg home s l = some (home', s')) (h0 : Ins.WildReach cfg home s) : Ins.WildReach cfg home' s' := by
  induction l generalizing home s with
  | nil => simp only [wildExec, Option.some.injEq, Prod.mk.injEq] at h; obtain ⟨rfl, rfl⟩ := h; exact h0
  | cons w l ih =>
    cases w with
    | act sh found a =>
      simp only [wildExec] at h
      split at h
      · rename_i s1 hs
        split at h
        · rename_i hc
          simp only [Bool.and_eq_true, decide_eq_true_eq] at hc
          obtain ⟨⟨hc1, hc2⟩, hc3⟩ := hc
          refine ih h (h0.step ?_ ?_ hs (small_of_length hc3))
          · cases a <;> simp_all [Act.Sane, Act.sane]
          · cases a <;> try exact ⟨trivial, trivial⟩
            rename_i t b
            refine ⟨?_, fun th ht c sh' b hpc => ⟨?_, by simp⟩⟩
            rotate_left
            · have ht : s.threads[t]? = some th := ht
              cases found with
              | none => rfl
              | some r => simp [wildOk, ht, hpc] at hc2
            intro th ht r hr
            have ht : s.threads[t]? = some th := ht
            have hr : found = some r := hr
            subst hr
            simp only [wildOk, Bool.and_eq_true, decide_eq_true_eq, beq_iff_eq, ht, Option.all_some] at hc2
            refine ⟨hc2.1.1, hc2.1.2, fun b hb => ?_⟩
            have := hc2.2
            rw [hb] at this
            simpa using this
        · cases h
      · cases h
    | store path v =>
      simp only [wildExec] at h
      split at h
      · rename_i p hp
        split at h
        · rename_i x hx
          split at h
          · exact ih h (h0.store hp hx ‹_›)
          · cases h
        · cases h
      · cases h

/-- Lookups that no `Eq` and `Hash` explain: `new(1)` allocates box 10 in shard 0; `new(1)` looks in shard 3, misses and
allocates box 20 there; box 10 is overwritten with 9; `new(1)` is given box 10; the last handle of 20 is dropped, but its removal
finds nothing; both handles of 10 are dropped, and its removal finds it. -/
def wildTrace : List (WildAct Val) :=
  [.act 0 none .spawn, .act 0 none (.new 0 ⟨1, 0, []⟩ false), .act 0 none (r 0), .act 0 none (r 0 10), .act 0 none (r 0),
   .act 0 none (r 0), .act 0 none (r 0), .act 0 none (r 0),
   .act 0 none (.new 0 ⟨1, 0, []⟩ false), .act 1 none (r 0), .act 0 none (r 0 20), .act 3 none (r 0),
   .act 0 none (r 0), .act 0 none (r 0), .act 0 none (r 0),
   .store [10] ⟨9, 0, []⟩,
   .act 0 none (.new 0 ⟨1, 0, []⟩ false), .act 0 (some 10) (r 0), .act 0 none (r 0), .act 0 none (r 0), .act 0 none (r 0),
   .act 0 none (.drop 0 20), .act 0 none (r 0), .act 7 none (r 0)]

def wildTrace' : List (WildAct Val) := wildTrace ++
  [.act 0 none (.drop 0 10), .act 0 none (r 0), .act 0 none (.drop 0 10), .act 0 none (r 0), .act 0 (some 10) (r 0), .act 0 none (r 0)]

/-- The hypotheses of the first two theorems are met there. -/
example : ∃ home s, Ins.WildReach demoCfg home s ∧ s.handles = [10, 10] ∧ deref s 10 = some ⟨9, 0, []⟩ ∧ refcount s 10 = some 2 ∧
    s.table = [20, 10] := by
  have h : ((wildExec demoCfg (fun _ => 0) init wildTrace).any fun hs =>
    decide (hs.2.handles = [10, 10] ∧ deref hs.2 10 = some ⟨9, 0, []⟩ ∧ refcount hs.2 10 = some 2 ∧ hs.2.table = [20, 10])) = true := by
    decide
  obtain ⟨⟨home, s⟩, e, c⟩ := (Option.any_eq_true ..).mp h
  rw [decide_eq_true_eq] at c
  exact ⟨home, s, wildExec_reach e .init, c⟩

example : ∃ home s, Ins.WildReach demoCfg home s ∧ s.handles = [] ∧ s.heap.map (·.1) = [20] ∧ s.table = [20] := by
  have h : ((wildExec demoCfg (fun _ => 0) init wildTrace').any fun hs =>
    decide (hs.2.handles = [] ∧ hs.2.heap.map (·.1) = [20] ∧ hs.2.table = [20])) = true := by
    decide
  obtain ⟨⟨home, s⟩, e, c⟩ := (Option.any_eq_true ..).mp h
  rw [decide_eq_true_eq] at c
  exact ⟨home, s, wildExec_reach e .init, c⟩

end Arc
