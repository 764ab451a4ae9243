import Verif.Client.CopyTraits
import Verif.Props.HashConsCopy
/-
C98: terms made of handles that are `Copy` are ordered, printed, written and read as the trees that they stand for.

As C95, for `Intern` and the `Intern` of typearena.rs; of the handles of arenas, which have neither `Ord` nor serde, only writing is claimed
(arena.rs:536-560), since that is how `Display` and `Debug` work. The reads of `cmp` and of writing take place at any times, while the program and the
rest of the process go on.
-/
namespace Client.Copy
open Arc (Tree)
open Pool (Ptr)
open Client.Term (order text depth)

variable {L R : Type} [BEq L] [LawfulBEq L] [Hashable (Node L Ptr)] {ps : List (Prog L R)} {n : Nat}

/-! ### `Intern`, `ArenaIntern` -/

section
variable {K : Type} [DecidableEq K] {cfg : Pool.Cfg K (Node L Ptr)} {k : K} {w w' : World (pool cfg k) R} {σ : Nat → World (pool cfg k) R}

/-- **C98, `Intern`**: `cmp` of two handles that threads have is the order of their trees, by labels and then by children from left to right,
whatever happens between its reads. It needs no more room on the stack than the depth of the less deep tree. -/
theorem C98_pool_cmp (lay : cfg.Layout) (h : Starts ps n w) (hr : WRun w (σ 0)) (hs : Passes σ) {i j a b : Nat} {th tu : Thread L R Ptr}
    (ht : (σ 0).conf.threads[i]? = some th) (hu : (σ 0).conf.threads[j]? = some tu) {p q : Ptr} (hp : th.locals[a]? = some p)
    (hq : tu.locals[b]? = some q) {t u : Tree L} (h1 : Stands (Src.PoolCode.deref (σ 0).state k) p t)
    (h2 : Stands (Src.PoolCode.deref (σ 0).state k) q u) (c : L → L → Ordering) (τ : Nat → Nat) {m : Nat} (hm : depth t ≤ m ∨ depth u ≤ m) :
    ∃ n, cmpAt c (readsAt σ τ) m 0 p q = some (order c t u, n) :=
  cmp_run (pool_laws lay) pool_copies h hr hs ht hu hp hq h1 h2 c τ hm

/-- **C98, `Intern` and `ArenaIntern`**: writing a handle writes its tree. -/
theorem C98_pool_write (lay : cfg.Layout) (h : Starts ps n w) (hr : WRun w (σ 0)) (hs : Passes σ) {i a : Nat} {th : Thread L R Ptr}
    (ht : (σ 0).conf.threads[i]? = some th) {p : Ptr} (hp : th.locals[a]? = some p) {t : Tree L}
    (h1 : Stands (Src.PoolCode.deref (σ 0).state k) p t) (τ : Nat → Nat) {m : Nat} (hm : depth t ≤ m) :
    ∃ n, writeAt (readsAt σ τ) m 0 p = some (text t, n) :=
  write_run (pool_laws lay) pool_copies h hr hs ht hp h1 τ hm

/-- **C98, `Intern` and `ArenaIntern`**: handles are equal just if `cmp` says so, and just if they are written the same. -/
theorem C98_pool_consistent (lay : cfg.Layout) (h : Starts ps n w) (hr : WRun w w') {i j a b : Nat} {th tu : Thread L R Ptr}
    (ht : w'.conf.threads[i]? = some th) (hu : w'.conf.threads[j]? = some tu) {p q : Ptr} (hp : th.locals[a]? = some p)
    (hq : tu.locals[b]? = some q) {t u : Tree L} (h1 : Stands (Src.PoolCode.deref w'.state k) p t)
    (h2 : Stands (Src.PoolCode.deref w'.state k) q u) {c : L → L → Ordering} (hc : ∀ l m, c l m = .eq ↔ l = m) :
    (Traits.eq p q = true ↔ order c t u = .eq) ∧ (Traits.eq p q = true ↔ text t = text u) :=
  consistent_run (pool_laws lay) pool_copies h hr ht hu hp hq h1 h2 hc

/-- **C98, `Intern`**: reading terms in gives the same handle just if they were written the same. -/
theorem C98_pool_read (lay : cfg.Layout) {ps : List (Prog L Bool)} {w w' : World (pool cfg k) Bool} (h : Starts ps n w) (hr : WRun w w') {j : Nat}
    {t u : Tree L} (hp : ps[j]? = some (readTwo t u)) {r : Bool} (hd : w'.conf.progs[j]? = some (.done r)) : r = true ↔ text t = text u :=
  read_run (pool_laws lay) pool_copies h hr hp hd

end

/-! ### The `Intern` of typearena.rs -/

section
variable {K : Type} [DecidableEq K] {cfg : Src.NewCode.Cfg K (Node L Ptr)} {k : K} {w w' : World (newIntern cfg k) R}
  {σ : Nat → World (newIntern cfg k) R}

/-- **C98, typearena.rs**: `cmp` of two handles is the order of their trees. -/
theorem C98_new_cmp (lay : cfg.Layout) (h : Starts ps n w) (hr : WRun w (σ 0)) (hs : Passes σ) {i j a b : Nat} {th tu : Thread L R Ptr}
    (ht : (σ 0).conf.threads[i]? = some th) (hu : (σ 0).conf.threads[j]? = some tu) {p q : Ptr} (hp : th.locals[a]? = some p)
    (hq : tu.locals[b]? = some q) {t u : Tree L} (h1 : Stands (Src.NewCode.deref (σ 0).state k) p t)
    (h2 : Stands (Src.NewCode.deref (σ 0).state k) q u) (c : L → L → Ordering) (τ : Nat → Nat) {m : Nat} (hm : depth t ≤ m ∨ depth u ≤ m) :
    ∃ n, cmpAt c (readsAt σ τ) m 0 p q = some (order c t u, n) :=
  cmp_run (new_laws lay) new_copies h hr hs ht hu hp hq h1 h2 c τ hm

/-- **C98, typearena.rs**: writing a handle writes its tree. -/
theorem C98_new_write (lay : cfg.Layout) (h : Starts ps n w) (hr : WRun w (σ 0)) (hs : Passes σ) {i a : Nat} {th : Thread L R Ptr}
    (ht : (σ 0).conf.threads[i]? = some th) {p : Ptr} (hp : th.locals[a]? = some p) {t : Tree L}
    (h1 : Stands (Src.NewCode.deref (σ 0).state k) p t) (τ : Nat → Nat) {m : Nat} (hm : depth t ≤ m) :
    ∃ n, writeAt (readsAt σ τ) m 0 p = some (text t, n) :=
  write_run (new_laws lay) new_copies h hr hs ht hp h1 τ hm

/-- **C98, typearena.rs**: handles are equal just if `cmp` says so, and just if they are written the same. -/
theorem C98_new_consistent (lay : cfg.Layout) (h : Starts ps n w) (hr : WRun w w') {i j a b : Nat} {th tu : Thread L R Ptr}
    (ht : w'.conf.threads[i]? = some th) (hu : w'.conf.threads[j]? = some tu) {p q : Ptr} (hp : th.locals[a]? = some p)
    (hq : tu.locals[b]? = some q) {t u : Tree L} (h1 : Stands (Src.NewCode.deref w'.state k) p t)
    (h2 : Stands (Src.NewCode.deref w'.state k) q u) {c : L → L → Ordering} (hc : ∀ l m, c l m = .eq ↔ l = m) :
    (Traits.eq p q = true ↔ order c t u = .eq) ∧ (Traits.eq p q = true ↔ text t = text u) :=
  consistent_run (new_laws lay) new_copies h hr ht hu hp hq h1 h2 hc

/-- **C98, typearena.rs**: reading terms in gives the same handle just if they were written the same. -/
theorem C98_new_read (lay : cfg.Layout) {ps : List (Prog L Bool)} {w w' : World (newIntern cfg k) Bool} (h : Starts ps n w) (hr : WRun w w')
    {j : Nat} {t u : Tree L} (hp : ps[j]? = some (readTwo t u)) {r : Bool} (hd : w'.conf.progs[j]? = some (.done r)) :
    r = true ↔ text t = text u :=
  read_run (new_laws lay) new_copies h hr hp hd

end

/-! ### The hypotheses are met -/

section
variable {L R P : Type} [DecidableEq P] {I : Interner (Node L P) P}

/-- The state after `n` events. Events that cannot happen are left out. -/
def goOn (K : Machine I) : World I R → List (Ev K.Lbl) → Nat → World I R
  | w, [], _ => w
  | w, _ :: _, 0 => w
  | w, e :: es, n + 1 => match play1 K w e with
    | some w' => goOn K w' es n
    | none => goOn K w es n

theorem goOn_passes {K : Machine I} : ∀ (es : List (Ev K.Lbl)) (w : World I R), Passes (goOn K w es)
  | [], w, n => .inl rfl
  | e :: es, w, 0 => by
    have z : ∀ (w : World I R), goOn K w es 0 = w := fun w => by cases es <;> rfl
    show goOn K w (e :: es) 1 = w ∨ WStep w (goOn K w (e :: es) 1)
    simp only [goOn]
    cases h : play1 K w e with
    | none => exact .inl (z w)
    | some w' => exact .inr (by show WStep w (goOn K w' es 0); rw [z w']; exact play1_ok h)
  | e :: es, w, n + 1 => by
    show goOn K w (e :: es) (n + 2) = goOn K w (e :: es) (n + 1) ∨ WStep (goOn K w (e :: es) (n + 1)) (goOn K w (e :: es) (n + 2))
    simp only [goOn]
    cases h : play1 K w e with
    | none => exact goOn_passes es w n
    | some w' => exact goOn_passes es w' n

end

/-- The sender and the receiver are done; the third thread goes on to build `2(1)`. -/
def poolMid (k : Nat) : World (pool pcfg k) (Bool × Bool × Nat) := after (poolMachine k) (poolStart k)
  [([], .call 0), ([], .call 1), ([], .inside (.new 3 k ⟨2, [⟨77, 0⟩]⟩)), ([], .call 2), ([.run 3 5, .run 0 10], .ret 0 10), ([.run 3 5, .run 1 20], .ret 1 20),
    ([], .call 0), ([.run 0 40], .ret 0 40), ([], .look 0), ([], .look 0), ([.run 2 30], .ret 2 30),
    ([], .call 1), ([.run 1 50], .ret 1 50), ([], .look 1), ([], .look 1), ([], .look 1), ([], .look 1), ([], .look 1)]

def poolGoes (k : Nat) : Nat → World (pool pcfg k) (Bool × Bool × Nat) :=
  goOn (poolMachine k) (poolMid k) ([.call 2] ++ List.replicate 20 (.inside (.run 2 60)) ++ [.ret 2 60])

abbrev leaf : Tree Nat := .node 1 []
abbrev pair : Tree Nat := .node 2 [leaf, leaf]

theorem poolGoes_stands : ∀ k ∈ [0, 2], Stands (Src.PoolCode.deref (poolGoes k 0).state k) ⟨10, 0⟩ leaf ∧
    Stands (Src.PoolCode.deref (poolGoes k 0).state k) ⟨40, 0⟩ pair := by
  intro k hk
  have h1 : ∀ k ∈ [0, 2], (Src.PoolCode.deref (poolGoes k 0).state k) ⟨10, 0⟩ = some ⟨1, []⟩ := by decide +kernel
  have h2 : ∀ k ∈ [0, 2], (Src.PoolCode.deref (poolGoes k 0).state k) ⟨40, 0⟩ = some ⟨2, [⟨10, 0⟩, ⟨10, 0⟩]⟩ := by decide +kernel
  have l : Stands (Src.PoolCode.deref (poolGoes k 0).state k) ⟨10, 0⟩ leaf := .node (h1 k hk) .nil
  exact ⟨l, .node (h2 k hk) (.cons l (.cons l .nil))⟩

theorem locals_of {c : Conf Nat (Bool × Bool × Nat) Ptr} {ls : List (List Ptr)} (h : c.threads.map (·.locals) = ls) {i : Nat} {l : List Ptr}
    (hl : ls[i]? = some l) : ∃ th, c.threads[i]? = some th ∧ th.locals = l := by
  subst h
  rw [List.getElem?_map, Option.map_eq_some_iff] at hl
  exact hl

theorem poolGoes_locals : ∀ k ∈ [0, 2],
    (poolGoes k 0).conf.threads.map (·.locals) = [[⟨10, 0⟩, ⟨40, 0⟩], [⟨10, 0⟩, ⟨40, 0⟩, ⟨40, 0⟩, ⟨10, 0⟩], [⟨10, 0⟩]] := by decide +kernel

theorem poolGoes_run {k : Nat} : WRun (poolStart k) (poolGoes k 0) := by
  have : poolGoes k 0 = poolMid k := rfl
  rw [this]
  exact after_run ..

/-- The sender's `2(1, 1)` is compared with the third thread's `1()`, and written, while that thread builds `2(1)`: five steps after each read. -/
example : ∀ k ∈ [0, 2], Starts [sender, receiver, loner] 1 (poolStart k) ∧ Passes (poolGoes k) ∧ (poolGoes k 0).conf.all.length = 7 ∧
    (poolGoes k 22).conf.all.length = 8 ∧ (∃ n, cmpAt compare (readsAt (poolGoes k) (5 * ·)) 1 0 ⟨40, 0⟩ ⟨10, 0⟩ = some (.gt, n)) ∧
    ∃ n, writeAt (readsAt (poolGoes k) (5 * ·)) 2 0 ⟨40, 0⟩ = some ([(2, 2), (1, 0), (1, 0)], n) := by
  intro k hk
  have n0 : ∀ k ∈ [0, 2], (poolGoes k 0).conf.all.length = 7 ∧ (poolGoes k 22).conf.all.length = 8 := by decide +kernel
  obtain ⟨t0, h0, e0⟩ := locals_of (poolGoes_locals k hk) (i := 0) rfl
  obtain ⟨t2, h2, e2⟩ := locals_of (poolGoes_locals k hk) (i := 2) rfl
  obtain ⟨s1, s2⟩ := poolGoes_stands k hk
  exact ⟨poolStart_starts, goOn_passes _ _, (n0 k hk).1, (n0 k hk).2,
    C98_pool_cmp playout poolStart_starts poolGoes_run (goOn_passes _ _) h0 h2 (a := 1) (b := 0) (by rw [e0]; rfl) (by rw [e2]; rfl) s2 s1 compare _
      (.inr (by decide)),
    C98_pool_write playout poolStart_starts poolGoes_run (goOn_passes _ _) h0 (a := 1) (by rw [e0]; rfl) s2 _ (by decide)⟩

/-- Handles of different threads: the same address, the same order, the same text. -/
example : ∀ k ∈ [0, 2], Traits.eq (⟨40, 0⟩ : Ptr) ⟨10, 0⟩ = false ∧ order compare pair leaf ≠ .eq ∧ text pair ≠ text leaf := by
  intro k hk
  obtain ⟨t0, h0, e0⟩ := locals_of (poolGoes_locals k hk) (i := 0) rfl
  obtain ⟨t2, h2, e2⟩ := locals_of (poolGoes_locals k hk) (i := 2) rfl
  obtain ⟨s1, s2⟩ := poolGoes_stands k hk
  have h := C98_pool_consistent playout poolStart_starts poolGoes_run h0 h2 (a := 1) (b := 0) (by rw [e0]; rfl) (by rw [e2]; rfl) s2 s1
    (c := compare) fun _ _ => Nat.compare_eq_eq
  exact ⟨rfl, fun e => absurd (h.1.mpr e) (by decide), fun e => absurd (h.2.mpr e) (by decide)⟩

def newMid : World (newIntern ncfg 0) (Bool × Bool × Nat) := after (newMachine 0) newStart
  [([], .call 0), ([], .call 1), ([], .inside (.new 3 0 ⟨2, [⟨77, 0⟩]⟩)), ([], .call 2), (steps 3 5 ++ steps 0 10, .ret 0 10),
    (steps 3 5 ++ steps 1 20, .ret 1 20), ([], .call 0), (steps 0 40, .ret 0 40), ([], .look 0), ([], .look 0), (steps 2 30, .ret 2 30),
    ([], .call 1), (steps 1 50, .ret 1 50), ([], .look 1), ([], .look 1), ([], .look 1), ([], .look 1), ([], .look 1)]

def newGoes : Nat → World (newIntern ncfg 0) (Bool × Bool × Nat) :=
  goOn (newMachine 0) newMid ([.call 2] ++ (List.replicate 8 ((steps 2 60).map Ev.inside)).flatten ++ [.ret 2 60])

theorem newGoes_stands : Stands (Src.NewCode.deref (newGoes 0).state 0) ⟨10, 0⟩ leaf ∧ Stands (Src.NewCode.deref (newGoes 0).state 0) ⟨40, 0⟩ pair := by
  have l : Stands (Src.NewCode.deref (newGoes 0).state 0) ⟨10, 0⟩ leaf := .node (ks := []) (by decide +kernel) .nil
  exact ⟨l, .node (ks := [⟨10, 0⟩, ⟨10, 0⟩]) (by decide +kernel) (.cons l (.cons l .nil))⟩

theorem newGoes_locals :
    (newGoes 0).conf.threads.map (·.locals) = [[⟨10, 0⟩, ⟨40, 0⟩], [⟨10, 0⟩, ⟨40, 0⟩, ⟨40, 0⟩, ⟨10, 0⟩], [⟨10, 0⟩]] := by decide +kernel

theorem newGoes_run : WRun newStart (newGoes 0) := by
  have : newGoes 0 = newMid := rfl
  rw [this]
  exact after_run ..

/-- The same with the `Intern` of typearena.rs. -/
example : Starts [sender, receiver, loner] 1 newStart ∧ Passes newGoes ∧ (newGoes 0).conf.all.length = 7 ∧ (newGoes 50).conf.all.length = 8 ∧
    (∃ n, cmpAt compare (readsAt newGoes (10 * ·)) 1 0 ⟨40, 0⟩ ⟨10, 0⟩ = some (.gt, n)) ∧
    (∃ n, writeAt (readsAt newGoes (10 * ·)) 2 0 ⟨40, 0⟩ = some ([(2, 2), (1, 0), (1, 0)], n)) ∧
    (Traits.eq (⟨40, 0⟩ : Ptr) ⟨40, 0⟩ = true ↔ text pair = text pair) := by
  obtain ⟨t0, h0, e0⟩ := locals_of newGoes_locals (i := 0) rfl
  obtain ⟨t1, h1, e1⟩ := locals_of newGoes_locals (i := 1) rfl
  obtain ⟨t2, h2, e2⟩ := locals_of newGoes_locals (i := 2) rfl
  obtain ⟨s1, s2⟩ := newGoes_stands
  exact ⟨newStart_starts, goOn_passes _ _, by decide +kernel, by decide +kernel,
    C98_new_cmp nlayout newStart_starts newGoes_run (goOn_passes _ _) h0 h2 (a := 1) (b := 0) (by rw [e0]; rfl) (by rw [e2]; rfl) s2 s1 compare _
      (.inr (by decide)),
    C98_new_write nlayout newStart_starts newGoes_run (goOn_passes _ _) h0 (a := 1) (by rw [e0]; rfl) s2 _ (by decide),
    (C98_new_consistent nlayout newStart_starts newGoes_run h0 h1 (a := 1) (b := 2) (by rw [e0]; rfl) (by rw [e1]; rfl) s2 s2
      (c := compare) fun _ _ => Nat.compare_eq_eq).2⟩

/-- With less room the text cannot be written. -/
example : writeAt (readsAt newGoes (10 * ·)) 1 0 ⟨40, 0⟩ = none := by decide +kernel

/-! `2(1)` is read twice, and `2(1)` and `2(1, 1)`. -/

abbrev one : Tree Nat := .node 2 [leaf]

def Conf.bools (c : Conf Nat Bool Ptr) : List (Option Bool) := c.progs.map fun
  | .done r => some r
  | _ => none

def readStart : World (pool pcfg 0) Bool := ⟨fourPool, start [readTwo one one, readTwo one pair] 0⟩

def readEnd : World (pool pcfg 0) Bool := after (poolMachine 0) readStart
  (((List.range 4).flatMap fun i => [([], .call 0), ([], .call 1), ([.run 0 (10 * i + 10)], .ret 0 (10 * i + 10)),
    ([.run 1 (10 * i + 15)], .ret 1 (10 * i + 15))]) ++ [([], .look 0), ([], .call 1), ([.run 1 70], .ret 1 70), ([], .look 1)])

example : Starts [readTwo one one, readTwo one pair] 0 readStart ∧ WRun readStart readEnd ∧ readEnd.conf.bools = [some true, some false] :=
  ⟨⟨rfl, fourPool_reach, ⟨by
      have : fourPool.gone = [] := by decide +kernel
      show 0 ∉ fourPool.gone
      rw [this]; exact List.not_mem_nil, fun _ h => (Nat.lt_irrefl _ h).elim⟩, fun t ht => by
      have : ∀ t < 2, empty (fourPool.threads[t]?) = true := by decide +kernel
      exact empty_iff.mp (this t ht)⟩, after_run .., by decide +kernel⟩

def readStartN : World (newIntern ncfg 0) Bool := ⟨fourNew, start [readTwo one one, readTwo one pair] 0⟩

def readEndN : World (newIntern ncfg 0) Bool := after (newMachine 0) readStartN
  (((List.range 4).flatMap fun i => [([], .call 0), ([], .call 1), (steps 0 (10 * i + 10), .ret 0 (10 * i + 10)),
    (steps 1 (10 * i + 15), .ret 1 (10 * i + 15))]) ++ [([], .look 0), ([], .call 1), (steps 1 70, .ret 1 70), ([], .look 1)])

example : Starts [readTwo one one, readTwo one pair] 0 readStartN ∧ WRun readStartN readEndN ∧ readEndN.conf.bools = [some true, some false] :=
  ⟨⟨rfl, fourNew_reach, fun _ h => (Nat.lt_irrefl _ h).elim, fun t ht => by
      have : ∀ t < 2, empty (fourNew.threads[t]?) = true := by decide +kernel
      exact empty_iff.mp (this t ht)⟩, after_run .., by decide +kernel⟩

end Client.Copy
