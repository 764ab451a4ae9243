import Verif.Src.NewSim
/-
One step of a running function of `Verif/Src/NewCode.lean`.
-/
namespace Src.NewCode
open Arc (Res)
open Pool (Tid Ptr Query Ret Obj Entry)

variable {K V : Type}

theorem All2.append {α β : Type} {R : α → β → Prop} {a b : List α} {a' b' : List β} (h : All2 R a a') (h2 : All2 R b b') : All2 R (a ++ b) (a' ++ b') := by
  induction h with
  | nil => exact h2
  | cons h _ ih => exact .cons h ih

theorem All2.map {α β γ δ : Type} {R : α → β → Prop} {T : γ → δ → Prop} {f : α → γ} {g : β → δ} {l : List α} {l' : List β} (h : All2 R l l')
    (hf : ∀ a b, R a b → T (f a) (g b)) : All2 T (l.map f) (l'.map g) := by
  induction h with
  | nil => exact .nil
  | cons h _ ih => exact .cons (hf _ _ h) ih

/-- The two programs do the same. -/
inductive Both {α β : Type} (P : α → β → Prop) : Res α → Res β → Prop
  | ok {a : α} {b : β} : P a b → Both P (.ok a) (.ok b)
  | blocked : Both P .blocked .blocked
  | ub : Both P .ub .ub

/-! ### Vectors -/

/-- The table in use for type `k`. -/
def firstCell (cfg : Cfg K V) (m : Mem K V) (k : K) : Option Cell := (m.cells (cfg.shard k)).find? fun c => decide (c.tid = cfg.typeId k)

theorem findIdx_find {α : Type} {p : α → Bool} : ∀ {l : List α} {i : Nat}, l.findIdx? p = some i → ∃ a, l[i]? = some a ∧ p a = true ∧ l.find? p = some a
  | [], _, h => by cases h
  | x :: l, i, h => by
    rw [List.findIdx?_cons] at h
    cases hp : p x with
    | true => rw [hp] at h; cases h; exact ⟨x, rfl, hp, by rw [List.find?_cons, hp]⟩
    | false =>
      rw [hp] at h
      cases hj : l.findIdx? p with
      | none => simp [hj] at h
      | some j =>
        simp [hj] at h
        subst h
        obtain ⟨a, h1, h2, h3⟩ := findIdx_find hj
        exact ⟨a, h1, h2, by rw [List.find?_cons, hp]; exact h3⟩

theorem first_cells {cfg : Cfg K V} {m : Mem K V} {k : K} {pos : Nat} : First cfg m k pos ↔
    (m.cells (cfg.shard k)).findIdx? (fun c => decide (c.tid = cfg.typeId k)) = some pos := by
  rw [First, tids, List.findIdx?_map]; rfl

theorem First.cell {cfg : Cfg K V} {m : Mem K V} {k : K} {pos : Nat} (h : First cfg m k pos) :
    ∃ c, m.cell (cfg.shard k) pos = some c ∧ c.tid = cfg.typeId k ∧ firstCell cfg m k = some c := by
  obtain ⟨c, h1, h2, h3⟩ := findIdx_find (first_cells.mp h)
  exact ⟨c, h1, of_decide_eq_true h2, h3⟩

theorem findIdx_prefix {α : Type} {p : α → Bool} {l l' : List α} {i : Nat} (h : l.findIdx? p = some i) (hp : l <+: l') : l'.findIdx? p = some i := by
  obtain ⟨r, rfl⟩ := hp
  rw [List.findIdx?_append, h]; rfl

/-- Vectors only grow. -/
def Grows (m m' : Mem K V) : Prop := ∀ s, tids m s <+: tids m' s

theorem Grows.refl (m : Mem K V) : Grows m m := fun _ => List.prefix_refl _

theorem Grows.of_eq {m m' : Mem K V} (h : ∀ s, tids m' s = tids m s) : Grows m m' := fun s => by rw [h s]; exact List.prefix_refl _

theorem First.grows {cfg : Cfg K V} {m m' : Mem K V} {k : K} {pos : Nat} (h : First cfg m k pos) (hg : Grows m m') : First cfg m' k pos :=
  findIdx_prefix h (hg _)

theorem First.unique {cfg : Cfg K V} {m : Mem K V} {k : K} {pos pos' : Nat} (h : First cfg m k pos) (h' : First cfg m k pos') : pos = pos' := by
  rw [First] at h h'; rw [h] at h'; exact Option.some.inj h'

theorem tids_setCell {m : Mem K V} {s pos : Nat} {c c' : Cell} (hc : m.cell s pos = some c) (ht : c'.tid = c.tid) (j : Nat) :
    tids (m.setCell s pos c') j = tids m j := by
  simp only [tids, Mem.setCell]
  split
  · rename_i e
    subst e
    rw [List.map_set, ht]
    apply List.ext_getElem?
    intro i
    rw [List.getElem?_set]
    split
    · rename_i e
      subst e
      simp only [Mem.cell] at hc
      rw [List.getElem?_map, hc, List.length_map, if_pos (List.getElem?_eq_some_iff.mp hc).1]; rfl
    · rfl
  · rfl

theorem tids_push (m : Mem K V) (s : Nat) (c : Cell) : Grows m (m.push s c) := by
  intro j
  simp only [tids, Mem.push]
  split
  · rename_i e; subst e; rw [List.map_append]; exact List.prefix_append _ _
  · exact List.prefix_refl _

theorem find_set {α : Type} {p : α → Bool} : ∀ {l : List α} {i : Nat} {x y : α}, l[i]? = some x → p x = false → p y = false → (l.set i y).find? p = l.find? p
  | [], _, _, _, h, _, _ => by cases h
  | a :: l, 0, x, y, h, h1, h2 => by
    cases h
    simp [h1, h2]
  | a :: l, i + 1, x, y, h, h1, h2 => by
    simp only [List.set_cons_succ, List.find?_cons]
    rw [find_set (l := l) (i := i) h h1 h2]

theorem find_set_first {α : Type} {p : α → Bool} : ∀ {l : List α} {i : Nat} {y : α}, l.findIdx? p = some i → p y = true → (l.set i y).find? p = some y
  | [], _, _, h, _ => by cases h
  | x :: l, i, y, h, h2 => by
    rw [List.findIdx?_cons] at h
    cases hp : p x with
    | true => rw [hp] at h; cases h; simp [h2]
    | false =>
      rw [hp] at h
      cases hj : l.findIdx? p with
      | none => simp [hj] at h
      | some j =>
        simp [hj] at h
        subst h
        rw [List.set_cons_succ, List.find?_cons, hp]
        exact find_set_first hj h2

theorem firstCell_set {cfg : Cfg K V} (lay : cfg.Layout) {m : Mem K V} {k : K} {pos : Nat} (h : First cfg m k pos) {c : Cell} (hc : c.tid = cfg.typeId k) (k' : K) :
    firstCell cfg (m.setCell (cfg.shard k) pos c) k' = if cfg.typeId k' = cfg.typeId k then some c else firstCell cfg m k' := by
  obtain ⟨d, h1, h2, h3⟩ := h.cell
  by_cases e : cfg.typeId k' = cfg.typeId k
  · rw [if_pos e]
    cases lay.types _ _ e
    simp only [firstCell, Mem.setCell, if_true]
    exact find_set_first (first_cells.mp h) (by simp [hc])
  · rw [if_neg e]
    simp only [firstCell, Mem.setCell]
    split
    · rename_i e'
      rw [e']
      refine find_set h1 ?_ ?_
      · rw [h2]; simp [Ne.symm e]
      · rw [hc]; simp [Ne.symm e]
    · rfl

/-! ### Memory -/

/-- The memories of the two programs. -/
structure MR (cfg : Cfg K V) (m : Mem K V) (n : PoolCode.Mem K V) : Prop where
  heap : n.heap = m.heap
  husks : n.husks = m.husks
  table : ∀ k, n.table k = ((firstCell cfg m k).map (·.set)).getD []
  lock : ∀ k, n.lock (cfg.typeId k) = (firstCell cfg m k).bind (·.owner)

variable [DecidableEq K] {cfg : Cfg K V} {m : Mem K V} {n : PoolCode.Mem K V}

omit [DecidableEq K] in
theorem MR.of_eq {m' : Mem K V} {n' : PoolCode.Mem K V} (h : MR cfg m n) (e1 : m'.heap = m.heap) (e2 : m'.husks = m.husks) (e3 : m'.cells = m.cells) (e4 : n'.heap = n.heap)
    (e5 : n'.husks = n.husks) (e6 : n'.table = n.table) (e7 : n'.lock = n.lock) : MR cfg m' n' := by
  constructor
  · rw [e4, e1]; exact h.heap
  · rw [e5, e2]; exact h.husks
  · intro k; rw [e6, h.table, firstCell, firstCell, e3]
  · intro k; rw [e7, h.lock, firstCell, firstCell, e3]

theorem MR.deref (h : MR cfg m n) (l : List Ptr) (k : K) (p : Ptr) : Pool.deref (m.view l) k p = Pool.deref n.view k p := by
  simp only [Pool.deref, Mem.view, PoolCode.Mem.view, h.heap]

theorem MR.tableOk (h : MR cfg m n) {k : K} {c : Cell} (hc : firstCell cfg m k = some c) : Pool.tableOk (m.view c.set) k = Pool.tableOk n.view k := by
  have e : n.view.table k = c.set := by simp [PoolCode.Mem.view, h.table, hc]
  simp only [Pool.tableOk, e, h.deref]; rfl

theorem MR.find [BEq V] [Hashable V] (h : MR cfg m n) {k : K} {c : Cell} (hc : firstCell cfg m k = some c) (q : Query V) : Pool.find (m.view c.set) k q = Pool.find n.view k q := by
  have e : n.view.table k = c.set := by simp [PoolCode.Mem.view, h.table, hc]
  simp only [Pool.find, e, h.deref]; rfl

omit [DecidableEq K] in
theorem MR.alloc (h : MR cfg m n) (k : K) (v : V) (a : Nat) : Pool.allocAt cfg.pool m.used k v a = Pool.allocAt cfg.pool n.used k v a := by
  simp only [Pool.allocAt, Mem.used, PoolCode.Mem.used, h.heap, h.husks]; rfl

/-- A new element of the table of type `k`. -/
theorem MR.insert (lay : cfg.Layout) (h : MR cfg m n) {k : K} {pos : Nat} (hf : First cfg m k pos) {c : Cell} (hc : firstCell cfg m k = some c) (p : Ptr) :
    MR cfg (m.setCell (cfg.shard k) pos { c with set := p :: c.set }) { n with table := fun j => if j = k then p :: n.table k else n.table j } := by
  obtain ⟨d, _, h2, h3⟩ := hf.cell
  rw [hc] at h3; cases h3
  refine ⟨h.heap, h.husks, fun k' => ?_, fun k' => ?_⟩
  · rw [firstCell_set lay hf (by exact h2)]
    by_cases e : k' = k
    · subst e; simp [h.table, hc]
    · rw [if_neg (fun h => e (lay.types _ _ h))]; simp only [if_neg e]; exact h.table k'
  · rw [firstCell_set lay hf (by exact h2)]
    split
    · rename_i e
      cases lay.types _ _ e
      simp [h.lock, hc]
    · exact h.lock k'

omit [DecidableEq K] in
/-- The mutex of type `k` is taken or released. -/
theorem MR.owner (lay : cfg.Layout) (h : MR cfg m n) {k : K} {pos : Nat} (hf : First cfg m k pos) {c : Cell} (hc : firstCell cfg m k = some c) (x : Option Tid) (b : Bool) :
    MR cfg (m.setCell (cfg.shard k) pos { c with owner := x, poisoned := b })
      { n with lock := fun j => if j = cfg.typeId k then x else n.lock j } := by
  obtain ⟨d, _, h2, h3⟩ := hf.cell
  rw [hc] at h3; cases h3
  refine ⟨h.heap, h.husks, fun k' => ?_, fun k' => ?_⟩
  · rw [firstCell_set lay hf (by exact h2)]
    split
    · rename_i e
      cases lay.types _ _ e
      simp [h.table, hc]
    · exact h.table k'
  · rw [firstCell_set lay hf (by exact h2)]
    by_cases e : cfg.typeId k' = cfg.typeId k
    · simp [e]
    · simp only [if_neg e]; exact h.lock k'

omit [DecidableEq K] in
/-- A new table at the end of a vector. -/
theorem MR.push (h : MR cfg m n) (s i : Nat) : MR cfg (m.push s { tid := i, set := [], owner := none, poisoned := false }) n := by
  have key : ∀ k, firstCell cfg (m.push s { tid := i, set := [], owner := none, poisoned := false }) k = firstCell cfg m k ∨
      (firstCell cfg m k = none ∧ firstCell cfg (m.push s { tid := i, set := [], owner := none, poisoned := false }) k =
        some { tid := i, set := [], owner := none, poisoned := false }) := by
    intro k
    simp only [firstCell, Mem.push]
    split
    · rename_i e
      rw [e, List.find?_append]
      cases hf : (m.cells s).find? fun c => decide (c.tid = cfg.typeId k) with
      | some c => exact .inl rfl
      | none =>
        simp only [Option.none_or, List.find?_cons]
        split
        · exact .inr ⟨trivial, rfl⟩
        · exact .inl rfl
    · exact .inl rfl
  refine ⟨h.heap, h.husks, fun k => ?_, fun k => ?_⟩
  · rcases key k with e | ⟨e1, e2⟩
    · rw [e]; exact h.table k
    · rw [e2, h.table, e1]; rfl
  · rcases key k with e | ⟨e1, e2⟩
    · rw [e]; exact h.lock k
    · rw [e2, h.lock, e1]; rfl

end Src.NewCode
