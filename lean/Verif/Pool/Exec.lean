import Verif.Pool.Facts
namespace Pool
variable {K V : Type} [DecidableEq K] [BEq V] [Hashable V]

/-- The query made by `m.get(key)` with `key : &Q`, `T: Borrow<Q>` (boxedset.rs:53-67). -/
def Query.ofBorrow {Q : Type} [BEq Q] [Hashable Q] (borrow : V → Q) (key : Q) : Query V :=
  { hash := Hashable.hash key, eq := fun x => borrow x == key }

/-- The contract of `Borrow`: the borrowed form has the same equality and hash. -/
structure LawfulBorrow {Q : Type} [BEq Q] [Hashable Q] (borrow : V → Q) : Prop where
  eq : ∀ x y, (borrow x == borrow y) = (x == y)
  hash : ∀ x, Hashable.hash (borrow x) = Hashable.hash x

section borrow
variable {Q : Type} [BEq Q] [Hashable Q] [EquivBEq Q] [LawfulHashable Q] {borrow : V → Q}

theorem lawful_query (hb : LawfulBorrow borrow) (k : K) (key : Q) :
    (Op.query k (.ofBorrow borrow key) : Op K V).Lawful := by
  refine ⟨fun x h => ?_, fun x y h => ?_⟩
  · rw [← hb.hash]; exact LawfulHashable.hash_eq _ _ h
  · rw [← hb.eq] at h
    show (borrow x == key) = (borrow y == key)
    exact BEq.congr_left h

/-- `from_ref` with a `From` that borrows back to the key. -/
theorem lawful_fromRef (hb : LawfulBorrow borrow) (k : K) (key : Q) (v : V) (hv : (borrow v == key) = true) :
    (Op.intern k (.ofBorrow borrow key) v : Op K V).Lawful := by
  refine ⟨?_, fun x => ?_⟩
  · show Hashable.hash key = _
    rw [← hb.hash, LawfulHashable.hash_eq _ _ hv]
  · show (borrow x == key) = _
    rw [← hb.eq]
    exact (BEq.congr_right hv).symm
end borrow

omit [DecidableEq K] in
theorem lawful_new (k : K) (v : V) : (Op.intern k (.ofVal v) v : Op K V).Lawful := ⟨rfl, fun _ => rfl⟩

/-- Run a list of actions. -/
def exec (cfg : Cfg K V) (s : State K V) : List (Act K V) → Res (State K V)
  | [] => .ok s
  | a :: l => match step cfg s a with
    | .ok s' => exec cfg s' l
    | .blocked => .blocked
    | .ub => .ub

theorem exec_append {cfg : Cfg K V} (l1 l2 : List (Act K V)) (s : State K V) :
    exec cfg s (l1 ++ l2) = match exec cfg s l1 with
      | .ok s' => exec cfg s' l2
      | .blocked => .blocked
      | .ub => .ub := by
  induction l1 generalizing s with
  | nil => rfl
  | cons a l1 ih =>
    simp only [List.cons_append, exec]
    cases step cfg s a with
    | ok s' => exact ih s'
    | blocked => rfl
    | ub => rfl

theorem exec_steps {cfg : Cfg K V} {s0 s s' : State K V} {l : List (Act K V)} (hl : ∀ a ∈ l, Act.Lawful a)
    (h : exec cfg s l = .ok s') (h0 : Steps cfg s0 s) : Steps cfg s0 s' := by
  induction l generalizing s with
  | nil => cases h; exact h0
  | cons a l ih =>
    simp only [exec] at h
    cases hs : step cfg s a with
    | ok s1 =>
      rw [hs] at h
      exact ih (fun a ha => hl a (List.mem_cons_of_mem _ ha)) h (h0.tail (hl a List.mem_cons_self) hs)
    | blocked => rw [hs] at h; cases h
    | ub => rw [hs] at h; cases h

theorem exec_reach {cfg : Cfg K V} {s : State K V} {l : List (Act K V)} (hl : ∀ a ∈ l, Act.Lawful a)
    (h : exec cfg init l = .ok s) : Reach cfg s := (exec_steps hl h .refl).reach .init

def Res.get? {σ : Type} : Res σ → Option σ
  | .ok s => some s
  | _ => none

theorem exec_check {cfg : Cfg K V} {l : List (Act K V)} (f : State K V → Bool)
    (h : ((exec cfg init l).get?.map f) = some true) : ∃ s, exec cfg init l = .ok s ∧ f s = true := by
  cases he : exec cfg init l with
  | ok s => rw [he] at h; exact ⟨s, rfl, by simpa [Res.get?] using h⟩
  | blocked => rw [he] at h; cases h
  | ub => rw [he] at h; cases h

/-- A fresh address always exists. -/
theorem exists_fresh (cfg : Cfg K V) (s : State K V) (k : K) (v : V) : ∃ a addr, allocAt cfg s k v a = some addr := by
  by_cases hz : cfg.zst k v = true
  · exact ⟨0, _, by unfold allocAt; rw [if_pos hz]⟩
  · refine ⟨(s.heap.map (·.ptr.addr)).sum + 1, _, by
      unfold allocAt
      rw [if_neg hz, if_pos]
      refine ⟨Nat.succ_ne_zero _, List.all_eq_true.mpr (fun o ho => ?_)⟩
      have : o.ptr.addr ≤ (s.heap.map (·.ptr.addr)).sum := by
        clear hz
        generalize s.heap = h at ho
        induction h with
        | nil => cases ho
        | cons b h ih =>
          simp only [List.map_cons, List.sum_cons]
          rcases List.mem_cons.mp ho with rfl | ho
          · exact Nat.le_add_right _ _
          · exact Nat.le_trans (ih ho) (Nat.le_add_left _ _)
      have : o.ptr.addr ≠ (s.heap.map (·.ptr.addr)).sum + 1 := Nat.ne_of_lt (Nat.lt_succ_of_le this)
      simp [this]⟩

end Pool
