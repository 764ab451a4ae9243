import Verif.Src.PoolSpec
/-
What a running function still has to destroy, and how one step changes that. This is independent of the functions: it holds for all programs
in the language with these operations.
-/
namespace Src.PoolCode
open Arc (Res)
open Pool (Tid Ptr Query Ret Obj Cfg Entry)

variable {K V : Type}

/-- The drop glue of a scope. -/
def scGlue (sc : List (Var × Option (Val K V))) : List (Glue K V) := sc.flatMap fun x => x.2.toList.flatMap glue

/-- The drop glue of all scopes. -/
def scsGlue (scs : Scopes Var (Val K V)) : List (Glue K V) := scs.flatMap scGlue

def itGlue : It K V → Option (Glue K V)
  | .glue g => some g
  | _ => none

/-- The drop glue that a running function has to run, unless it moves things elsewhere. -/
def owed (f : Fr K V) : List (Glue K V) := f.items.filterMap itGlue ++ scsGlue f.scopes

/-- Every scope is going to be closed, and statements are executed in a scope. -/
def Nested : Nat → List (It K V) → Prop
  | 0, [] => True
  | n, .glue _ :: r => Nested n r
  | n + 1, .stmt _ :: r => Nested (n + 1) r
  | n + 1, .again _ :: r => Nested (n + 1) r
  | n + 1, .close :: r => Nested n r
  | _, _ => False

def NestedFr (f : Fr K V) : Prop := Nested f.scopes.length f.items

/-- Statements that lose nothing: no assignment, no loop, and only plain values are returned. -/
def Simple : St K → Prop
  | .assign _ _ | .loop _ => False
  | .ret (.ptrOf _) | .ret (.bool _) | .ret (.len _) => True
  | .ret _ => False
  | _ => True

/-! ### Scopes -/

theorem scsGlue_cons (sc : List (Var × Option (Val K V))) (scs : Scopes Var (Val K V)) : scsGlue (sc :: scs) = scGlue sc ++ scsGlue scs := rfl

theorem scope_set {x : Var} {w : Val K V} : ∀ {sc : List (Var × Option (Val K V))}, scopeGet x sc = some (some w) →
    (scGlue sc).Perm (glue w ++ scGlue (scopeSet x none sc))
  | [], h => by cases h
  | (y, v) :: sc, h => by
    simp only [scopeGet] at h
    simp only [scopeSet]
    split at h
    · rename_i e; cases h; simp [scGlue, e]
    · rename_i e
      have := scope_set h
      simp only [scGlue] at this ⊢
      simp only [if_neg e, List.flatMap_cons]
      refine (List.Perm.append_left _ this).trans ?_
      rw [← List.append_assoc, ← List.append_assoc]
      exact List.Perm.append_right _ List.perm_append_comm

theorem scopes_set {x : Var} {w : Val K V} : ∀ {scs : Scopes Var (Val K V)}, scs.get x = some w →
    (scsGlue scs).Perm (glue w ++ scsGlue (scs.set x none))
  | [], h => by cases h
  | sc :: scs, h => by
    simp only [Scopes.get] at h
    simp only [Scopes.set]
    cases hg : scopeGet x sc with
    | some v =>
      rw [hg] at h
      simp only at h ⊢
      subst h
      simp only [scsGlue_cons, ← List.append_assoc]
      exact List.Perm.append_right _ (scope_set hg)
    | none =>
      rw [hg] at h
      simp only at h ⊢
      simp only [scsGlue_cons]
      refine (List.Perm.append_left _ (scopes_set h)).trans ?_
      rw [← List.append_assoc, ← List.append_assoc]
      exact List.Perm.append_right _ List.perm_append_comm

theorem set_length (x : Var) (w : Option (Val K V)) : ∀ scs : Scopes Var (Val K V), (scs.set x w).length = scs.length
  | [] => rfl
  | sc :: scs => by
    simp only [Scopes.set]
    cases scopeGet x sc with
    | some v => rfl
    | none => simp [set_length x w scs]

theorem declare_glue {x : Var} {v : Option (Val K V)} {scs : Scopes Var (Val K V)} (h : scs ≠ []) :
    scsGlue (scs.declare x v) = v.toList.flatMap glue ++ scsGlue scs := by
  cases scs with
  | nil => exact absurd rfl h
  | cons sc scs => simp [Scopes.declare, scsGlue, scGlue]

theorem declare_length (x : Var) (v : Option (Val K V)) (scs : Scopes Var (Val K V)) : (scs.declare x v).length = scs.length := by
  cases scs <;> rfl

/-! ### Items -/

theorem nested_stmts (l : List (St K)) (n : Nat) (r : List (It K V)) (h : Nested (n + 1) r) : Nested (n + 1) (l.map .stmt ++ r) := by
  induction l with
  | nil => exact h
  | cons s l ih => exact ih

theorem nested_glue (l : List (Glue K V)) (n : Nat) (r : List (It K V)) : Nested n (l.map .glue ++ r) ↔ Nested n r := by
  induction l with
  | nil => exact Iff.rfl
  | cons s l ih =>
    rw [← ih]
    cases n <;> exact Iff.rfl

theorem itGlue_stmts (l : List (St K)) : (l.map (Item.stmt : St K → It K V)).filterMap itGlue = [] := by
  induction l with
  | nil => rfl
  | cons s l ih => exact ih

theorem itGlue_glue (l : List (Glue K V)) : (l.map (Item.glue : Glue K V → It K V)).filterMap itGlue = l := by
  induction l with
  | nil => rfl
  | cons s l ih => simp only [List.map_cons, List.filterMap_cons, itGlue]; rw [ih]

/-! ### Transitions -/

theorem perm_front (a b c : List (Glue K V)) : (a ++ (b ++ c)).Perm (b ++ (a ++ c)) := by
  rw [← List.append_assoc, ← List.append_assoc]; exact List.Perm.append_right _ List.perm_append_comm

variable [DecidableEq K]

/-- How a primitive action of thread `t` changes memory and what has to be destroyed. -/
inductive Trans (cfg : Cfg K V) (t : Tid) (m : Mem K V) : List (Glue K V) → Mem K V → List (Glue K V) → Prop
  | none (tb : K → List Ptr) : Trans cfg t m [] { m with table := tb } []
  | lock {i : Nat} : m.lock i = none → Trans cfg t m [] { m with lock := fun j => if j = i then some t else m.lock j } [.unlock i]
  | unlock (i : Nat) : Trans cfg t m [.unlock i] { m with lock := fun j => if j = i then Option.none else m.lock j } []
  | from (k : K) (v : V) : Trans cfg t m [] { m with born := (k, v) :: m.born } [.value k v]
  | box (k : K) (v : V) (p : Ptr) : Trans cfg t m [.value k v] { m with heap := ⟨k, p, v⟩ :: m.heap } [.destroy k p]
  | lose (k : K) (p : Ptr) (tb : K → List Ptr) : Trans cfg t m [.destroy k p] { m with table := tb } []
  | elem (k : K) (p : Ptr) : Trans cfg t m [] m [.destroy k p]
  | value (k : K) (v : V) : Trans cfg t m [.value k v] { m with dead := (k, v) :: m.dead } [.user]
  | user : Trans cfg t m [.user] m []
  | destroy {k : K} {p : Ptr} {o : Obj K V} : m.heap.find? (Obj.is k p) = some o →
      Trans cfg t m [.destroy k p] { m with heap := Pool.free m.heap k p, husks := o :: m.husks } [.value k o.val, .dealloc k p]
  | dealloc {k : K} {p : Ptr} {o : Obj K V} : m.husks.find? (Obj.is k p) = some o →
      Trans cfg t m [.dealloc k p] { m with husks := Pool.free m.husks k p } []

/-- Two lists that differ by a transition. -/
def Change (cfg : Cfg K V) (t : Tid) (m : Mem K V) (o : List (Glue K V)) (m' : Mem K V) (o' : List (Glue K V)) : Prop :=
  ∃ l g r, o.Perm (l ++ r) ∧ o'.Perm (g ++ r) ∧ Trans cfg t m l m' g

section
variable {cfg : Cfg K V} {t : Tid} {m m' : Mem K V} {o o' r : List (Glue K V)}

theorem Change.more (h : Change cfg t m o m' o') (q : List (Glue K V)) : Change cfg t m (q ++ o) m' (q ++ o') := by
  obtain ⟨l, g, r, h1, h2, h3⟩ := h
  refine ⟨l, g, q ++ r, ?_, ?_, h3⟩
  · refine (List.Perm.append_left q h1).trans ?_
    rw [← List.append_assoc, ← List.append_assoc]
    exact List.Perm.append_right _ List.perm_append_comm
  · refine (List.Perm.append_left q h2).trans ?_
    rw [← List.append_assoc, ← List.append_assoc]
    exact List.Perm.append_right _ List.perm_append_comm

theorem Change.perm {o2 o2' : List (Glue K V)} (h : Change cfg t m o m' o') (h1 : o2.Perm o) (h2 : o2'.Perm o') : Change cfg t m o2 m' o2' := by
  obtain ⟨l, g, r, a, b, c⟩ := h
  exact ⟨l, g, r, h1.trans a, h2.trans b, c⟩

theorem Change.same (h : o'.Perm o) : Change cfg t m o m o' := ⟨[], [], o, .refl _, h, .none m.table⟩

variable [BEq V] [Hashable V]

/-- Operations. -/
theorem exec_change {a : Nat} {sc : Scopes Var (Val K V)} {op : Op K} {d : Done (Mem K V) Var (Val K V)} (h : exec cfg m t a sc op = .ok d) :
    Change cfg t m (scsGlue sc) d.mem (d.val.toList.flatMap glue ++ scsGlue d.scopes) ∧ d.scopes.length = sc.length := by
  cases op with
  | lock k =>
    simp only [exec] at h
    split at h
    · cases h
    · rename_i hl
      cases h
      exact ⟨⟨[], [.unlock _], _, .refl _, .refl _, .lock (by simpa using hl)⟩, rfl⟩
  | get k x =>
    have key : ∀ q, (if Pool.tableOk m.view k then
        match Pool.find m.view k q with
        | some p => Res.ok ({ mem := m, scopes := sc, arm := 0, val := some (.ptr p) } : Done (Mem K V) Var (Val K V))
        | none => .ok ({ mem := m, scopes := sc, arm := 1 } : Done (Mem K V) Var (Val K V))
      else .ub) = .ok d → Change cfg t m (scsGlue sc) d.mem (d.val.toList.flatMap glue ++ scsGlue d.scopes) ∧ d.scopes.length = sc.length := by
      intro q h
      split at h
      · cases hf : Pool.find m.view k q with
        | some p => rw [hf] at h; cases h; exact ⟨.same (.refl _), rfl⟩
        | none => rw [hf] at h; cases h; exact ⟨.same (.refl _), rfl⟩
      · cases h
    simp only [exec] at h
    cases hx : sc.get x with
    | none => rw [hx] at h; cases h
    | some w =>
      rw [hx] at h
      cases w <;> first | exact key _ h | cases h
  | «from» x =>
    simp only [exec] at h
    cases hx : sc.get x with
    | none => rw [hx] at h; cases h
    | some w =>
      rw [hx] at h
      cases w <;> cases h
      exact ⟨⟨[], [.value _ _], _, .refl _, .refl _, .from _ _⟩, rfl⟩
  | boxNew x =>
    have key : ∀ k v w, sc.get x = some w → glue w = [Glue.value k v] → (match Pool.allocAt cfg m.used k v a with
      | none => Res.blocked
      | some addr => .ok ({
          mem := { m with heap := { pool := k, ptr := { addr := addr, info := cfg.info k v }, val := v } :: m.heap }
          scopes := sc.set x none
          val := some (.box k { addr := addr, info := cfg.info k v }) } : Done (Mem K V) Var (Val K V))) = .ok d →
        Change cfg t m (scsGlue sc) d.mem (d.val.toList.flatMap glue ++ scsGlue d.scopes) ∧ d.scopes.length = sc.length := by
      intro k v w hw hg h
      cases ha : Pool.allocAt cfg m.used k v a with
      | none => rw [ha] at h; cases h
      | some addr =>
        rw [ha] at h; cases h
        refine ⟨⟨[.value k v], [.destroy k _], _, ?_, .refl _, .box k v _⟩, set_length _ _ _⟩
        rw [← hg]; exact scopes_set hw
    simp only [exec] at h
    cases hx : sc.get x with
    | none => rw [hx] at h; cases h
    | some w =>
      rw [hx] at h
      cases w <;> first | exact key _ _ _ hx rfl h | cases h
  | leak x =>
    simp only [exec] at h
    cases hx : sc.get x with
    | none => rw [hx] at h; cases h
    | some w =>
      rw [hx] at h
      cases w <;> cases h
      exact ⟨⟨[.destroy _ _], [], _, scopes_set hx, .refl _, .lose _ _ m.table⟩, set_length _ _ _⟩
  | ptrOf x =>
    simp only [exec] at h
    cases hx : sc.get x with
    | none => rw [hx] at h; cases h
    | some w => rw [hx] at h; cases w <;> cases h <;> exact ⟨.same (.refl _), rfl⟩
  | insert k x =>
    simp only [exec] at h
    cases hx : sc.get x with
    | none => rw [hx] at h; cases h
    | some w =>
      rw [hx] at h
      cases w with
      | box k' p =>
        simp only at h
        split at h
        · cases hf : Pool.find m.view k (.ofVal ‹V›) with
          | some _ =>
            rw [hf] at h; cases h
            exact ⟨.same (scopes_set hx).symm, set_length _ _ _⟩
          | none =>
            rw [hf] at h; cases h
            exact ⟨⟨[.destroy _ _], [], _, scopes_set hx, .refl _, .lose _ _ _⟩, set_length _ _ _⟩
        · cases h
      | ptr p =>
        simp only at h
        split at h
        · cases hf : Pool.find m.view k (.ofVal ‹V›) with
          | some _ => rw [hf] at h; cases h; exact ⟨.same (.refl _), rfl⟩
          | none => rw [hf] at h; cases h; exact ⟨⟨[], [], _, .refl _, .refl _, .none _⟩, rfl⟩
        · cases h
      | _ => cases h
  | len k => cases h; exact ⟨.same (.refl _), rfl⟩
  | bool b => cases h; exact ⟨.same (.refl _), rfl⟩
  | move x =>
    simp only [exec] at h
    cases hx : sc.get x with
    | none => rw [hx] at h; cases h
    | some w =>
      rw [hx] at h; cases h
      exact ⟨.same (by simpa using (scopes_set hx).symm), set_length _ _ _⟩
  | dropElem k p => cases h; exact ⟨⟨[], [.destroy k p], _, .refl _, .refl _, .elem k p⟩, rfl⟩

theorem nested_pos {f : Fr K V} {s : St K} {r : List (It K V)} (hn : NestedFr f) (hi : f.items = .stmt s :: r) :
    f.scopes ≠ [] ∧ Nested f.scopes.length r := by
  rw [NestedFr, hi] at hn
  cases hs : f.scopes with
  | nil => rw [hs] at hn; cases hn
  | cons sc scs => rw [hs] at hn; exact ⟨by simp, hn⟩

theorem ret_plain {a : Nat} {sc : Scopes Var (Val K V)} {op : Op K} {d : Done (Mem K V) Var (Val K V)} (hs : Simple (.ret op : St K))
    (h : exec cfg m t a sc op = .ok d) : d.val.toList.flatMap glue = [] := by
  cases op with
  | ptrOf x =>
    simp only [exec] at h
    cases hx : sc.get x with
    | none => rw [hx] at h; cases h
    | some w => rw [hx] at h; cases w <;> cases h <;> rfl
  | bool b => cases h; rfl
  | len k => cases h; rfl
  | _ => cases hs

/-- Statements. -/
theorem stmt_change {a : Nat} {f f' : Fr K V} {s : St K} {r : List (It K V)} (hn : NestedFr f) (hi : f.items = .stmt s :: r) (hs : Simple s)
    (h : (lang cfg).stmt m t a f r s = .ok (m', f')) :
    NestedFr f' ∧ Change cfg t m (owed f) m' (owed f') ∧ f'.panicking = f.panicking := by
  obtain ⟨hne, hr⟩ := nested_pos hn hi
  have ho : owed f = r.filterMap itGlue ++ scsGlue f.scopes := by simp only [owed, hi]; rfl
  rw [ho]
  cases s with
  | uninit x =>
    cases h
    refine ⟨?_, .same ?_, rfl⟩
    · simp only [NestedFr, declare_length]; exact hr
    · simp only [owed]; rw [declare_glue hne]; exact .refl _
  | bind x op =>
    simp only [Lang.stmt] at h
    cases he : exec cfg m t a f.scopes op with
    | ok d =>
      rw [he] at h; cases h
      obtain ⟨h1, h2⟩ := exec_change he
      have hd : d.scopes ≠ [] := by intro e; rw [e] at h2; exact hne (List.length_eq_zero_iff.mp h2.symm)
      refine ⟨?_, ?_, rfl⟩
      · simp only [NestedFr, declare_length]; rw [h2]; exact hr
      · simp only [owed]; rw [declare_glue hd]; exact h1.more _
    | blocked => rw [he] at h; cases h
    | ub => rw [he] at h; cases h
  | assign x op => cases hs
  | exec op =>
    simp only [Lang.stmt] at h
    cases he : exec cfg m t a f.scopes op with
    | ok d =>
      rw [he] at h; cases h
      obtain ⟨h1, h2⟩ := exec_change he
      refine ⟨?_, ?_, rfl⟩
      · simp only [NestedFr]; rw [h2]; exact (nested_glue _ _ _).mpr hr
      · refine (h1.more (r.filterMap itGlue)).perm (.refl _) ?_
        simp only [owed, List.filterMap_append, List.append_assoc]
        exact (List.Perm.append_right _ (List.Perm.of_eq (itGlue_glue _))).trans (perm_front _ _ _)
    | blocked => rw [he] at h; cases h
    | ub => rw [he] at h; cases h
  | choose x op arm0 arm1 =>
    simp only [Lang.stmt] at h
    cases he : exec cfg m t a f.scopes op with
    | ok d =>
      rw [he] at h; cases h
      obtain ⟨h1, h2⟩ := exec_change he
      refine ⟨?_, ?_, rfl⟩
      · simp only [NestedFr, List.length_cons]; rw [h2]; exact nested_stmts _ _ _ hr
      · refine (h1.more (r.filterMap itGlue)).perm (.refl _) ?_
        simp only [owed, List.filterMap_append]
        rw [itGlue_stmts, scsGlue_cons]
        simp [scGlue]
        exact .refl _
    | blocked => rw [he] at h; cases h
    | ub => rw [he] at h; cases h
  | block l =>
    cases h
    refine ⟨?_, .same ?_, rfl⟩
    · simp only [NestedFr, List.length_cons]; exact nested_stmts _ _ _ hr
    · simp only [owed, List.filterMap_append]
      rw [itGlue_stmts, scsGlue_cons]
      simp [scGlue]
      exact .refl _
  | loop l =>
    cases h
    refine ⟨?_, .same (.refl _), rfl⟩
    simp only [NestedFr]
    cases hsc : f.scopes with
    | nil => exact absurd hsc hne
    | cons sc scs => rw [hsc] at hr; exact hr
  | ret op =>
    simp only [Lang.stmt] at h
    cases he : exec cfg m t a f.scopes op with
    | ok d =>
      rw [he] at h; cases h
      obtain ⟨h1, h2⟩ := exec_change he
      refine ⟨?_, ?_, rfl⟩
      · simp only [NestedFr]; rw [h2]; exact hr
      · rw [ret_plain hs he] at h1; exact h1.more _
    | blocked => rw [he] at h; cases h
    | ub => rw [he] at h; cases h

/-- One step of a function. -/
theorem run_change {a : Nat} {f : Fr K V} {fs' : List (Fr K V)} {x : Option (Val K V)} (hn : NestedFr f)
    (hs : f.exiting = false → ∀ s r, f.items = .stmt s :: r → Simple s) (h : (lang cfg).run m t a [f] = .ok (m', fs', x)) :
    (fs' = [] ∧ m' = m ∧ owed f = [] ∧ f.items = [] ∧ x = f.ret) ∨
    ∃ f', fs' = [f'] ∧ x = none ∧ NestedFr f' ∧ Change cfg t m (owed f) m' (owed f') ∧ f'.panicking = f.panicking := by
  simp only [Lang.run] at h
  cases hi : f.items with
  | nil =>
    rw [hi] at h; cases h
    refine .inl ⟨rfl, rfl, ?_, rfl, rfl⟩
    rw [NestedFr, hi] at hn
    cases hsc : f.scopes with
    | nil => simp [owed, hi, hsc, scsGlue]
    | cons sc scs => rw [hsc] at hn; cases hn
  | cons i r =>
    rw [hi] at h
    refine .inr ?_
    cases i with
    | stmt s =>
      simp only at h
      cases he : f.exiting with
      | true =>
        rw [he] at h; cases h
        exact ⟨_, rfl, rfl, (nested_pos hn hi).2, .same (by simp only [owed, hi]; exact .refl _), rfl⟩
      | false =>
        rw [he] at h
        simp only [Bool.false_eq_true, if_false] at h
        cases hst : (lang cfg).stmt m t a f r s with
        | ok d =>
          obtain ⟨m1, f1⟩ := d
          rw [hst] at h; cases h
          obtain ⟨h1, h2, h3⟩ := stmt_change hn hi (hs he s r hi) hst
          exact ⟨_, rfl, rfl, h1, h2, h3⟩
        | blocked => rw [hst] at h; cases h
        | ub => rw [hst] at h; cases h
    | close =>
      simp only at h
      rw [NestedFr, hi] at hn
      cases hsc : f.scopes with
      | nil => rw [hsc] at h; cases h
      | cons sc scs =>
        rw [hsc] at h hn; cases h
        refine ⟨_, rfl, rfl, ?_, .same ?_, rfl⟩
        · exact (nested_glue (scGlue sc) _ _).mpr hn
        · simp only [owed, hi, hsc]
          have e : ∀ l : List (It K V), ((lang cfg).scopeGlue sc ++ l).filterMap itGlue = scGlue sc ++ l.filterMap itGlue := by
            intro l; rw [List.filterMap_append]; exact congrArg (· ++ _) (itGlue_glue _)
          rw [e]
          rw [scsGlue_cons, List.append_assoc]
          exact perm_front _ _ _
    | again l =>
      simp only at h
      rw [NestedFr, hi] at hn
      cases hsc : f.scopes with
      | nil => rw [hsc] at hn; cases hn
      | cons sc scs =>
        rw [hsc] at hn
        split at h <;> cases h
        · exact ⟨_, rfl, rfl, by simp only [NestedFr, hsc]; exact hn, .same (by simp only [owed, hi]; exact .refl _), rfl⟩
        · exact ⟨_, rfl, rfl, by simp only [NestedFr, hsc]; exact hn, .same (by simp only [owed, hi]; exact .refl _), rfl⟩
    | glue g =>
      simp only at h
      have hn' : Nested f.scopes.length r := by
        rw [NestedFr, hi] at hn
        cases hsc : f.scopes with
        | nil => rw [hsc] at hn; exact hn
        | cons sc scs => rw [hsc] at hn; exact hn
      have key : ∀ (m1 : Mem K V) (more : List (Glue K V)), Trans cfg t m [g] m1 more → drop m g = .ok (m1, more, none) →
          ∃ f', fs' = [f'] ∧ x = none ∧ NestedFr f' ∧ Change cfg t m (owed f) m' (owed f') ∧ f'.panicking = f.panicking := by
        intro m1 more ht hd
        rw [hd] at h; cases h
        refine ⟨_, rfl, rfl, (nested_glue more _ _).mpr hn', ⟨[g], more, r.filterMap itGlue ++ scsGlue f.scopes, ?_, ?_, ht⟩, rfl⟩
        · simp only [owed, hi]; exact .refl _
        · simp only [owed, List.filterMap_append, itGlue_glue, List.append_assoc]; exact .refl _
      cases g with
      | value k v => exact key _ _ (.value k v) rfl
      | user => exact key _ _ .user rfl
      | unlock i => exact key _ _ (.unlock i) rfl
      | destroy k p =>
        simp only [drop] at h
        cases hf : m.heap.find? (Obj.is k p) with
        | none => rw [hf] at h; cases h
        | some o => exact key _ _ (.destroy hf) (by simp only [drop, hf])
      | dealloc k p =>
        simp only [drop] at h
        cases hf : m.husks.find? (Obj.is k p) with
        | none => rw [hf] at h; cases h
        | some o => exact key _ _ (.dealloc hf) (by simp only [drop, hf])

/-- A panic. -/
theorem panic_change {f : Fr K V} {fs' : List (Fr K V)} (hn : NestedFr f) (h : (lang cfg).panic m [f] = .ok fs') :
    ∃ f', fs' = [f'] ∧ NestedFr f' ∧ Change cfg t m (owed f) m (owed f') ∧ f'.panicking = true ∧ f'.exiting = true ∧ f.panicking = false := by
  simp only [Lang.panic] at h
  have hp : f.panicking = false := by
    cases hp : f.panicking with
    | false => rfl
    | true => simp [hp] at h
  simp only [List.any_cons, hp, List.any_nil, Bool.or_false, Bool.false_eq_true, if_false] at h
  cases hi : f.items with
  | nil => rw [hi] at h; cases h
  | cons i r =>
    rw [hi] at h
    cases i with
    | close => cases h
    | again l => cases h
    | stmt s =>
      simp only at h
      cases he : f.exiting with
      | true => rw [he] at h; cases h
      | false =>
        rw [he] at h
        simp only [Bool.false_eq_true, if_false] at h
        cases ho : (lang cfg).opOf s with
        | none => rw [ho] at h; cases h
        | some op =>
          rw [ho] at h
          simp only at h
          obtain ⟨hne, hr⟩ := nested_pos hn hi
          have key : ∀ scopes glue, (scsGlue scopes ++ glue).Perm (scsGlue f.scopes) → scopes.length = f.scopes.length → panics f.scopes op = some (scopes, glue) →
              ∃ f', fs' = [f'] ∧ NestedFr f' ∧ Change cfg t m (owed f) m (owed f') ∧ f'.panicking = true ∧ f'.exiting = true ∧ False = False := by
            intro scopes glue hg hl hp
            rw [hp] at h; cases h
            refine ⟨_, rfl, ?_, .same ?_, rfl, rfl, rfl⟩
            · simp only [NestedFr, hl]; exact (nested_glue _ _ _).mpr hr
            · simp only [owed, hi, List.filterMap_append, itGlue_glue, List.filterMap_cons, itGlue, List.append_assoc]
              refine (perm_front _ _ _).trans (List.Perm.append_left _ ?_)
              exact List.perm_append_comm.trans hg
          have key' : ∀ scopes glue, (scsGlue scopes ++ glue).Perm (scsGlue f.scopes) → scopes.length = f.scopes.length → panics f.scopes op = some (scopes, glue) →
              ∃ f', fs' = [f'] ∧ NestedFr f' ∧ Change cfg t m (owed f) m (owed f') ∧ f'.panicking = true ∧ f'.exiting = true ∧ false = false := by
            intro a b c d e
            obtain ⟨f', h1, h2, h3, h4, h5, _⟩ := key a b c d e
            exact ⟨f', h1, h2, h3, h4, h5, rfl⟩
          rw [hp]
          cases op with
          | get k x => exact key' _ _ (by simp) rfl rfl
          | «from» x => exact key' _ _ (by simp) rfl rfl
          | insert k x =>
            cases hx : f.scopes.get x with
            | none => exact key' f.scopes [] (by simp) rfl (by simp only [panics, hx])
            | some w =>
              cases w with
              | box k' p =>
                exact key' (f.scopes.set x none) [.destroy k' p] (List.perm_append_comm.trans (scopes_set hx).symm) (set_length _ _ _) (by simp only [panics, hx])
              | _ => exact key' f.scopes [] (by simp) rfl (by simp only [panics, hx])
          | _ => cases h
    | glue g =>
      simp only at h
      cases g with
      | user =>
        cases h
        have hn' : Nested f.scopes.length r := by
          rw [NestedFr, hi] at hn
          cases hsc : f.scopes with
          | nil => rw [hsc] at hn; exact hn
          | cons sc scs => rw [hsc] at hn; exact hn
        refine ⟨_, rfl, hn', ⟨[.user], [], r.filterMap itGlue ++ scsGlue f.scopes, ?_, ?_, .user⟩, rfl, rfl, hp⟩
        · simp only [owed, hi]; exact .refl _
        · exact .refl _
      | _ => cases h

end
end Src.PoolCode
