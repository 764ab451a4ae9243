import Verif.Src.PoolRun
/-
What running functions owe, counted; and how long they can run.
-/
namespace Src.PoolCode
open Arc (Res)
open Pool (Tid Ptr Query Ret Obj Cfg Entry Pc)

variable {K V : Type}

/-! ### What a function on its way out is going to do is what it owes -/

theorem windG_perm : ∀ (items : List (It K V)) (scs : Scopes Var (Val K V)), Nested scs.length items →
    (windG scs items).Perm (items.filterMap itGlue ++ scsGlue scs)
  | [], [], _ => .refl _
  | [], _ :: _, h => by cases h
  | .glue g :: r, scs, h => by
    have h' : Nested scs.length r := by cases scs <;> exact h
    have := windG_perm r scs h'
    have e : windG scs (.glue g :: r) = g :: windG scs r := by cases scs <;> rfl
    rw [e]
    exact this.cons g
  | .close :: r, [], h => by cases h
  | .close :: r, sc :: scs, h => by
    have := windG_perm r scs h
    show (scGlue sc ++ windG scs r).Perm (r.filterMap itGlue ++ (scGlue sc ++ scsGlue scs))
    exact (List.Perm.append_left _ this).trans (perm_front _ _ _)
  | .again l :: r, [], h => by cases h
  | .again l :: r, sc :: scs, h => windG_perm r (sc :: scs) h
  | .stmt s :: r, [], h => by cases h
  | .stmt s :: r, sc :: scs, h => windG_perm r (sc :: scs) h

theorem wind_owed {f : Fr K V} (hn : NestedFr f) (g : Glue K V) : g ∈ windG f.scopes f.items ↔ g ∈ owed f := (windG_perm f.items f.scopes hn).mem_iff

/-! ### Accounts -/

def Glue.isUnlock (i : Nat) : Glue K V → Bool
  | .unlock j => decide (j = i)
  | _ => false

def Glue.husk? : Glue K V → Option (K × Ptr)
  | .dealloc k p => some (k, p)
  | _ => none

def Glue.value? : Glue K V → Option (K × V)
  | .value k v => some (k, v)
  | _ => none

/-- Everything that running functions owe, `o`, against memory. -/
structure Acct (m : Mem K V) (o : List (Glue K V)) : Prop where
  locks : ∀ i, o.countP (Glue.isUnlock i) = if (m.lock i).isSome then 1 else 0
  husks : (o.filterMap Glue.husk?).Perm (m.husks.map fun x => (x.pool, x.ptr))
  values : m.born.Perm (m.dead ++ (o.filterMap Glue.value? ++ m.heap.map fun x => (x.pool, x.val)))

variable [DecidableEq K] {cfg : Cfg K V} {t : Tid} {m m' : Mem K V} {o o' : List (Glue K V)}

omit [DecidableEq K] in
theorem Acct.perm (h : Acct m o) (hp : o'.Perm o) : Acct m o' :=
  ⟨fun i => (hp.countP_eq _).trans (h.locks i), (hp.filterMap _).trans h.husks,
    h.values.trans (List.Perm.append_left _ (List.Perm.append_right _ (hp.filterMap _).symm))⟩

theorem Acct.change (h : Acct m o) (c : Change cfg t m o m' o') : Acct m' o' := by
  obtain ⟨l, g, r, h1, h2, ht⟩ := c
  have h := h.perm h1.symm
  refine Acct.perm ?_ h2
  clear h1 h2
  obtain ⟨a, b, c⟩ := h
  cases ht with
  | none tb => exact ⟨a, b, c⟩
  | @lock i hi =>
    refine ⟨fun j => ?_, b, c⟩
    have := a j
    simp only [List.nil_append, List.cons_append, List.countP_cons, Glue.isUnlock] at this ⊢
    by_cases e : j = i
    · subst e; rw [this]; simp [hi]
    · have e' : ¬ i = j := fun h => e h.symm
      simp [e, e', this]
  | unlock i =>
    refine ⟨fun j => ?_, b, c⟩
    have := a j
    simp only [List.nil_append, List.cons_append, List.countP_cons, Glue.isUnlock] at this ⊢
    by_cases e : j = i
    · subst e
      simp only [decide_true, if_true] at this ⊢
      simp only [Option.isSome_none, Bool.false_eq_true, if_false]
      split at this <;> omega
    · have e' : ¬ i = j := fun h => e h.symm
      simpa [e, e'] using this
  | «from» k v =>
    refine ⟨a, b, ?_⟩
    exact (c.cons (k, v)).trans (List.perm_middle (a := (k, v)) (l₁ := m.dead)).symm
  | box k v p =>
    refine ⟨a, b, c.trans (List.Perm.append_left _ ?_)⟩
    exact (List.perm_middle (a := (k, v)) (l₁ := r.filterMap Glue.value?)).symm
  | lose k p tb => exact ⟨a, b, c⟩
  | elem k p => exact ⟨a, b, c⟩
  | value k v => exact ⟨a, b, c.trans List.perm_middle⟩
  | user => exact ⟨a, b, c⟩
  | @destroy k p o hf =>
    obtain ⟨e1, e2⟩ := is_of_find hf
    refine ⟨a, ?_, c.trans (List.Perm.append_left _ ?_)⟩
    · have : (k, p) = (o.pool, o.ptr) := by rw [e1, e2]
      show ((k, p) :: r.filterMap Glue.husk?).Perm ((o.pool, o.ptr) :: _)
      rw [this]
      exact List.Perm.cons _ b
    · show (r.filterMap Glue.value? ++ _).Perm ((k, o.val) :: (r.filterMap Glue.value? ++ _))
      have : (k, o.val) = (o.pool, o.val) := by rw [e1]
      rw [this]
      exact (List.Perm.append_left _ ((free_perm hf).map _)).trans List.perm_middle
  | @dealloc k p o hf =>
    obtain ⟨e1, e2⟩ := is_of_find hf
    refine ⟨a, ?_, c⟩
    have hb : ((k, p) :: r.filterMap Glue.husk?).Perm (m.husks.map fun x => (x.pool, x.ptr)) := b
    have h3 := hb.trans ((free_perm hf).map fun x => (x.pool, x.ptr))
    rw [List.map_cons, e1, e2] at h3
    exact List.Perm.cons_inv h3

omit [DecidableEq K] in
theorem isUnlock_iff {i : Nat} {g : Glue K V} : g.isUnlock i = true ↔ g = .unlock i := by
  cases g <;> simp [Glue.isUnlock]

omit [DecidableEq K] in
theorem Acct.held (h : Acct m o) {i : Nat} (hi : .unlock i ∈ o) : (m.lock i).isSome = true := by
  have h1 : 0 < o.countP (Glue.isUnlock i) := List.countP_pos_iff.mpr ⟨_, hi, isUnlock_iff.mpr rfl⟩
  rw [h.locks] at h1
  cases hl : (m.lock i).isSome with
  | true => rfl
  | false => rw [hl] at h1; cases h1

omit [DecidableEq K] in
theorem Acct.owner (h : Acct m o) {i : Nat} (hi : (m.lock i).isSome = true) : .unlock i ∈ o := by
  have := h.locks i
  rw [hi, if_pos rfl] at this
  obtain ⟨g, hg, e⟩ := List.countP_pos_iff.mp (by omega : 0 < o.countP (Glue.isUnlock i))
  rw [isUnlock_iff.mp e] at hg
  exact hg

omit [DecidableEq K] in
/-- Each lock is owed once. -/
theorem Acct.once {r : List (Glue K V)} (h : Acct m (o ++ r)) {i : Nat} (hi : .unlock i ∈ o) : .unlock i ∉ r := by
  intro hr
  have h1 : 0 < o.countP (Glue.isUnlock i) := List.countP_pos_iff.mpr ⟨_, hi, isUnlock_iff.mpr rfl⟩
  have h2 : 0 < r.countP (Glue.isUnlock i) := List.countP_pos_iff.mpr ⟨_, hr, isUnlock_iff.mpr rfl⟩
  have := h.locks i
  rw [List.countP_append] at this
  split at this <;> omega

theorem Acct.dealloc (h : Acct m o) {k : K} {p : Ptr} (hi : .dealloc k p ∈ o) : 0 < m.husks.countP (Obj.is k p) := by
  have : (k, p) ∈ m.husks.map fun x => (x.pool, x.ptr) := h.husks.mem_iff.mp (List.mem_filterMap.mpr ⟨_, hi, rfl⟩)
  obtain ⟨x, hx, e⟩ := List.mem_map.mp this
  injection e with e1 e2
  exact List.countP_pos_iff.mpr ⟨x, hx, by simp [Obj.is, e1, e2]⟩

/-- Who holds the locks. -/
theorem Change.locks {r : List (Glue K V)} (c : Change cfg t m o m' o') (h : Acct m (o ++ r)) (hh : ∀ i, .unlock i ∈ o → m.lock i = some t) :
    (∀ i, .unlock i ∈ r → m'.lock i = m.lock i) ∧ ∀ i, .unlock i ∈ o' → m'.lock i = some t := by
  obtain ⟨l, g, q, h1, h2, ht⟩ := c
  have inq : ∀ i, .unlock i ∈ q → m.lock i = some t := fun i hi => hh i (h1.mem_iff.mpr (List.mem_append_right _ hi))
  have same : m'.lock = m.lock → (∀ i, .unlock i ∉ g) →
      (∀ i, .unlock i ∈ r → m'.lock i = m.lock i) ∧ ∀ i, .unlock i ∈ o' → m'.lock i = some t := by
    intro e hg
    refine ⟨fun i _ => by rw [e], fun i hi => ?_⟩
    rw [e]
    rcases List.mem_append.mp (h2.mem_iff.mp hi) with hi | hi
    · exact absurd hi (hg i)
    · exact inq i hi
  cases ht with
  | @lock i hi =>
    have ne : ∀ j, .unlock j ∈ o ++ r → j ≠ i := by
      intro j hj e
      subst e
      have := h.held hj
      rw [hi] at this; cases this
    refine ⟨fun j hj => ?_, fun j hj => ?_⟩
    · show (if j = i then some t else m.lock j) = _
      rw [if_neg (ne j (List.mem_append_right _ hj))]
    · show (if j = i then some t else m.lock j) = _
      by_cases e : j = i
      · rw [if_pos e]
      · rw [if_neg e]
        rcases List.mem_append.mp (h2.mem_iff.mp hj) with hj | hj
        · cases List.mem_singleton.mp hj; exact absurd rfl e
        · exact inq j hj
  | unlock i =>
    have hio : .unlock i ∈ o := h1.mem_iff.mpr (List.mem_append_left _ (List.mem_singleton.mpr rfl))
    refine ⟨fun j hj => ?_, fun j hj => ?_⟩
    · show (if j = i then none else m.lock j) = _
      rw [if_neg]
      intro e; subst e
      exact h.once hio hj
    · have hj : .unlock j ∈ q := by simpa using h2.mem_iff.mp hj
      show (if j = i then none else m.lock j) = _
      rw [if_neg]
      · exact inq j hj
      · intro e; subst e
        have h3 : Acct m ([.unlock j] ++ (q ++ r)) := h.perm (by
          rw [← List.append_assoc]; exact (h1.append_right r).symm)
        exact h3.once (List.mem_singleton.mpr rfl) (List.mem_append_left _ hj)
  | none tb => exact same rfl (by simp)
  | «from» k v => exact same rfl (by simp)
  | box k v p => exact same rfl (by simp)
  | lose k p tb => exact same rfl (by simp)
  | elem k p => exact same rfl (by simp)
  | value k v => exact same rfl (by simp)
  | user => exact same rfl (by simp)
  | destroy hf => exact same rfl (by simp)
  | dealloc hf => exact same rfl (by simp)

/-! ### How long a function can run -/

def Glue.weight : Glue K V → Nat
  | .value _ _ => 2
  | .user | .unlock _ | .dealloc _ _ => 1
  | .destroy _ _ => 4

def glueW (l : List (Glue K V)) : Nat := (l.map Glue.weight).sum

noncomputable def itemW : It K V → Nat
  | .stmt s => 10 * sizeOf s
  | .close | .again _ => 10
  | .glue _ => 0

noncomputable def itemsW (l : List (It K V)) : Nat := (l.map itemW).sum

/-- An upper bound on the number of steps that a function can still make. -/
noncomputable def frameW (f : Fr K V) : Nat := 1 + itemsW f.items + glueW (owed f)

omit [DecidableEq K] in
theorem glueW_perm {l l' : List (Glue K V)} (h : l.Perm l') : glueW l = glueW l' := (h.map _).sum_nat

omit [DecidableEq K] in
theorem glueW_append (l l' : List (Glue K V)) : glueW (l ++ l') = glueW l + glueW l' := by simp [glueW]

omit [DecidableEq K] in
theorem itemsW_append (l l' : List (It K V)) : itemsW (l ++ l') = itemsW l + itemsW l' := by simp [itemsW]

omit [DecidableEq K] in
theorem itemsW_glue (l : List (Glue K V)) : itemsW (l.map (Item.glue : Glue K V → It K V)) = 0 := by
  induction l with
  | nil => rfl
  | cons g l ih => simpa [itemsW, itemW] using ih

omit [DecidableEq K] in
theorem itemsW_stmts (l : List (St K)) : itemsW (l.map (Item.stmt : St K → It K V)) + 10 ≤ 10 * sizeOf l := by
  induction l with
  | nil => simp [itemsW]
  | cons s l ih =>
    have : itemsW ((s :: l).map (Item.stmt : St K → It K V)) = 10 * sizeOf s + itemsW (l.map (Item.stmt : St K → It K V)) := by
      simp [itemsW, itemW]
    rw [this, List.cons.sizeOf_spec]
    omega

omit [DecidableEq K] in
theorem size_pos (s : St K) : 10 ≤ 10 * sizeOf s := by
  cases s <;> simp <;> omega

theorem Change.weight (c : Change cfg t m o m' o') : glueW o' ≤ glueW o + 4 := by
  obtain ⟨l, g, r, h1, h2, ht⟩ := c
  rw [glueW_perm h1, glueW_perm h2, glueW_append, glueW_append]
  have : glueW g ≤ glueW l + 4 := by cases ht <;> simp [glueW, Glue.weight]
  omega

variable [BEq V] [Hashable V]

/-- Each step makes the bound smaller. -/
theorem run_weight {a : Nat} {f f' : Fr K V} (hn : NestedFr f) (hs : f.exiting = false → ∀ s r, f.items = .stmt s :: r → Simple s)
    (hl : f.exiting = false → ∀ l r, f.items ≠ .again l :: r)
    (h : (lang cfg).run m t a [f] = .ok (m', [f'], none)) : frameW f' < frameW f := by
  have hw : glueW (owed f') ≤ glueW (owed f) + 4 := by
    rcases run_change hn hs h with ⟨e, _⟩ | ⟨f1, e, _, _, c, _⟩
    · cases e
    · cases e; exact c.weight
  simp only [Lang.run] at h
  cases hi : f.items with
  | nil => rw [hi] at h; cases h
  | cons i r =>
    rw [hi] at h
    have hlt : itemsW f'.items + 10 ≤ itemsW f.items → frameW f' < frameW f := by
      intro h; simp only [frameW]; omega
    have hcons : ∀ i : It K V, itemsW (i :: r) = itemW i + itemsW r := fun i => by simp [itemsW]
    cases i with
    | stmt s =>
      apply hlt
      rw [hi, hcons]
      have hsz := size_pos s
      simp only at h
      cases he : f.exiting with
      | true =>
        rw [he] at h; cases h
        show itemsW r + 10 ≤ _
        simp only [itemW]; omega
      | false =>
        rw [he] at h
        simp only [Bool.false_eq_true, if_false] at h
        cases hst : (lang cfg).stmt m t a f r s with
        | blocked => rw [hst] at h; cases h
        | ub => rw [hst] at h; cases h
        | ok d =>
          obtain ⟨m1, f1⟩ := d
          rw [hst] at h
          have e : f1 = f' := by injection h with h; injection h with _ h; injection h with h; injection h
          subst e
          have hsimp := hs he s r hi
          cases s with
          | assign x op => cases hsimp
          | loop l => cases hsimp
          | uninit x => cases hst; show itemsW r + 10 ≤ _; simp only [itemW]; omega
          | block l =>
            cases hst
            show itemsW (l.map .stmt ++ .close :: r) + 10 ≤ _
            have := itemsW_stmts (V := V) l
            rw [itemsW_append, hcons]
            simp only [itemW, Stmt.block.sizeOf_spec]
            omega
          | bind x op =>
            simp only [Lang.stmt] at hst
            split at hst <;> cases hst
            show itemsW r + 10 ≤ _; simp only [itemW]; omega
          | ret op =>
            simp only [Lang.stmt] at hst
            split at hst <;> cases hst
            show itemsW r + 10 ≤ _; simp only [itemW]; omega
          | exec op =>
            simp only [Lang.stmt] at hst
            split at hst <;> cases hst
            rename_i d _
            show itemsW ((d.val.toList.flatMap glue : List (Glue K V)).map (Item.glue : Glue K V → It K V) ++ r) + 10 ≤ _
            rw [itemsW_append, itemsW_glue]
            simp only [itemW]; omega
          | choose x op a0 a1 =>
            simp only [Lang.stmt] at hst
            split at hst <;> cases hst
            have h0 := itemsW_stmts (V := V) a0
            have h1 := itemsW_stmts (V := V) a1
            rename_i d _
            show itemsW ((if d.arm = 0 then a0 else a1).map .stmt ++ .close :: r) + 10 ≤ _
            rw [itemsW_append, hcons]
            simp only [itemW, Stmt.choose.sizeOf_spec]
            split <;> omega
    | close =>
      apply hlt
      rw [hi, hcons]
      simp only at h
      cases hsc : f.scopes with
      | nil => rw [hsc] at h; cases h
      | cons sc scs =>
        rw [hsc] at h; cases h
        show itemsW ((scGlue sc).map .glue ++ r) + 10 ≤ _
        rw [itemsW_append, itemsW_glue]
        simp only [itemW]; omega
    | again l =>
      apply hlt
      rw [hi, hcons]
      cases he : f.exiting with
      | true =>
        simp only [he, if_true] at h; cases h
        show itemsW r + 10 ≤ _
        simp only [itemW]; omega
      | false => exact absurd hi (hl he l r)
    | glue g =>
      have key : ∀ more : List (Glue K V), glueW more < g.weight → f' = { f with items := more.map .glue ++ r } → frameW f' < frameW f := by
        intro more hm e
        subst e
        simp only [frameW, hi, hcons, itemsW_append, itemsW_glue, itemW, owed, List.filterMap_append, itGlue_glue, List.filterMap_cons, itGlue,
          List.append_assoc, List.cons_append]
        have : glueW (g :: (r.filterMap itGlue ++ scsGlue f.scopes)) = g.weight + glueW (r.filterMap itGlue ++ scsGlue f.scopes) := by simp [glueW]
        rw [this, glueW_append more]
        omega
      simp only at h
      cases g with
      | value k v => cases h; exact key [.user] (by simp [glueW, Glue.weight]) rfl
      | user => cases h; exact key [] (by simp [glueW, Glue.weight]) rfl
      | unlock i => cases h; exact key [] (by simp [glueW, Glue.weight]) rfl
      | destroy k p =>
        simp only [drop] at h
        cases hf : m.heap.find? (Obj.is k p) with
        | none => rw [hf] at h; cases h
        | some o => rw [hf] at h; cases h; exact key [.value k o.val, .dealloc k p] (by simp [glueW, Glue.weight]) rfl
      | dealloc k p =>
        simp only [drop] at h
        cases hf : m.husks.find? (Obj.is k p) with
        | none => rw [hf] at h; cases h
        | some o => rw [hf] at h; cases h; exact key [] (by simp [glueW, Glue.weight]) rfl

theorem panic_weight {f f' : Fr K V} (hn : NestedFr f) (h : (lang cfg).panic m [f] = .ok [f']) : frameW f' < frameW f := by
  have hw : glueW (owed f') ≤ glueW (owed f) + 4 := by
    obtain ⟨f1, e, _, c, _⟩ := panic_change (t := 0) hn h
    cases e; exact c.weight
  simp only [Lang.panic] at h
  cases hp : f.panicking with
  | true => simp [hp] at h
  | false =>
    simp only [List.any_cons, hp, List.any_nil, Bool.or_false, Bool.false_eq_true, if_false] at h
    cases hi : f.items with
    | nil => rw [hi] at h; cases h
    | cons i r =>
      rw [hi] at h
      have hcons : ∀ i : It K V, itemsW (i :: r) = itemW i + itemsW r := fun i => by simp [itemsW]
      cases i with
      | close => cases h
      | again l => cases h
      | stmt s =>
        simp only at h
        cases he : f.exiting with
        | true => rw [he] at h; cases h
        | false =>
          rw [he] at h
          simp only [Bool.false_eq_true, if_false] at h
          cases ho : (lang cfg).opOf s with
          | none => rw [ho] at h; cases h
          | some op =>
            rw [ho] at h
            simp only at h
            cases hpn : panics f.scopes op with
            | none => rw [hpn] at h; cases h
            | some x =>
              obtain ⟨sc, gl⟩ := x
              rw [hpn] at h; cases h
              have hsz := size_pos s
              simp only [frameW, hi, hcons, itemsW_append, itemsW_glue, itemW] at hw ⊢
              omega
      | glue g =>
        cases g <;> cases h
        simp only [frameW, hi, hcons, itemW, owed, List.filterMap_cons, itGlue, List.cons_append]
        have : ∀ l : List (Glue K V), glueW (.user :: l) = 1 + glueW l := fun l => by simp [glueW, Glue.weight]
        rw [this]
        omega

/-! ### Facts about a running function -/

section
variable {id : Nat} {done done' : List (Entry K V)} {c : Call K V} {f : Fr K V} {pc : Pc K V}

theorem rel_again (hR : Rel cfg id done c f pc) (he : f.exiting = false) (l : List (St K)) (r : List (It K V)) : f.items ≠ .again l :: r := by
  intro hi
  cases hR with
  | unwind he' => rw [he] at he'; cases he'
  | unwindBox _ he' => rw [he] at he'; cases he'
  | leave he' => rw [he] at he'; cases he'
  | done he' => rw [he] at he'; cases he'
  | dropped => cases hi
  | @drop k gs ps hE =>
    cases hE with
    | none => cases ps <;> cases hi
    | _ => cases hi
  | «at» hA =>
    cases hA with
    | want hst =>
      obtain ⟨y, x, l, rfl, _⟩ := start_head hst
      cases hi
    | @hit k q v own byRef p ho => cases own <;> cases hi
    | @«from» k q v own ho => cases own <;> cases hi
    | @made k q v own byRef p ho => cases own <;> cases hi
    | _ => cases hi

theorem Rel.mono (hR : Rel cfg id done c f pc) (h : ∀ e ∈ done, e ∈ done') : Rel cfg id done' c f pc := by
  cases hR with
  | «at» a => exact .at a
  | unwind a b c => exact .unwind a b c
  | unwindBox a b c d e f => exact .unwindBox a b c d e f
  | leave a b c d e f g h i => exact .leave a b c d e f g h i
  | done a b c d e f => exact .done a b c d (h _ e) f
  | drop a => exact .drop a
  | dropped => exact .dropped

/-- A thread of the model at work is a call on the same pool. -/
theorem Rel.pool (hR : Rel cfg id done c f pc) {k : K} (h : pc.pool? = some k) : c.pool = k := by
  cases hR with
  | «at» hA => cases hA <;> first | exact Option.some.inj h
  | unwind => cases h
  | unwindBox => exact Option.some.inj h
  | leave _ _ _ _ hpc =>
    rcases hpc with rfl | ⟨k, q, v, p, rfl, _, rfl⟩ <;> exact Option.some.inj h
  | done => cases h
  | drop => cases h
  | dropped => cases h

/-- If it has a lock, so has the call. -/
theorem Rel.holds (hR : Rel cfg id done c f pc) (hn : NestedFr f) {i : Nat} (h : pc.holds cfg = some i) : .unlock i ∈ owed f := by
  cases hR with
  | @«at» _ byRef _ _ _ hA =>
    cases hA with
    | want => cases h
    | block hb => cases h; simp [owed, scsGlue, scGlue, glue]
    | closure hb => cases h; simp [owed, scsGlue, scGlue, glue]
    | @look k q v own byRef ho => cases h; cases own <;> simp [owed, scsGlue, scGlue, glue, topSc, lowSc, Pool.Op.pool]
    | @hit k q v own byRef p ho => cases h; cases own <;> simp [owed, scsGlue, scGlue, glue, topSc, lowSc]
    | @hit2 k q v byRef p ho => cases h; simp [owed, scsGlue, scGlue, glue, topSc, lowSc]
    | @miss k q v own byRef ho => cases h; cases own <;> simp [owed, scsGlue, scGlue, glue, topSc, lowSc]
    | @«from» k q v own ho => cases h; cases own <;> simp [owed, scsGlue, scGlue, glue, topSc, lowSc]
    | @mk k q v own byRef ho => cases h; cases own <;> cases byRef <;> simp [owed, scsGlue, scGlue, glue, topSc, lowSc, mkSc]
    | @made k q v own byRef p ho => cases h; cases own <;> cases byRef <;> simp [owed, scsGlue, scGlue, glue, topSc, lowSc, madeSc]
    | @ins k q v own byRef p ho => cases h; cases own <;> cases byRef <;> simp [owed, scsGlue, scGlue, glue, topSc, lowSc, madeSc]
    | @ret k q v own byRef p ho => cases h; cases own <;> cases byRef <;> simp [owed, scsGlue, scGlue, glue, topSc, lowSc, madeSc, Pool.Op.pool]
    | qlook ho => cases h; simp [owed, scsGlue, scGlue, glue, lowSc, Pool.Op.pool]
    | qret ho => cases h; simp [owed, scsGlue, scGlue, glue, lowSc, Pool.Op.pool]
    | len ho => cases h; simp [owed, scsGlue, scGlue, glue, lowSc, Pool.Op.pool]
  | unwind => cases h
  | unwindBox _ _ _ hw _ hu =>
    cases h
    rw [← wind_owed hn, hw]
    exact List.mem_cons_of_mem _ hu
  | leave _ _ _ _ hpc hw =>
    rw [← wind_owed hn, hw]
    rcases hpc with rfl | ⟨k, q, v, p, rfl, _, rfl⟩ <;> cases h <;> exact List.mem_append_right _ List.mem_cons_self
  | done => cases h
  | drop => cases h
  | dropped => cases h

/-- A call that waits for the mutex has not taken one. -/
theorem Rel.want {o : Pool.Op K V} (hR : Rel cfg id done c f (.want o)) (i : Nat) : .unlock i ∉ owed f := by
  cases hR with
  | «at» hA =>
    cases hA with
    | want hst =>
      obtain ⟨y, x, l, rfl, hg⟩ := start_head hst
      have : owed ({ scopes := [[(y, some x)]], items := .stmt (.bind .m (.lock o.pool)) :: (l.map .stmt ++ [.close]) } : Fr K V) = glue x := by
        simp only [owed, List.filterMap_cons, itGlue, List.filterMap_append, itGlue_stmts, List.filterMap_nil, List.nil_append]
        simp [scsGlue, scGlue]
      show .unlock i ∉ owed _
      rw [this, hg]
      simp
  | leave _ _ _ _ hpc => rcases hpc with h | ⟨_, _, _, _, _, _, h⟩ <;> cases h

end
end Src.PoolCode
