import Verif.Src.NewPoison
/-
How long functions can run.
-/
namespace Src.NewCode
open Arc (Res)
open Pool (Tid Ptr Query Ret Obj Entry)

variable {K V : Type} {cfg : Cfg K V} {N N' : State K V} {m m' : Mem K V}

def Glue.weight : Glue K V → Nat
  | .value _ _ => 2
  | .user | .unlock _ _ _ | .dealloc _ _ => 1
  | .destroy _ _ => 4

def glueW (l : List (Glue K V)) : Nat := (l.map Glue.weight).sum

def valW (v : Option (Val K V)) : Nat := glueW (v.toList.flatMap glue)

def scW (sc : List (Var × Option (Val K V))) : Nat := (sc.map fun x => valW x.2).sum

def scsW (scs : Scopes Var (Val K V)) : Nat := (scs.map scW).sum

noncomputable def itemW : It K V → Nat
  | .stmt s => 10 * sizeOf s
  | .close | .again _ => 1
  | .glue g => g.weight

noncomputable def itemsW (l : List (It K V)) : Nat := (l.map itemW).sum

/-- An upper bound on the number of steps that a function can still make. -/
noncomputable def frameW (f : Fr K V) : Nat := 1 + itemsW f.items + scsW f.scopes

theorem valW_le (v : Option (Val K V)) : valW v ≤ 4 := by
  cases v with
  | none => simp [valW, glueW]
  | some v => cases v <;> simp [valW, glueW, glue, Glue.weight]

theorem itemsW_cons (i : It K V) (l : List (It K V)) : itemsW (i :: l) = itemW i + itemsW l := by simp [itemsW]

theorem itemsW_append (l l' : List (It K V)) : itemsW (l ++ l') = itemsW l + itemsW l' := by simp [itemsW]

theorem itemsW_glue (l : List (Glue K V)) : itemsW (l.map (Item.glue : Glue K V → It K V)) = glueW l := by
  induction l with
  | nil => rfl
  | cons g l ih => rw [List.map_cons, itemsW_cons, ih]; simp [itemW, glueW]

theorem itemsW_stmts (l : List (St K)) : itemsW (l.map (Item.stmt : St K → It K V)) + 10 ≤ 10 * sizeOf l := by
  induction l with
  | nil => simp [itemsW]
  | cons s l ih =>
    rw [List.map_cons, itemsW_cons, List.cons.sizeOf_spec]
    simp only [itemW]
    omega

theorem size_pos (s : St K) : 10 ≤ 10 * sizeOf s := by cases s <;> simp <;> omega

theorem scW_glue (sc : List (Var × Option (Val K V))) : glueW (sc.flatMap fun x => x.2.toList.flatMap glue) = scW sc := by
  induction sc with
  | nil => rfl
  | cons x sc ih =>
    rw [List.flatMap_cons]
    simp only [glueW, List.map_append, List.sum_append] at ih ⊢
    rw [ih]
    simp [scW, valW, glueW]

theorem scW_set (x : Var) : ∀ sc : List (Var × Option (Val K V)), scW (scopeSet x none sc) ≤ scW sc
  | [] => Nat.le_refl _
  | (y, v) :: sc => by
    simp only [scopeSet]
    split
    · simp [scW, valW, glueW]
    · have := scW_set x sc
      simp only [scW, List.map_cons, List.sum_cons] at this ⊢
      omega

theorem scsW_set (x : Var) : ∀ scs : Scopes Var (Val K V), scsW (scs.set x none) ≤ scsW scs
  | [] => Nat.le_refl _
  | sc :: scs => by
    simp only [Scopes.set]
    split
    · have := scW_set x sc
      simp only [scsW, List.map_cons, List.sum_cons]
      omega
    · have := scsW_set x scs
      simp only [scsW, List.map_cons, List.sum_cons] at this ⊢
      omega

theorem scsW_declare (x : Var) (v : Option (Val K V)) (scs : Scopes Var (Val K V)) : scsW (scs.declare x v) ≤ scsW scs + 4 := by
  cases scs with
  | nil => simp [Scopes.declare, scsW]
  | cons sc scs =>
    have := valW_le v
    simp only [Scopes.declare, scsW, scW, List.map_cons, List.sum_cons]
    omega

variable [DecidableEq K] [BEq V] [Hashable V]

theorem exec_weight {t : Tid} {a : Nat} {sc : Scopes Var (Val K V)} {op : Op K} {d : Done (Mem K V) Var (Val K V)} (h : exec cfg m t a sc op = .ok d) : scsW d.scopes ≤ scsW sc := by
  cases op <;> simp only [exec] at h <;> repeat' split at h
  all_goals cases h
  all_goals first | exact Nat.le_refl _ | exact scsW_set _ _

/-- Statements without loops and assignments. -/
def Plain : St K → Prop
  | .loop _ | .assign _ _ => False
  | _ => True

theorem stmt_weight {t : Tid} {a : Nat} {f f' : Fr K V} {r : List (It K V)} {s : St K} (hp : Plain s) (h : (lang cfg).stmt m t a f r s = .ok (m', f')) :
    frameW f' < 1 + itemsW (.stmt s :: r) + scsW f.scopes := by
  rw [itemsW_cons]
  have hsz := size_pos s
  cases s with
  | loop l => cases hp
  | assign x op => cases hp
  | uninit x =>
    cases h
    have := scsW_declare x none f.scopes
    simp only [frameW, itemW] at hsz ⊢
    omega
  | bind x op =>
    simp only [Lang.stmt] at h
    split at h <;> cases h
    rename_i d hd
    have h1 := exec_weight hd
    have h2 := scsW_declare x d.val d.scopes
    simp only [frameW, itemW] at hsz ⊢
    omega
  | exec op =>
    simp only [Lang.stmt] at h
    split at h <;> cases h
    rename_i d hd
    have h1 := exec_weight hd
    have h2 := valW_le d.val
    have h3 : itemsW ((d.val.toList.flatMap glue).map (Item.glue : Glue K V → It K V)) = valW d.val := itemsW_glue _
    show 1 + itemsW ((d.val.toList.flatMap glue).map (Item.glue : Glue K V → It K V) ++ r) + scsW d.scopes < _
    rw [itemsW_append]
    simp only [itemW] at hsz ⊢
    omega
  | choose x op arm0 arm1 =>
    simp only [Lang.stmt] at h
    split at h <;> cases h
    rename_i d hd
    have h1 := exec_weight hd
    have h2 := valW_le d.val
    have h3 := itemsW_stmts (V := V) arm0
    have h4 := itemsW_stmts (V := V) arm1
    have h5 : itemsW ((if d.arm = 0 then arm0 else arm1).map (Item.stmt : St K → It K V)) + 20 ≤ 10 * sizeOf arm0 + 10 * sizeOf arm1 := by
      have e1 : 10 ≤ 10 * sizeOf arm0 := by omega
      have e2 : 10 ≤ 10 * sizeOf arm1 := by omega
      split <;> omega
    have h6 : scsW ([(x, d.val)] :: d.scopes) = valW d.val + scsW d.scopes := by simp [scsW, scW]
    show 1 + itemsW ((if d.arm = 0 then arm0 else arm1).map (Item.stmt : St K → It K V) ++ .close :: r) + scsW ([(x, d.val)] :: d.scopes) < _
    rw [itemsW_append, itemsW_cons, h6]
    simp only [itemW, Stmt.choose.sizeOf_spec] at hsz ⊢
    omega
  | block l =>
    cases h
    have h3 := itemsW_stmts (V := V) l
    have h6 : scsW ([] :: f.scopes) = scsW f.scopes := by simp [scsW, scW]
    show 1 + itemsW (l.map (Item.stmt : St K → It K V) ++ .close :: r) + scsW ([] :: f.scopes) < _
    rw [itemsW_append, itemsW_cons, h6]
    simp only [itemW, Stmt.block.sizeOf_spec] at hsz ⊢
    omega
  | ret op =>
    simp only [Lang.stmt] at h
    split at h <;> cases h
    rename_i d hd
    have h1 := exec_weight hd
    simp only [frameW, itemW] at hsz ⊢
    omega

def PlainIt (exiting : Bool) : It K V → Prop
  | .stmt s => exiting = true ∨ Plain s
  | .again _ => False
  | _ => True

/-- The next thing that a function does is not a loop or an assignment. -/
def PlainFr (f : Fr K V) : Prop := ∀ i r, f.items = i :: r → PlainIt f.exiting i

theorem run_weight {t : Tid} {a : Nat} {f f' : Fr K V} {fs : List (Fr K V)} {x : Option (Val K V)} (hp : PlainFr f) (h : (lang cfg).run m t a [f] = .ok (m', f' :: fs, x)) :
    frameW f' < frameW f := by
  simp only [Lang.run] at h
  split at h
  · cases h
  · rename_i g r hi
    have hg : ∀ {more : List (Glue K V)} {fs'}, glueW more < g.weight → ({ f with items := more.map .glue ++ r } :: fs' : List (Fr K V)) = f' :: fs → frameW f' < frameW f := by
      intro more fs' hm e
      cases e
      simp only [frameW, hi, itemsW_append, itemsW_cons, itemsW_glue, itemW]
      omega
    cases g <;> simp only [drop] at h
    case value => cases h; exact hg (more := [.user]) (by simp [glueW, Glue.weight]) rfl
    case user => cases h; exact hg (more := []) (by simp [glueW, Glue.weight]) rfl
    case unlock s pos was =>
      split at h
      · rename_i h'
        split at h' <;> cases h'
        cases h; exact hg (more := []) (by simp [glueW, Glue.weight]) rfl
      · cases h
      · cases h
    case destroy k p =>
      split at h
      · rename_i h'
        split at h' <;> cases h'
        cases h; exact hg (more := [.value k _, .dealloc k p]) (by simp [glueW, Glue.weight]) rfl
      · cases h
      · cases h
    case dealloc k p =>
      split at h
      · rename_i h'
        split at h' <;> cases h'
        cases h; exact hg (more := []) (by simp [glueW, Glue.weight]) rfl
      · cases h
      · cases h
  · rename_i r hi
    split at h
    · rename_i sc scs hsc
      cases h
      have : itemsW ((lang cfg).scopeGlue sc) = scW sc := by rw [← scW_glue]; exact itemsW_glue _
      have h6 : scsW (sc :: scs) = scW sc + scsW scs := by simp [scsW]
      simp only [frameW, hi, hsc]
      rw [show itemsW ((lang cfg).scopeGlue sc ++ r) = _ from itemsW_append _ _, itemsW_cons, this, h6]
      simp only [itemW]
      omega
    · cases h
  · rename_i l r hi
    exact absurd (hp _ _ hi) id
  · rename_i s r hi
    split at h
    · cases h
      have := size_pos s
      simp only [frameW, hi, itemsW_cons, itemW]
      omega
    · rename_i he
      split at h
      · rename_i m1 f1 hst
        cases h
        have := stmt_weight ((hp _ _ hi).resolve_left he) hst
        simpa only [frameW, hi] using this
      · cases h
      · cases h

theorem panic_weight {f f' : Fr K V} {fs : List (Fr K V)} (h : (lang cfg).panic m [f] = .ok (f' :: fs)) : frameW f' < frameW f := by
  simp only [Lang.panic] at h
  split at h
  · cases h
  · split at h
    · rename_i s r hi
      split at h
      · cases h
      · split at h
        · rename_i op hop
          split at h
          · rename_i scopes gl hpn
            cases h
            have hs : scopes = f.scopes ∧ gl = [] := by
              cases op <;> simp only [panics] at hpn <;> repeat' split at hpn
              all_goals cases hpn
              all_goals exact ⟨rfl, rfl⟩
            obtain ⟨rfl, rfl⟩ := hs
            have := size_pos s
            simp only [frameW, hi, itemsW_cons, itemW, List.map_nil, List.nil_append]
            omega
          · cases h
        · cases h
    · rename_i g r hi
      split at h
      · rename_i hg
        cases h
        have : 0 < g.weight := by cases g <;> simp [Glue.weight]
        simp only [frameW, hi, itemsW_cons, itemW]
        omega
      · cases h
    · cases h

theorem plain_locked {body : List (St K)} {o : Pool.Op K V} {x : Val K V} {byRef : Bool} {y : PoolCode.Val K V} {body' : List (PoolCode.St K)} (_ : Code cfg o byRef x body y body') :
    ∀ s ∈ locked body, Plain s := by
  intro s hs
  simp only [locked, List.mem_cons, List.not_mem_nil, or_false] at hs
  rcases hs with rfl | rfl <;> exact trivial

omit [DecidableEq K] [BEq V] [Hashable V] in
theorem plain_wind {P : Glue K V → Prop} {scs : Scopes Var (Val K V)} {J : List (It K V)} (h : Wind P scs J) : ∀ i r, J = i :: r → ∀ l, i ≠ .again l := by
  intro i r e l hi
  subst hi; subst e
  cases h

theorem Pre.plain {o : Pool.Op K V} {byRef : Bool} {l : List (K × V)} {f : Fr K V} (h : Pre cfg m o byRef l f) : PlainFr f := by
  intro i r hi
  cases h with
  | start _ => cases hi; exact .inr trivial
  | found _ _ _ => cases hi; exact .inr trivial
  | miss _ => cases hi; trivial
  | push _ => cases hi; exact .inr trivial
  | again _ _ _ => cases hi; exact .inr trivial
  | refused he hp hr =>
    rw [hi] at hr
    cases i with
    | stmt s => exact .inl he
    | close => trivial
    | glue g => trivial
    | again l => generalize f.scopes = scs at hr; cases hr

omit [DecidableEq K] [BEq V] [Hashable V] in
theorem plain_str {k : K} {s : St K} {s' : PoolCode.St K} (h : StR k s s') : Plain s := by cases h <;> trivial

theorem Post.plain {o : Pool.Op K V} {byRef : Bool} {pos : Nat} {was : Bool} {f : Fr K V} {p : PoolCode.Fr K V} (h : Post cfg o byRef pos was f p) : PlainFr f := by
  intro i r hi
  have bare : ∀ {scs : Scopes Var (Val K V)} {J : List (It K V)}, Bare scs J → J = i :: r → PlainIt true i := by
    intro scs J hb e
    cases i with
    | stmt s => exact .inl rfl
    | close => trivial
    | glue g => trivial
    | again l => subst e; cases hb
  cases h with
  | locked _ _ => cases hi; exact .inr trivial
  | closure _ _ => cases hi; exact .inr trivial
  | body _ hI _ _ _ =>
    cases hI with
    | nil => cases hi; trivial
    | cons hi' _ =>
      cases hi
      cases hi' with
      | stmt hs => exact .inr (plain_str hs)
      | close => trivial
      | glue _ => trivial
  | unlock _ _ => cases hi; trivial
  | over hb _ => exact bare hb hi

noncomputable def callsW (l : List (Running K V)) : Nat := (l.map fun (c : Running K V) => frameW c.frame).sum

/-- An upper bound on the number of steps that the running functions can still make. -/
noncomputable def stateW (N : State K V) : Nat := callsW N.calls

omit [DecidableEq K] [BEq V] [Hashable V] in
theorem stateW_frame {t : Tid} {c : Running K V} {cs : List (Running K V)} (ht : N.threads[t]? = some (c :: cs)) {f : Fr K V} (hf : frameW f < frameW c.frame)
    (e : N'.threads = N.threads.set t ({ c with frame := f } :: cs)) : stateW N' < stateW N := by
  obtain ⟨x, y, k1, k2⟩ := PoolCode.flatten_set ht
  simp only [stateW, State.calls, e, k1, k2, callsW, List.map_append, List.map_cons, List.sum_append, List.sum_cons]
  omega

omit [DecidableEq K] [BEq V] [Hashable V] in
theorem stateW_pop {t : Tid} {c : Running K V} {cs : List (Running K V)} (ht : N.threads[t]? = some (c :: cs)) (e : N'.threads = N.threads.set t cs) : stateW N' < stateW N := by
  obtain ⟨x, y, k1, k2⟩ := PoolCode.flatten_set ht
  simp only [stateW, State.calls, e, k1, k2, callsW, List.map_append, List.map_cons, List.sum_append, List.sum_cons, frameW]
  omega

section
variable [EquivBEq V] [LawfulHashable V]

theorem Reach.run_less (lay : cfg.Layout) (h : Reach cfg N) {t : Tid} {a : Nat} (hs : NewCode.step cfg N (.run t a) = .ok N') : stateW N' < stateW N := by
  obtain ⟨S, num, Ls, D, h1, h2⟩ := h.nsim lay
  simp only [NewCode.step] at hs
  split at hs
  · rename_i c cs ht
    obtain ⟨ps, L, hps, hL, hst⟩ := h1.stacks t _ ht
    have hp : PlainFr c.frame := by
      cases hst with
      | pre g _ _ _ _ => exact g.plain
      | post _ g _ _ _ _ _ => exact g.plain
    split at hs
    · simp only [unwind] at hs
      split at hs <;> cases hs
      rename_i he
      exact stateW_frame ht (panic_weight he) rfl
    · split at hs <;> cases hs
      · exact stateW_pop ht rfl
      · rename_i he
        exact stateW_frame ht (run_weight hp he) rfl
  · cases hs

omit [EquivBEq V] [LawfulHashable V] in
theorem panic_less {t : Tid} (hs : NewCode.step cfg N (.panic t) = .ok N') : stateW N' < stateW N := by
  simp only [NewCode.step] at hs
  split at hs
  · rename_i c cs ht
    split at hs
    · simp only [unwind] at hs
      split at hs <;> cases hs
      rename_i he
      exact stateW_frame ht (panic_weight he) rfl
    · cases hs
  · cases hs

end
end Src.NewCode
