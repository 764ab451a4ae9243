import Verif.Src.NewRun
/-
The operations of the closures.
-/
namespace Src.NewCode
open Arc (Res)
open Pool (Tid Ptr Query Ret Obj Entry)

variable {K V : Type}

/-- The scopes around a closure that is running. -/
abbrev low (s pos : Nat) (was : Bool) (n : Option Nat) : Scopes Var (Val K V) :=
  [[(.m, some (.guard s pos was)), (.v, some (.cell s pos))], bot n none]

abbrev low' (i : Nat) : Scopes PoolCode.Var (PoolCode.Val K V) := [[(.m, some (.guard i)), (.f, none)]]

/-! ### Variables -/

theorem scope_get {sc : List (Var × Option (Val K V))} {sc' : List (PoolCode.Var × Option (PoolCode.Val K V))} (h : All2 BR sc sc') (x : PoolCode.Var) :
    (scopeGet (ev x) sc = none ∧ scopeGet x sc' = none) ∨ ∃ a b, scopeGet (ev x) sc = some a ∧ scopeGet x sc' = some b ∧ OR a b ∧
      (pointer x = true → ∀ y, b = some y → ∃ p, y = .ptr p) := by
  induction h with
  | nil => exact .inl ⟨rfl, rfl⟩
  | @cons a b l l' hb _ ih =>
    obtain ⟨xa, va⟩ := a
    obtain ⟨xb, vb⟩ := b
    obtain ⟨h1, h2, h3, h4⟩ := hb
    simp only at h1 h2 h3 h4
    subst h1
    simp only [scopeGet]
    by_cases e : xb = x
    · subst e
      right
      exact ⟨va, vb, by simp, by simp, h3, h4⟩
    · rw [if_neg e, if_neg (fun h => e (ev_inj h))]
      exact ih

theorem scope_set {sc : List (Var × Option (Val K V))} {sc' : List (PoolCode.Var × Option (PoolCode.Val K V))} (h : All2 BR sc sc') (x : PoolCode.Var) :
    All2 BR (scopeSet (ev x) none sc) (scopeSet x none sc') := by
  induction h with
  | nil => exact .nil
  | @cons a b l l' hb hr ih =>
    obtain ⟨xa, va⟩ := a
    obtain ⟨xb, vb⟩ := b
    obtain ⟨h1, h2, h3, h4⟩ := hb
    simp only at h1 h2 h3 h4
    subst h1
    simp only [scopeSet]
    by_cases e : xb = x
    · subst e
      rw [if_pos rfl, if_pos rfl]
      exact .cons ⟨rfl, h2, .none, fun _ _ h => by cases h⟩ hr
    · rw [if_neg e, if_neg (fun h => e (ev_inj h))]
      exact .cons ⟨rfl, h2, h3, h4⟩ ih

theorem get_low {x : PoolCode.Var} (hx : inner x = true) (s pos : Nat) (was : Bool) (n : Option Nat) : Scopes.get (ev x) (low (K := K) (V := V) s pos was n) = none := by
  cases n <;> cases x <;> first | rfl | cases hx

theorem set_low {x : PoolCode.Var} (hx : inner x = true) (s pos : Nat) (was : Bool) (n : Option Nat) :
    Scopes.set (ev x) none (low (K := K) (V := V) s pos was n) = low s pos was n := by
  cases n <;> cases x <;> first | rfl | cases hx

theorem get_low' {x : PoolCode.Var} (hx : inner x = true) (i : Nat) : Scopes.get x (low' (K := K) (V := V) i) = none := by
  cases x <;> first | rfl | cases hx

theorem set_low' {x : PoolCode.Var} (hx : inner x = true) (i : Nat) : Scopes.set x none (low' (K := K) (V := V) i) = low' i := by
  cases x <;> first | rfl | cases hx

theorem scopes_get {B : Scopes Var (Val K V)} {B' : Scopes PoolCode.Var (PoolCode.Val K V)} (h : SR B B') {x : PoolCode.Var} (hx : inner x = true)
    (s pos : Nat) (was : Bool) (n : Option Nat) (i : Nat) :
    OR (Scopes.get (ev x) (B ++ low s pos was n)) (Scopes.get x (B' ++ low' i)) ∧
      (pointer x = true → ∀ y, Scopes.get x (B' ++ low' i) = some y → ∃ p, y = .ptr p) := by
  induction h with
  | nil =>
    simp only [List.nil_append, get_low hx, get_low' hx]
    exact ⟨.none, fun _ _ h => by cases h⟩
  | @cons a b l l' hs _ ih =>
    simp only [List.cons_append, Scopes.get]
    rcases scope_get hs x with ⟨h1, h2⟩ | ⟨y, z, h1, h2, h3, h4⟩
    · rw [h1, h2]; exact ih
    · rw [h1, h2]; exact ⟨h3, h4⟩

theorem scopes_set {B : Scopes Var (Val K V)} {B' : Scopes PoolCode.Var (PoolCode.Val K V)} (h : SR B B') {x : PoolCode.Var} (hx : inner x = true)
    (s pos : Nat) (was : Bool) (n : Option Nat) (i : Nat) : ∃ B1 B1', SR B1 B1' ∧ Scopes.set (ev x) none (B ++ low s pos was n) = B1 ++ low s pos was n ∧
      Scopes.set x none (B' ++ low' i) = B1' ++ low' i ∧ B1.length = B.length := by
  induction h with
  | nil => exact ⟨[], [], .nil, set_low hx .., set_low' hx _, rfl⟩
  | @cons a b l l' hs hr ih =>
    simp only [List.cons_append, Scopes.set]
    rcases scope_get hs x with ⟨h1, h2⟩ | ⟨y, z, h1, h2, h3, h4⟩
    · obtain ⟨B1, B1', e1, e2, e3, e4⟩ := ih
      rw [h1, h2]
      simp only
      rw [e2, e3]
      exact ⟨_ :: B1, _ :: B1', .cons hs e1, rfl, rfl, by simp [e4]⟩
    · rw [h1, h2]
      exact ⟨_ :: l, _ :: l', .cons (scope_set hs x) hr, rfl, rfl, rfl⟩

/-- The guard. -/
theorem get_guard {B : Scopes Var (Val K V)} {B' : Scopes PoolCode.Var (PoolCode.Val K V)} (h : SR B B') (s pos : Nat) (was : Bool) (n : Option Nat) :
    Scopes.get .m (B ++ low s pos was n) = some (.guard s pos was) := by
  induction h with
  | nil => rfl
  | @cons a b l l' hs _ ih =>
    simp only [List.cons_append, Scopes.get]
    have : scopeGet .m a = none := by
      clear ih
      induction hs with
      | nil => rfl
      | @cons a b l l' hb _ ih =>
        obtain ⟨xa, va⟩ := a
        obtain ⟨xb, vb⟩ := b
        obtain ⟨h1, h2, _⟩ := hb
        simp only at h1 h2
        subst h1
        simp only [scopeGet]
        rw [if_neg, ih]
        intro e
        cases xb <;> first | (cases e; done) | exact absurd h2 (by decide)
    rw [this]; exact ih

/-! ### Operations -/

variable [DecidableEq K] [BEq V] [Hashable V] {cfg : Cfg K V} {m : Mem K V} {n : PoolCode.Mem K V}

/-- How a function that holds the mutex in element `pos` of the vector of type `k` changes vectors. -/
inductive Chg (cfg : Cfg K V) (k : K) (pos : Nat) (was : Bool) (m m' : Mem K V) : Prop
  | same : m'.cells = m.cells → Chg cfg k pos was m m'
  | insert {c : Cell} (p : Ptr) : m.cell (cfg.shard k) pos = some c → m'.cells = (m.setCell (cfg.shard k) pos { c with set := p :: c.set }).cells → Chg cfg k pos was m m'
  | unlock {c : Cell} : m.cell (cfg.shard k) pos = some c →
      m'.cells = (m.setCell (cfg.shard k) pos { c with owner := none, poisoned := c.poisoned || (m.panicking && !was) }).cells → Chg cfg k pos was m m'

/-- What a step does to the memories of the two programs. -/
structure Moves (cfg : Cfg K V) (k : K) (pos : Nat) (was : Bool) (m m' : Mem K V) (n n' : PoolCode.Mem K V) : Prop where
  mem : MR cfg m' n'
  cells : Chg cfg k pos was m m'
  ledger : ∃ b d, m'.born = b ++ m.born ∧ n'.born = b ++ n.born ∧ m'.dead = d ++ m.dead ∧ n'.dead = d ++ n.dead

omit [DecidableEq K] [BEq V] [Hashable V] in
theorem Chg.tids {k : K} {pos : Nat} {was : Bool} {m' : Mem K V} (h : Chg cfg k pos was m m') (s : Nat) : tids m' s = tids m s := by
  cases h with
  | same h => simp only [NewCode.tids, h]
  | @insert c p hc h => rw [NewCode.tids, h]; exact tids_setCell (c' := { c with set := p :: c.set }) hc rfl s
  | @unlock c hc h => rw [NewCode.tids, h]; exact tids_setCell (c' := { c with owner := none, poisoned := c.poisoned || (m.panicking && !was) }) hc rfl s

omit [DecidableEq K] [BEq V] [Hashable V] in
theorem Moves.same {k : K} {pos : Nat} {was : Bool} (h : MR cfg m n) : Moves cfg k pos was m m n n := ⟨h, .same rfl, [], [], rfl, rfl, rfl, rfl⟩

/-- What an operation of a closure does. -/
structure DR (cfg : Cfg K V) (m : Mem K V) (n : PoolCode.Mem K V) (k : K) (pos : Nat) (was : Bool) (j : Option Nat) (len : Nat) (op' : PoolCode.Op K) (d : Done (Mem K V) Var (Val K V))
    (d' : Done (PoolCode.Mem K V) PoolCode.Var (PoolCode.Val K V)) : Prop where
  mem : Moves cfg k pos was m d.mem n d'.mem
  arm : d.arm = d'.arm
  val : OR d.val d'.val
  ptr : yields op' = true → ∀ y, d'.val = some y → ∃ p, y = .ptr p
  scopes : ∃ B B', SR B B' ∧ d.scopes = B ++ low (cfg.shard k) pos was j ∧ d'.scopes = B' ++ low' (cfg.typeId k) ∧ B.length = len

omit [BEq V] [Hashable V] [DecidableEq K] in
theorem setOf_low {B : Scopes Var (Val K V)} {B' : Scopes PoolCode.Var (PoolCode.Val K V)} (h : SR B B') {k : K} {pos : Nat} (hf : First cfg m k pos) {c : Cell}
    (hc : firstCell cfg m k = some c) (was : Bool) (j : Option Nat) : setOf m (B ++ low (cfg.shard k) pos was j) = some (cfg.shard k, pos, c) := by
  obtain ⟨d, h1, _, h3⟩ := hf.cell
  rw [hc] at h3; cases h3
  simp only [setOf, get_guard h, h1, Option.map_some]

theorem pointer_inner {x : PoolCode.Var} (h : pointer x = true) : inner x = true := by cases x <;> first | rfl | cases h

theorem exec_sim (lay : cfg.Layout) (hm : MR cfg m n) {k : K} {pos : Nat} (hf : First cfg m k pos) {B : Scopes Var (Val K V)} {B' : Scopes PoolCode.Var (PoolCode.Val K V)}
    (hB : SR B B') {op : Op K} {op' : PoolCode.Op K} (ho : OpR k op op') (t : Tid) (a : Nat) (was : Bool) (j : Option Nat) :
    Both (DR cfg m n k pos was j B.length op') (exec cfg m t a (B ++ low (cfg.shard k) pos was j) op)
      (PoolCode.exec cfg.pool n t a (B' ++ low' (cfg.typeId k)) op') := by
  obtain ⟨c, _, _, hc⟩ := hf.cell
  have hset := setOf_low hB hf hc was j
  cases ho with
  | @get x hx =>
    have hg := (scopes_get hB hx (cfg.shard k) pos was j (cfg.typeId k)).1
    simp only [exec, PoolCode.exec, hset]
    generalize Scopes.get (ev x) _ = X at hg ⊢
    generalize Scopes.get x _ = Y at hg ⊢
    cases hg with
    | none => exact .ub
    | some hv =>
      cases hv <;> try exact .ub
      all_goals
        rename_i q _
        simp only [hm.tableOk hc, hm.find hc]
        cases Pool.tableOk n.view k with
        | false => exact .ub
        | true =>
          cases Pool.find n.view k q with
          | some p => exact .ok ⟨.same hm, rfl, .some .ptr, fun _ y e => by cases e; exact ⟨_, rfl⟩, B, B', hB, rfl, rfl, rfl⟩
          | none => exact .ok ⟨.same hm, rfl, .none, fun _ y e => (by cases e), B, B', hB, rfl, rfl, rfl⟩
  | @«from» x hx =>
    have hg := (scopes_get hB hx (cfg.shard k) pos was j (cfg.typeId k)).1
    simp only [exec, PoolCode.exec]
    generalize Scopes.get (ev x) _ = X at hg ⊢
    generalize Scopes.get x _ = Y at hg ⊢
    cases hg with
    | none => exact .ub
    | some hv =>
      cases hv <;> try exact .ub
      exact .ok ⟨⟨hm.of_eq rfl rfl rfl rfl rfl rfl rfl, .same rfl, [_], [], rfl, rfl, rfl, rfl⟩, rfl, .some .owned, fun h => (by cases h), B, B', hB, rfl, rfl, rfl⟩
  | @boxNew x hx =>
    have hg := (scopes_get hB hx (cfg.shard k) pos was j (cfg.typeId k)).1
    obtain ⟨B1, B1', e1, e2, e3, e4⟩ := scopes_set hB hx (cfg.shard k) pos was j (cfg.typeId k)
    simp only [exec, PoolCode.exec]
    rw [e2, e3]
    generalize Scopes.get (ev x) _ = X at hg ⊢
    generalize Scopes.get x _ = Y at hg ⊢
    cases hg with
    | none => exact .ub
    | some hv =>
      cases hv <;> try exact .ub
      all_goals
        simp only [hm.alloc]
        generalize Pool.allocAt cfg.pool n.used _ _ a = X
        cases X with
        | none => exact .blocked
        | some addr => exact .ok ⟨⟨⟨by simp [hm.heap]; rfl, hm.husks, hm.table, hm.lock⟩, .same rfl, [], [], rfl, rfl, rfl, rfl⟩, rfl, .some .box, fun h => (by cases h), B1, B1', e1, rfl, rfl, e4⟩
  | @leak x hx =>
    have hg := (scopes_get hB hx (cfg.shard k) pos was j (cfg.typeId k)).1
    obtain ⟨B1, B1', e1, e2, e3, e4⟩ := scopes_set hB hx (cfg.shard k) pos was j (cfg.typeId k)
    simp only [exec, PoolCode.exec]
    rw [e2, e3]
    generalize Scopes.get (ev x) _ = X at hg ⊢
    generalize Scopes.get x _ = Y at hg ⊢
    cases hg with
    | none => exact .ub
    | some hv =>
      cases hv <;> try exact .ub
      exact .ok ⟨.same hm, rfl, .some .ptr, fun _ y e => by cases e; exact ⟨_, rfl⟩, B1, B1', e1, rfl, rfl, e4⟩
  | @ptrOf x hx =>
    obtain ⟨hg, hp⟩ := scopes_get hB (pointer_inner hx) (cfg.shard k) pos was j (cfg.typeId k)
    have hp := hp hx
    simp only [exec, PoolCode.exec]
    generalize Scopes.get (ev x) _ = X at hg ⊢
    generalize Scopes.get x _ = Y at hg hp ⊢
    cases hg with
    | none => exact .ub
    | some hv =>
      obtain ⟨p, rfl⟩ := hp _ rfl
      cases hv
      exact .ok ⟨.same hm, rfl, .some .ptr, fun _ y e => by cases e; exact ⟨_, rfl⟩, B, B', hB, rfl, rfl, rfl⟩
  | @insert x hx =>
    obtain ⟨hg, hp⟩ := scopes_get hB (pointer_inner hx) (cfg.shard k) pos was j (cfg.typeId k)
    have hp := hp hx
    simp only [exec, PoolCode.exec, hset]
    generalize Scopes.get (ev x) _ = X at hg ⊢
    generalize Scopes.get x _ = Y at hg hp ⊢
    cases hg with
    | none => exact .ub
    | some hv =>
      obtain ⟨p, rfl⟩ := hp _ rfl
      cases hv
      simp only [hm.tableOk hc, hm.find hc, hm.deref]
      cases Pool.tableOk n.view k with
      | false => exact .ub
      | true =>
        cases Pool.deref n.view k p with
        | none => exact .ub
        | some v =>
          simp only
          cases Pool.find n.view k (.ofVal v) with
          | some _ => exact .ok ⟨.same hm, rfl, .none, fun h => (by cases h), B, B', hB, rfl, rfl, rfl⟩
          | none =>
            obtain ⟨d, g1, g2, g3⟩ := hf.cell
            rw [hc] at g3; cases g3
            exact .ok ⟨⟨hm.insert lay hf hc p, .insert p g1 rfl, [], [], rfl, rfl, rfl, rfl⟩, rfl, .none, fun h => (by cases h), B, B', hB, rfl, rfl, rfl⟩
  | len =>
    simp only [exec, PoolCode.exec, hset]
    have : (n.table k).length = c.set.length := by rw [hm.table, hc]; rfl
    rw [this]
    exact .ok ⟨.same hm, rfl, .some .num, fun h => (by cases h), B, B', hB, rfl, rfl, rfl⟩

end Src.NewCode
