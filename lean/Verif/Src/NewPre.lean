import Verif.Src.NewPost
/-
A function that has not taken the mutex of its type.
-/
namespace Src.NewCode
open Arc (Res)
open Pool (Tid Ptr Query Ret Obj Entry)

variable {K V : Type} [DecidableEq K] [BEq V] [Hashable V] {cfg : Cfg K V} {m : Mem K V} {n : PoolCode.Mem K V} {o : Pool.Op K V} {byRef : Bool} {l : List (K × V)}
  {f : Fr K V}

/-- The functions. -/
theorem start_code (h : start cfg o byRef = some f) : ∃ x body y body', Code cfg o byRef x body y body' ∧
    f = (lang cfg).enter [(.f, some x)] (withSet o.pool body) := by
  cases o with
  | intern k q v =>
    refine ⟨if byRef then .argRef k q v else .arg k q v, internBody k byRef, if byRef then .argRef k q v else .arg k q v, _,
      ⟨rfl, rfl, ?_, ?_, ?_⟩, (Option.some.inj h).symm⟩
    · cases byRef <;> constructor
    · cases byRef <;> rfl
    · cases byRef
      · refine .cons (.choose (x := .b) rfl (.get (x := .val) rfl) rfl (.cons (.ret (.ptrOf (x := .b) rfl)) .nil) .nil) ?_
        refine .cons (.bind (x := .bx) rfl (.boxNew (x := .val) rfl) (fun h => by cases h)) ?_
        refine .cons (.bind (x := .p) rfl (.leak (x := .bx) rfl) (fun _ => rfl)) ?_
        exact .cons (.exec (.insert (x := .p) rfl)) (.cons (.ret (.ptrOf (x := .p) rfl)) .nil)
      · refine .cons (.choose (x := .b) rfl (.get (x := .val) rfl) rfl (.cons (.ret (.ptrOf (x := .b) rfl)) .nil) .nil) ?_
        refine .cons (.bind (x := .t) rfl (.from (x := .val) rfl) (fun h => by cases h)) ?_
        refine .cons (.bind (x := .bx) rfl (.boxNew (x := .t) rfl) (fun h => by cases h)) ?_
        refine .cons (.bind (x := .p) rfl (.leak (x := .bx) rfl) (fun _ => rfl)) ?_
        exact .cons (.exec (.insert (x := .p) rfl)) (.cons (.ret (.ptrOf (x := .p) rfl)) .nil)
  | len k =>
    refine ⟨.unit, lenBody, .unit, _, ⟨rfl, rfl, .unit, ?_, .cons (.ret .len) .nil⟩, (Option.some.inj h).symm⟩
    cases byRef <;> rfl
  | query k q => cases h
  | clear k => cases h

theorem pre_start (h : start cfg o byRef = some f) (m : Mem K V) : Pre cfg m o byRef (taken o byRef) f := by
  obtain ⟨x, body, y, body', hc, rfl⟩ := start_code h
  exact .start hc

theorem Pre.grows {m' : Mem K V} (h : Pre cfg m o byRef l f) (hg : Grows m m') : Pre cfg m' o byRef l f := by
  cases h with
  | start hc => exact .start hc
  | found hc hJ hf => exact .found hc hJ (hf.grows hg)
  | miss hc => exact .miss hc
  | push hc => exact .push hc
  | again hc h1 h2 =>
    obtain ⟨r, hr⟩ := hg (cfg.shard o.pool)
    refine .again hc ?_ ?_
    · rw [← hr, List.length_append]; omega
    · rw [← hr, List.take_append_of_le_length h1]; exact h2
  | refused h1 h2 h3 => exact .refused h1 h2 h3

omit [BEq V] [Hashable V] [DecidableEq K] in
theorem bare_bot (k : K) (body : List (St K)) : Bare [bot none none] (rest1 k body : List (It K V)) := by
  refine .stmt (.stmt (.stmt (.close ?_ .nil)))
  intro x hx y hy
  simp only [bot, Option.toList_none, List.map_nil, List.nil_append, List.mem_singleton] at hx
  subst hx; cases hy

omit [BEq V] [Hashable V] [DecidableEq K] in
theorem bare_bot2 (n : Nat) : Bare [bot (some n) none] ([.stmt (.exec .unreachable), .close] : List (It K V)) := by
  refine .stmt (.close ?_ .nil)
  intro x hx y hy
  simp only [bot, Option.toList_some, List.map_cons, List.map_nil, List.cons_append, List.nil_append, List.mem_cons, List.not_mem_nil, or_false] at hx
  rcases hx with rfl | rfl
  · cases hy; intro g hg; cases hg
  · cases hy

omit [BEq V] [Hashable V] [DecidableEq K] in
theorem found_first {a : Nat} {k : K} {pos : Nat} (h : ((m.cells (cfg.shard k)).take a).findIdx? (fun c => decide (c.tid = cfg.typeId k)) = some pos) : First cfg m k pos :=
  first_cells.mpr (findIdx_prefix h (List.take_prefix _ _))

/-- One step of a function that has not taken a mutex. -/
inductive PreOut (cfg : Cfg K V) (o : Pool.Op K V) (byRef : Bool) (l : List (K × V)) (t : Tid) (a : Nat) (m : Mem K V) (f : Fr K V) :
    Res (Mem K V × List (Fr K V) × Option (Val K V)) → Prop
  | go {f' : Fr K V} : Pre cfg m o byRef l f' → f'.panicking = f.panicking → PreOut cfg o byRef l t a m f (.ok (m, [f'], none))
  | push {f' : Fr K V} : Pre cfg (m.push (cfg.shard o.pool) { tid := cfg.typeId o.pool, set := [], owner := none, poisoned := false }) o byRef l f' →
      f'.panicking = f.panicking →
      PreOut cfg o byRef l t a m f (.ok (m.push (cfg.shard o.pool) { tid := cfg.typeId o.pool, set := [], owner := none, poisoned := false }, [f'], none))
  | die {f' : Fr K V} {x : K × V} {l' : List (K × V)} : l = x :: l' → Pre cfg m o byRef l' f' → f'.panicking = f.panicking →
      PreOut cfg o byRef l t a m f (.ok ({ m with dead := x :: m.dead }, [f'], none))
  | lock {f' : Fr K V} {pos : Nat} {c : Cell} : l = taken o byRef → First cfg m o.pool pos → m.cell (cfg.shard o.pool) pos = some c → c.owner = none → c.poisoned = false →
      f.panicking = false → f'.panicking = false →
      (∀ n, MR cfg m n → ∃ p0 p', PoolCode.start cfg.pool o byRef = some p0 ∧ (PoolCode.lang cfg.pool).run n t a [p0] =
          .ok ({ n with lock := fun j => if j = cfg.typeId o.pool then some t else n.lock j }, [p'], none) ∧
        Post cfg o byRef pos m.panicking f' p') →
      PreOut cfg o byRef l t a m f (.ok (m.setCell (cfg.shard o.pool) pos { c with owner := some t }, [f'], none))
  | pop : l = [] → f.panicking = true → PreOut cfg o byRef l t a m f (.ok (m, [], f.ret))
  | view : PreOut cfg o byRef l t a m f .blocked

theorem run_pre (h : Pre cfg m o byRef l f) (t : Tid) (a : Nat) : PreOut cfg o byRef l t a m f ((lang cfg).run m t a [f]) := by
  cases h with
  | @start x body y body' hc =>
    simp only [Lang.run, Lang.stmt, exec, Bool.false_eq_true, if_false]
    by_cases e : a < pushed [[(Var.f, some x)]] ∨ (m.cells (cfg.shard o.pool)).length < a
    · rw [if_pos e]; exact .view
    · rw [if_neg e]
      cases hf : ((m.cells (cfg.shard o.pool)).take a).findIdx? (fun c => decide (c.tid = cfg.typeId o.pool)) with
      | some pos => exact .go (.found (n := none) hc (bare_bot _ _) (found_first hf)) rfl
      | none => exact .go (.miss hc) rfl
  | @found x body y body' j J pos hc hJ hf =>
    obtain ⟨c, h1, h2, h3⟩ := hf.cell
    have e1 : exec cfg m t a [[(.v, some (.cell (cfg.shard o.pool) pos))], bot j (some x)] (.lock .v) = if c.owner.isSome || c.poisoned then .blocked else
        .ok { mem := m.setCell (cfg.shard o.pool) pos { c with owner := some t }, scopes := [[(.v, some (.cell (cfg.shard o.pool) pos))], bot j (some x)],
              val := some (.guard (cfg.shard o.pool) pos m.panicking) } := by
      simp only [exec, Scopes.get, scopeGet, if_true, h1]
    simp only [locked, Lang.run, Lang.stmt, Bool.false_eq_true, if_false, List.map_cons, List.cons_append, List.map_nil, List.nil_append, e1]
    cases ho : c.owner.isSome || c.poisoned with
    | true => exact .view
    | false =>
      simp only [Bool.or_eq_false_iff, Option.isSome_eq_false_iff, Option.isNone_iff_eq_none] at ho
      refine .lock rfl hf h1 ho.1 ho.2 rfl rfl fun n hm => ?_
      refine ⟨_, _, hc.there, ?_, .locked hc hJ⟩
      have : n.lock (cfg.typeId o.pool) = none := by rw [hm.lock, h3]; exact ho.1
      simp only [PoolCode.withLock, Lang.enter, Lang.run, Lang.stmt, PoolCode.exec, Bool.false_eq_true, if_false, List.map_cons, List.cons_append, List.map_nil, List.nil_append,
        show cfg.pool.lockOf o.pool = cfg.typeId o.pool from rfl, this, Option.isSome_none]
      rfl
  | miss hc => exact .go (.push hc) rfl
  | @push x body y body' hc =>
    refine .push (f' := { scopes := [[(.n, some (.num ((m.cells (cfg.shard o.pool)).length + 1))), (.f, some x)]], items := (rest1 o.pool body).tail }) (.again hc ?_ ?_) rfl
    · simp [tids, Mem.push]
    · have e : tids (m.push (cfg.shard o.pool) { tid := cfg.typeId o.pool, set := [], owner := none, poisoned := false }) (cfg.shard o.pool) =
          tids m (cfg.shard o.pool) ++ [cfg.typeId o.pool] := by simp [tids, Mem.push]
      rw [e, List.take_of_length_le (by simp [tids])]
      simp
  | @again x body y body' j hc h1 h2 =>
    simp only [rest1, List.tail_cons, Lang.run, Lang.stmt, exec, Bool.false_eq_true, if_false]
    by_cases e : a < pushed [[(Var.n, some (Val.num j)), (Var.f, some x)]] ∨ (m.cells (cfg.shard o.pool)).length < a
    · rw [if_pos e]; exact .view
    · rw [if_neg e]
      have hp : pushed [[(Var.n, some (Val.num j)), (Var.f, some x)]] = j := rfl
      rw [hp] at e
      cases hf : ((m.cells (cfg.shard o.pool)).take a).findIdx? (fun c => decide (c.tid = cfg.typeId o.pool)) with
      | some pos => exact .go (.found (n := some j) hc (bare_bot2 j) (found_first hf)) rfl
      | none =>
        exfalso
        rw [List.findIdx?_eq_none_iff] at hf
        rw [tids, ← List.map_take] at h2
        obtain ⟨c, hc1, hc2⟩ := List.mem_map.mp h2
        have h3 := hf c (List.take_subset_take_left _ (by omega) hc1)
        simp [hc2] at h3
  | @refused l f h1 h2 h3 =>
    obtain ⟨scs, items, ex, r, pn⟩ := f
    simp only at h1 h2 h3
    subst h1 h2
    cases h3 with
    | nil => exact .pop rfl rfl
    | stmt h => exact .go (.refused rfl rfl h) rfl
    | value h => exact .die rfl (.refused rfl rfl (.user h)) rfl
    | user h => exact .go (.refused rfl rfl h) rfl
    | @close l g sc scs r hg h =>
      simp only [Lang.run, Lang.scopeGlue]
      refine .go (.refused rfl rfl ?_) rfl
      show Refused (g ++ l) scs (((sc.flatMap fun x => x.2.toList.flatMap glue)).map .glue ++ r)
      rw [hg]
      clear hg
      induction g with
      | nil => exact h
      | cons y g ih => exact .value ih

/-- A function that has not taken a mutex runs no user code that could panic, except destructors while it is unwinding. -/
theorem Pre.user (h : Pre cfg m o byRef l f) (hu : userNext cfg f = true) : f.panicking = true := by
  cases h with
  | refused h1 h2 h3 => exact h2
  | _ => cases hu

/-- The mutex is poisoned. -/
theorem panic_pre (h : Pre cfg m o byRef l f) (hr : refused cfg m f = true) {m' : Mem K V} (hm : m'.cells = m.cells) :
    ∃ f', (lang cfg).panic m' [f] = .ok [f'] ∧ Pre cfg m o byRef l f' := by
  cases h with
  | start hc => cases hr
  | miss hc => cases hr
  | push hc => cases hr
  | again hc h1 h2 => cases hr
  | @refused l f h1 h2 h3 =>
    obtain ⟨scs, items, ex, r, pn⟩ := f
    simp only at h1 h2 h3
    subst h1 h2
    cases h3 <;> cases hr
  | @found x body y body' j J pos hc hJ hf =>
    have e : panics m' [[(.v, some (.cell (cfg.shard o.pool) pos))], bot j (some x)] (.lock .v) =
        panics m [[(.v, some (.cell (cfg.shard o.pool) pos))], bot j (some x)] (.lock .v) := by
      simp only [panics, Mem.cell, hm]
    have hr : (panics m [[(.v, some (.cell (cfg.shard o.pool) pos))], bot j (some x)] (.lock .v) : Option (Scopes Var (Val K V) × List (Glue K V))).isSome = true := hr
    have e2 : panics m [[(.v, some (.cell (cfg.shard o.pool) pos))], bot j (some x)] (.lock .v) =
        some ([[(.v, some (.cell (cfg.shard o.pool) pos))], bot j (some x)], ([] : List (Glue K V))) := by
      simp only [panics] at hr ⊢
      simp only [Scopes.get, scopeGet, if_true] at hr ⊢
      cases hx : m.cell (cfg.shard o.pool) pos with
      | none => rw [hx] at hr; cases hr
      | some c =>
        rw [hx] at hr
        simp only at hr ⊢
        split
        · rfl
        · rename_i e; rw [if_neg e] at hr; cases hr
    refine ⟨{ scopes := [[(.v, some (.cell (cfg.shard o.pool) pos))], bot j (some x)], items := .stmt (.block (.bind .val (.move .f) :: body)) :: .close :: J, exiting := true, ret := none, panicking := true }, ?_, .refused rfl rfl ?_⟩
    · simp only [Lang.panic, locked, List.map_cons, List.cons_append, Lang.opOf, e, e2]
      rfl
    · refine .stmt (.close (g := []) (by rfl) ?_)
      have hb : (bot j (some x)).flatMap (fun x => x.2.toList.flatMap glue) = (taken o byRef).map fun y => (Glue.value y.1 y.2 : Glue K V) := by
        rw [← hc.owns]
        cases j <;> simp [bot, glue]
      have over : ∀ {scs : Scopes Var (Val K V)} {J : List (It K V)}, Bare scs J → scs = [] → Refused [] [] J := by
        intro scs J h
        induction h with
        | nil => intro _; exact .nil
        | stmt _ ih => intro e; exact .stmt (ih e)
        | glue h _ _ => exact h.elim
        | close _ _ _ => intro e; cases e
      have key : ∀ {scs : Scopes Var (Val K V)} {J : List (It K V)}, Bare scs J → scs = [bot j none] → Refused (taken o byRef) [bot j (some x)] J := by
        intro scs J h
        induction h with
        | nil => intro e; cases e
        | stmt _ ih => intro e; exact .stmt (ih e)
        | glue h _ _ => exact h.elim
        | close hg h _ =>
          intro e
          cases e
          rw [← List.append_nil (taken o byRef)]
          exact .close hb (over h rfl)
      exact key hJ rfl

end Src.NewCode
