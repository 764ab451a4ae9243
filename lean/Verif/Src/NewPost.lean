import Verif.Src.NewExec
/-
A function that has taken the mutex of its type goes on as the corresponding function of `Verif/Src/PoolCode.lean`.
-/
namespace Src.NewCode
open Arc (Res)
open Pool (Tid Ptr Query Ret Obj Entry)

variable {K V : Type} {k : K}

theorem All2.length {α β : Type} {R : α → β → Prop} {l : List α} {l' : List β} (h : All2 R l l') : l.length = l'.length := by
  induction h with
  | nil => rfl
  | cons _ _ ih => simp [ih]

theorem glue_rel {x : Val K V} {y : PoolCode.Val K V} (h : VR x y) : All2 GR (glue x) (PoolCode.glue y) := by
  cases h <;> first | exact .nil | exact .cons (by constructor) .nil

theorem or_glue {x : Option (Val K V)} {y : Option (PoolCode.Val K V)} (h : OR x y) : All2 GR (x.toList.flatMap glue) (y.toList.flatMap PoolCode.glue) := by
  cases h with
  | none => exact .nil
  | some h => simpa using glue_rel h

theorem sc_glue {sc : List (Var × Option (Val K V))} {sc' : List (PoolCode.Var × Option (PoolCode.Val K V))} (h : All2 BR sc sc') :
    All2 GR (sc.flatMap fun x => x.2.toList.flatMap glue) (sc'.flatMap fun x => x.2.toList.flatMap PoolCode.glue) := by
  induction h with
  | nil => exact .nil
  | cons h _ ih => simp only [List.flatMap_cons]; exact (or_glue h.2.2.1).append ih

theorem glue_items {l : List (Glue K V)} {l' : List (PoolCode.Glue K V)} (h : All2 GR l l') : All2 (ItR k) (l.map .glue) (l'.map .glue) :=
  h.map fun _ _ => .glue

theorem deep_glue {n : Nat} {I : List (It K V)} (h : Deep n I) : ∀ l : List (Glue K V), Deep n (l.map .glue ++ I)
  | [] => h
  | _ :: l => .glue (deep_glue h l)

theorem deep_stmts {n : Nat} {I : List (It K V)} (h : Deep (n + 1) I) : ∀ l : List (St K), Deep (n + 1) (l.map .stmt ++ I)
  | [] => h
  | _ :: l => .stmt (deep_stmts h l)

variable [DecidableEq K] [BEq V] [Hashable V] {cfg : Cfg K V} {m : Mem K V} {n : PoolCode.Mem K V} {o : Pool.Op K V} {byRef : Bool} {pos : Nat} {was : Bool}
  {f : Fr K V} {p : PoolCode.Fr K V}

/-- One step of both programs, or of `NewIntern` only. -/
inductive Outc (cfg : Cfg K V) (o : Pool.Op K V) (byRef : Bool) (pos : Nat) (was : Bool) (m : Mem K V) (n : PoolCode.Mem K V) (f : Fr K V) (p : PoolCode.Fr K V) :
    Res (Mem K V × List (Fr K V) × Option (Val K V)) → Res (PoolCode.Mem K V × List (PoolCode.Fr K V) × Option (PoolCode.Val K V)) → Prop
  | both {m' : Mem K V} {n' : PoolCode.Mem K V} {f' : Fr K V} {p' : PoolCode.Fr K V} : Moves cfg o.pool pos was m m' n n' → f'.panicking = f.panicking →
      Post cfg o byRef pos was f' p' → Outc cfg o byRef pos was m n f p (.ok (m', [f'], none)) (.ok (n', [p'], none))
  | skip {f' : Fr K V} {X : Res (PoolCode.Mem K V × List (PoolCode.Fr K V) × Option (PoolCode.Val K V))} : f'.panicking = f.panicking →
      Post cfg o byRef pos was f' p → Outc cfg o byRef pos was m n f p (.ok (m, [f'], none)) X
  | pop : OR f.ret p.ret → Outc cfg o byRef pos was m n f p (.ok (m, [], f.ret)) (.ok (n, [], p.ret))
  | blocked : Outc cfg o byRef pos was m n f p .blocked .blocked
  | ub : Outc cfg o byRef pos was m n f p .ub .ub

omit [BEq V] [Hashable V] in
theorem drop_sim (hm : MR cfg m n) {g : Glue K V} {g' : PoolCode.Glue K V} (hg : GR g g') :
    Both (fun x y => Moves cfg k pos was m x.1 n y.1 ∧ All2 GR x.2.1 y.2.1 ∧ x.2.2 = none ∧ y.2.2 = none) (drop m g) (PoolCode.drop n g') := by
  cases hg with
  | value => exact .ok ⟨⟨hm.of_eq rfl rfl rfl rfl rfl rfl rfl, .same rfl, [], [_], rfl, rfl, rfl, rfl⟩, .cons .user .nil, rfl, rfl⟩
  | user => exact .ok ⟨.same hm, .nil, rfl, rfl⟩
  | @destroy k p =>
    simp only [drop, PoolCode.drop, hm.heap]
    cases m.heap.find? (Obj.is k p) with
    | none => exact .ub
    | some o =>
      refine .ok ⟨⟨⟨rfl, by simp [hm.husks], hm.table, hm.lock⟩, .same rfl, [], [], rfl, rfl, rfl, rfl⟩, .cons .value (.cons .dealloc .nil), rfl, rfl⟩
  | @dealloc k p =>
    simp only [drop, PoolCode.drop, hm.husks]
    cases m.husks.find? (Obj.is k p) with
    | none => exact .ub
    | some o => exact .ok ⟨⟨⟨hm.heap, rfl, hm.table, hm.lock⟩, .same rfl, [], [], rfl, rfl, rfl, rfl⟩, .nil, rfl, rfl⟩

/-- Statements of a closure. -/
theorem stmt_sim (lay : cfg.Layout) (hm : MR cfg m n) (hf : First cfg m o.pool pos) {B : Scopes Var (Val K V)} {B' : Scopes PoolCode.Var (PoolCode.Val K V)} (hB : SR B B')
    {s : St K} {s' : PoolCode.St K} (hs : StR o.pool s s') {I : List (It K V)} {I' : List (PoolCode.It K V)} (hI : All2 (ItR o.pool) I I') {J : List (It K V)}
    (hd : Deep B.length (.stmt s :: I)) {j : Option Nat} (hJ : Bare [bot j none] J) {e pn : Bool} {r : Option (Val K V)} {r' : Option (PoolCode.Val K V)} (hr : OR r r')
    (t : Tid) (a : Nat) :
    Both (fun x y => Moves cfg o.pool pos was m x.1 n y.1 ∧ x.2.panicking = pn ∧ Post cfg o byRef pos was x.2 y.2)
      ((lang cfg).stmt m t a { scopes := B ++ low (cfg.shard o.pool) pos was j, items := .stmt s :: I ++ .close :: J, exiting := e, ret := r, panicking := pn } (I ++ .close :: J) s)
      ((PoolCode.lang cfg.pool).stmt n t a { scopes := B' ++ low' (cfg.typeId o.pool), items := .stmt s' :: I' ++ [.close], exiting := e, ret := r', panicking := pn } (I' ++ [.close]) s') := by
  obtain ⟨N, hN, hD⟩ : ∃ N, B.length = N + 1 ∧ Deep (N + 1) I := by
    generalize B.length = L at hd
    cases hd with | stmt h => exact ⟨_, rfl, h⟩
  clear hd
  cases hs with
  | @bind x op op' hx ho hy =>
    have h := exec_sim lay hm hf hB ho t a was j
    simp only [Lang.stmt]
    generalize exec cfg m t a _ op = X at h ⊢
    generalize PoolCode.exec cfg.pool n t a _ op' = Y at h ⊢
    cases h with
    | blocked => exact .blocked
    | ub => exact .ub
    | @ok d d' h =>
      obtain ⟨B1, B1', e1, e2, e3, e4⟩ := h.scopes
      refine .ok ⟨h.mem, rfl, ?_⟩
      simp only [e2, e3]
      cases e1 with
      | nil => simp [hN] at e4
      | @cons b b' l l' hb hl =>
        refine Post.body (B := ((ev x, d.val) :: b) :: l) (B' := ((x, d'.val) :: b') :: l') (.cons (.cons ⟨rfl, hx, h.val, fun hp => h.ptr (hy hp)⟩ hb) hl) hI ?_ hJ hr
        rw [hN] at e4
        rw [show (((ev x, d.val) :: b) :: l).length = (b :: l).length from rfl, e4]; exact hD
  | @exec op op' ho =>
    have h := exec_sim lay hm hf hB ho t a was j
    simp only [Lang.stmt]
    generalize exec cfg m t a _ op = X at h ⊢
    generalize PoolCode.exec cfg.pool n t a _ op' = Y at h ⊢
    cases h with
    | blocked => exact .blocked
    | ub => exact .ub
    | @ok d d' h =>
      obtain ⟨B1, B1', e1, e2, e3, e4⟩ := h.scopes
      refine .ok ⟨h.mem, rfl, ?_⟩
      simp only [e2, e3]
      rw [← List.append_assoc, ← List.append_assoc]
      refine Post.body e1 ((glue_items (or_glue h.val)).append hI) ?_ hJ hr
      rw [e4, hN]
      exact deep_glue hD _
  | @choose x op op' l l2 l' l2' hx ho hy hl hl2 =>
    have h := exec_sim lay hm hf hB ho t a was j
    simp only [Lang.stmt]
    generalize exec cfg m t a _ op = X at h ⊢
    generalize PoolCode.exec cfg.pool n t a _ op' = Y at h ⊢
    cases h with
    | blocked => exact .blocked
    | ub => exact .ub
    | @ok d d' h =>
      obtain ⟨B1, B1', e1, e2, e3, e4⟩ := h.scopes
      refine .ok ⟨h.mem, rfl, ?_⟩
      simp only [e2, e3, h.arm]
      have harm : All2 (StR o.pool) (if d'.arm = 0 then l else l2) (if d'.arm = 0 then l' else l2') := by split <;> assumption
      have e5 : ∀ (A : List (It K V)), A ++ Item.close :: (I ++ Item.close :: J) = (A ++ .close :: I) ++ .close :: J := by simp
      have e6 : ∀ (A : List (PoolCode.It K V)), A ++ Item.close :: (I' ++ [Item.close]) = (A ++ .close :: I') ++ [.close] := by simp
      rw [e5, e6]
      refine Post.body (B := [(ev x, d.val)] :: B1) (B' := [(x, d'.val)] :: B1') (.cons (.cons ⟨rfl, hx, h.val, fun _ => h.ptr hy⟩ .nil) e1)
        ((harm.map fun _ _ => .stmt).append (.cons .close hI)) ?_ hJ hr
      rw [List.length_cons, e4, hN]
      exact deep_stmts (.close hD) _
  | @ret op op' ho =>
    have h := exec_sim lay hm hf hB ho t a was j
    simp only [Lang.stmt]
    generalize exec cfg m t a _ op = X at h ⊢
    generalize PoolCode.exec cfg.pool n t a _ op' = Y at h ⊢
    cases h with
    | blocked => exact .blocked
    | ub => exact .ub
    | @ok d d' h =>
      obtain ⟨B1, B1', e1, e2, e3, e4⟩ := h.scopes
      refine .ok ⟨h.mem, rfl, ?_⟩
      simp only [e2, e3]
      refine Post.body e1 hI ?_ hJ h.val
      rw [e4, hN]; exact hD

/-- A thread that is past its critical section. -/
theorem bare_run {scs : Scopes Var (Val K V)} {J : List (It K V)} (h : Bare scs J) (m : Mem K V) (t : Tid) (a : Nat) (r : Option (Val K V)) (pn : Bool) :
    (J = [] ∧ (lang cfg).run m t a [{ scopes := scs, items := J, exiting := true, ret := r, panicking := pn }] = .ok (m, [], r)) ∨
    ∃ scs' J', Bare scs' J' ∧ (lang cfg).run m t a [{ scopes := scs, items := J, exiting := true, ret := r, panicking := pn }] =
      .ok (m, [{ scopes := scs', items := J', exiting := true, ret := r, panicking := pn }], none) := by
  cases h with
  | nil => exact .inl ⟨rfl, rfl⟩
  | stmt h => exact .inr ⟨_, _, h, rfl⟩
  | glue h _ => cases h
  | @close sc scs r hg h =>
    refine .inr ⟨_, _, h, ?_⟩
    simp only [Lang.run]
    have : (lang cfg).scopeGlue sc = [] := by
      simp only [Lang.scopeGlue, List.map_eq_nil_iff, List.flatMap_eq_nil_iff]
      intro x hx y hy
      simp only [Option.mem_toList] at hy
      exact List.eq_nil_iff_forall_not_mem.mpr fun g hg' => hg x hx y hy g hg'
    rw [this]; rfl

theorem run_post (lay : cfg.Layout) (hm : MR cfg m n) (hf : First cfg m o.pool pos) (hp : Post cfg o byRef pos was f p)
    (hw : p.exiting = false → p.items ≠ [.close]) (t : Tid) (a : Nat) :
    Outc cfg o byRef pos was m n f p ((lang cfg).run m t a [f]) ((PoolCode.lang cfg.pool).run n t a [p]) := by
  cases hp with
  | locked hc hJ => exact .both (.same hm) rfl (.closure hc hJ)
  | @closure x y body body' j J hc hJ =>
    have e1 : (lang cfg).run m t a [{ scopes := [[], [(.m, some (.guard (cfg.shard o.pool) pos was)), (.v, some (.cell (cfg.shard o.pool) pos))], bot j (some x)], items := .stmt (.bind .val (.move .f)) :: (body.map .stmt ++ .close :: .close :: J) }] =
        .ok (m, [{ scopes := [(.val, some x)] :: low (cfg.shard o.pool) pos was j, items := (body.map .stmt ++ [.close]) ++ .close :: J }], none) := by
      rw [List.append_assoc]
      cases j <;> rfl
    rw [e1]
    refine .both (.same hm) rfl ?_
    have e2 : body'.map (Item.stmt : PoolCode.St K → PoolCode.It K V) ++ [.close, .close] = (body'.map .stmt ++ [.close]) ++ [.close] := by simp
    rw [e2]
    refine Post.body (B := [[(.val, some x)]]) (B' := [[(.val, some y)]]) (.cons (.cons ⟨rfl, rfl, .some hc.arg, fun h => (by cases h)⟩ .nil) .nil)
      ((hc.body.map fun _ _ => .stmt).append (.cons .close .nil)) ?_ hJ .none
    exact deep_stmts (.close .nil) _
  | @body B B' I I' j J e pn r r' hB hI hd hJ hr =>
    cases hI with
    | nil =>
      simp only at hw
      have he : e = true := by cases e with | true => rfl | false => exact absurd rfl (hw rfl)
      subst he
      have hB0 : B = [] := by
        apply List.length_eq_zero_iff.mp
        generalize B.length = L at hd
        cases hd; rfl
      subst hB0
      cases hB
      refine .both (.same hm) rfl ?_
      refine Post.unlock (scs := [bot j none]) hJ hr
    | @cons i i' I I' hi hI =>
      cases hi with
      | @stmt s s' hs =>
        cases e with
        | true =>
          refine .both (.same hm) rfl ?_
          refine Post.body hB hI ?_ hJ hr
          generalize B.length = L at hd
          cases hd with | stmt h => exact h
        | false =>
          have h := stmt_sim (byRef := byRef) (was := was) (e := false) (pn := pn) lay hm hf hB hs hI hd hJ hr t a
          simp only [Lang.run, List.cons_append] at h ⊢
          simp only [Bool.false_eq_true, if_false]
          generalize (lang cfg).stmt m t a _ _ s = X at h ⊢
          generalize (PoolCode.lang cfg.pool).stmt n t a _ _ s' = Y at h ⊢
          cases h with
          | blocked => exact .blocked
          | ub => exact .ub
          | ok h => exact .both h.1 h.2.1 h.2.2
      | close =>
        cases hB with
        | nil => cases hd
        | @cons b b' l l' hb hl =>
          simp only [Lang.run, List.cons_append]
          refine .both (.same hm) rfl ?_
          simp only [Lang.scopeGlue]
          rw [← List.append_assoc, ← List.append_assoc]
          refine Post.body hl ((glue_items (sc_glue hb)).append hI) ?_ hJ hr
          cases hd with | close h => exact deep_glue h _
      | @glue g g' hg =>
        have h := drop_sim (k := o.pool) (pos := pos) (was := was) hm hg
        simp only [Lang.run, List.cons_append]
        generalize drop m g = X at h ⊢
        generalize PoolCode.drop n g' = Y at h ⊢
        cases h with
        | blocked => exact .blocked
        | ub => exact .ub
        | @ok x y h =>
          obtain ⟨m', l, c⟩ := x
          obtain ⟨n', l', c'⟩ := y
          obtain ⟨h1, h3, h4, h5⟩ := h
          simp only at h1 h3 h4 h5
          subst h4 h5
          refine .both h1 rfl ?_
          rw [← List.append_assoc, ← List.append_assoc]
          refine Post.body hB ((glue_items h3).append hI) ?_ hJ hr
          generalize B.length = L at hd
          cases hd with | glue h => exact deep_glue h _
  | @unlock scs J pn r r' hJ hr =>
    obtain ⟨c, h1, h2, h3⟩ := hf.cell
    simp only [Lang.run, drop, h1, PoolCode.drop]
    exact .both ⟨hm.owner lay hf h3 none _, .unlock h1 rfl, [], [], rfl, rfl, rfl, rfl⟩ rfl (.over hJ hr)
  | @over scs J pn r r' hJ hr =>
    rcases bare_run (cfg := cfg) hJ m t a r pn with ⟨e, h⟩ | ⟨scs', J', h1, h2⟩
    · rw [h]; exact .pop hr
    · rw [h2]; exact .skip rfl (.over h1 hr)

/-! ### User code -/

theorem Post.flags (hp : Post cfg o byRef pos was f p) : f.panicking = p.panicking ∧ f.exiting = p.exiting := by cases hp <;> exact ⟨rfl, rfl⟩

theorem bare_user {scs : Scopes Var (Val K V)} {J : List (It K V)} (h : Bare scs J) (r : Option (Val K V)) (pn : Bool) :
    userNext cfg { scopes := scs, items := J, exiting := true, ret := r, panicking := pn } = false := by
  cases h <;> first | rfl | contradiction

theorem Post.user (hp : Post cfg o byRef pos was f p) : userNext cfg f = PoolCode.userNext cfg.pool p := by
  cases hp with
  | locked _ _ => rfl
  | closure _ _ => rfl
  | @body B B' I I' j J e pn r r' hB hI hd hJ hr =>
    cases hI with
    | nil => rfl
    | cons hi hI =>
      cases hi with
      | stmt hs => cases hs <;> (try rfl) <;> (rename OpR o.pool _ _ => ho; cases ho <;> rfl)
      | close => rfl
      | glue hg => cases hg <;> rfl
  | unlock hJ hr => rfl
  | over hJ hr => exact bare_user hJ _ _

theorem Post.refused (hp : Post cfg o byRef pos was f p) (m : Mem K V) : refused cfg m f = false := by
  cases hp with
  | locked _ _ => rfl
  | closure _ _ => rfl
  | @body B B' I I' j J e pn r r' hB hI hd hJ hr =>
    cases hI with
    | nil => rfl
    | cons hi hI =>
      cases hi with
      | stmt hs => cases e <;> cases hs <;> (try rfl) <;> (rename OpR o.pool _ _ => ho; cases ho <;> rfl)
      | close => rfl
      | glue hg => rfl
  | unlock hJ hr => rfl
  | over hJ hr => cases hJ <;> first | rfl | contradiction

theorem panic_post (hp : Post cfg o byRef pos was f p) (hu : userNext cfg f = true) (m : Mem K V) (n : PoolCode.Mem K V) :
    Both (fun l l' => ∃ f' p', l = [f'] ∧ l' = [p'] ∧ f'.panicking = true ∧ Post cfg o byRef pos was f' p') ((lang cfg).panic m [f])
      ((PoolCode.lang cfg.pool).panic n [p]) := by
  cases hp with
  | locked _ _ => cases hu
  | closure _ _ => cases hu
  | unlock hJ hr => cases hu
  | over hJ hr => rw [bare_user hJ] at hu; cases hu
  | @body B B' I I' j J e pn r r' hB hI hd hJ hr =>
    cases pn with
    | true => exact .blocked
    | false =>
      cases hI with
      | nil => cases hu
      | @cons i i' I I' hi hI =>
        cases hi with
        | close => cases hu
        | glue hg =>
          cases hg <;> try cases hu
          refine .ok ⟨_, _, rfl, rfl, rfl, Post.body hB hI ?_ hJ hr⟩
          generalize B.length = L at hd
          cases hd with | glue h => exact h
        | @stmt s s' hs =>
          cases e with
          | true => cases hu
          | false =>
            have hD : Deep B.length I := by
              generalize B.length = L at hd
              cases hd with | stmt h => exact h
            have key : ∀ op op', OpR o.pool op op' → (lang cfg).opOf s = some op → (PoolCode.lang cfg.pool).opOf s' = some op' →
                (match op with | .get _ _ | .from _ | .insert _ _ => true | _ => false) = true →
                panics m (B ++ low (cfg.shard o.pool) pos was j) op = some (B ++ low (cfg.shard o.pool) pos was j, []) ∧
                PoolCode.panics (B' ++ low' (cfg.typeId o.pool)) op' = some (B' ++ low' (cfg.typeId o.pool), []) := by
              intro op op' ho _ _ hu
              cases ho <;> try (cases hu; done)
              · exact ⟨rfl, rfl⟩
              · exact ⟨rfl, rfl⟩
              · rename PoolCode.Var => x
                rename pointer x = true => hx
                refine ⟨rfl, ?_⟩
                obtain ⟨hg, hp⟩ := scopes_get hB (pointer_inner hx) (cfg.shard o.pool) pos was j (cfg.typeId o.pool)
                have hp := hp hx
                simp only [PoolCode.panics]
                generalize Scopes.get x _ = Y at hp ⊢
                cases Y with
                | none => rfl
                | some y => obtain ⟨q, rfl⟩ := hp _ rfl; rfl
            have fin : ∀ op op', OpR o.pool op op' → (lang cfg).opOf s = some op → (PoolCode.lang cfg.pool).opOf s' = some op' →
                (match op with | .get _ _ | .from _ | .insert _ _ => true | _ => false) = true →
                Both (fun l l' => ∃ f' p', l = [f'] ∧ l' = [p'] ∧ f'.panicking = true ∧ Post cfg o byRef pos was f' p')
                  ((lang cfg).panic m [{ scopes := B ++ low (cfg.shard o.pool) pos was j, items := .stmt s :: I ++ .close :: J, exiting := false, ret := r, panicking := false }])
                  ((PoolCode.lang cfg.pool).panic n [{ scopes := B' ++ low' (cfg.typeId o.pool), items := .stmt s' :: I' ++ [.close], exiting := false, ret := r', panicking := false }]) := by
              intro op op' ho e1 e2 hu
              obtain ⟨h1, h2⟩ := key op op' ho e1 e2 hu
              simp only [Lang.panic, List.cons_append, e1, e2, h1, h2]
              exact .ok ⟨_, _, rfl, rfl, rfl, Post.body hB hI hD hJ hr⟩
            cases hs with
            | bind hx ho hy => exact fin _ _ ho rfl rfl (by cases ho <;> first | rfl | cases hu)
            | exec ho => exact fin _ _ ho rfl rfl (by cases ho <;> first | rfl | cases hu)
            | choose hx ho hy hl hl2 => exact fin _ _ ho rfl rfl (by cases ho <;> first | rfl | cases hu)
            | ret ho => exact fin _ _ ho rfl rfl (by cases ho <;> first | rfl | cases hu)

end Src.NewCode
