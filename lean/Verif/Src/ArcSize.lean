import Verif.Src.ArcSmall
import Verif.Src.ArcRun
/-
How many handles and references a running call of `ArcIntern` has, and how many there are in memory, if values contain handles (for C99).

A handle in a value that a call owns counts twice: when the value is destroyed in its box, there are for some time both the handles in the box
and the handles that are going to be dropped.
-/
namespace Src.ArcCode
open Arc (Addr Tid Cell Cfg Res Call Pc Thread)

variable {V : Type}

/-- The number of handles in boxes. -/
def kept (cfg : Cfg V) (h : List (Addr × Cell V)) : Nat := (Arc.storedHandles cfg h).length

theorem kept_cons (cfg : Cfg V) (e : Addr × Cell V) (h : List (Addr × Cell V)) : kept cfg (e :: h) = (cfg.kids e.2.data).length + kept cfg h := by
  simp only [kept, Arc.storedHandles, List.flatMap_cons, List.length_append]

theorem kept_setCount (cfg : Cfg V) (h : List (Addr × Cell V)) (a : Addr) (n : Nat) : kept cfg (Arc.setCount h a n) = kept cfg h := by
  rw [kept, Arc.storedHandles_setCount, kept]

theorem kept_filter (cfg : Cfg V) (p : Addr × Cell V → Bool) : ∀ (h : List (Addr × Cell V)), kept cfg (h.filter p) ≤ kept cfg h
  | [] => Nat.le_refl _
  | e :: h => by
    have ih := kept_filter cfg p h
    rw [List.filter_cons]
    split <;> simp only [kept_cons] <;> omega

theorem kept_free (cfg : Cfg V) {b : Addr} {c : Cell V} : ∀ {h : List (Addr × Cell V)}, Arc.get h b = some c →
    kept cfg (Arc.free h b) + (cfg.kids c.data).length ≤ kept cfg h
  | [], e => by cases e
  | (d, x) :: h, e => by
    simp only [Arc.get] at e
    split at e
    · rename_i hd
      cases e
      have := kept_filter cfg (fun e => e.1 ≠ b) h
      simp only [Arc.free, List.filter_cons, hd, ne_eq, not_true_eq_false, decide_false, Bool.false_eq_true, if_false, kept_cons]
      simp only [ne_eq] at this
      omega
    · rename_i hd
      have ih := kept_free cfg e
      simp only [Arc.free, ne_eq] at ih
      simp only [Arc.free, List.filter_cons, ne_eq, hd, not_false_eq_true, decide_true, if_true, kept_cons]
      omega

theorem kept_filter_setCount (cfg : Cfg V) (D : List Addr) (a : Addr) (n : Nat) : ∀ (h : List (Addr × Cell V)),
    kept cfg ((Arc.setCount h a n).filter fun e => decide (e.1 ∉ D)) = kept cfg (h.filter fun e => decide (e.1 ∉ D))
  | [] => rfl
  | e :: h => by
    have ih := kept_filter_setCount cfg D a n h
    simp only [Arc.setCount] at ih
    simp only [Arc.setCount, List.map_cons, List.filter_cons]
    have h1 : (if e.1 = a then (e.1, ({ e.2 with count := n } : Cell V)) else e).1 = e.1 := by split <;> rfl
    have h2 : (if e.1 = a then (e.1, ({ e.2 with count := n } : Cell V)) else e).2.data = e.2.data := by split <;> rfl
    rw [h1]
    split <;> simp only [kept_cons, h2, ih]

/-- The weight of a value: `ε` for a handle or reference, and 2 for a handle in a value. -/
def wt (ε : Nat) (cfg : Cfg V) : Val V → Nat
  | .owned v => 2 * (cfg.kids v).length
  | .borrowed v => ε * (cfg.kids v).length
  | .guard _ _ | .ref _ | .handle _ | .vacant _ _ => ε
  | .box _ | .optBox _ | .occupied _ _ | .num _ => 0

def wOpt (ε : Nat) (cfg : Cfg V) : Option (Val V) → Nat
  | none => 0
  | some x => wt ε cfg x

def wSc (ε : Nat) (cfg : Cfg V) : List (Var × Option (Val V)) → Nat
  | [] => 0
  | x :: l => wOpt ε cfg x.2 + wSc ε cfg l

def wScopes (ε : Nat) (cfg : Cfg V) : Scopes Var (Val V) → Nat
  | [] => 0
  | sc :: scs => wSc ε cfg sc + wScopes ε cfg scs

def wItem (ε : Nat) : It V → Nat
  | .glue (.handle _) => ε
  | _ => 0

def wItems (ε : Nat) : List (It V) → Nat
  | [] => 0
  | i :: l => wItem ε i + wItems ε l

def wFrame (ε : Nat) (cfg : Cfg V) (f : Frame Var (Val V) Op (Glue V)) : Nat := wScopes ε cfg f.scopes + wItems ε f.items + wOpt ε cfg f.ret

def wStack (ε : Nat) (cfg : Cfg V) : Stack V → Nat
  | [] => 0
  | f :: fs => wFrame ε cfg f + wStack ε cfg fs

variable {cfg : Cfg V} {ε : Nat}

/-! ### It counts everything -/

theorem optM_wt (o : Option (Val V)) : optM cfg o ≤ wOpt 1 cfg o := by
  cases o with
  | none => exact Nat.le_refl _
  | some x =>
    cases x <;> simp [optM, Val.mentions, wOpt, wt] <;> omega

theorem scM_wt : ∀ (sc : List (Var × Option (Val V))), scM cfg sc ≤ wSc 1 cfg sc
  | [] => Nat.le_refl _
  | x :: sc => by
    have h1 := scM_wt sc
    have h2 := optM_wt (cfg := cfg) x.2
    rw [scM_cons, wSc]; omega

theorem scopesM_wt : ∀ (scs : Scopes Var (Val V)), scopesM cfg scs ≤ wScopes 1 cfg scs
  | [] => Nat.le_refl _
  | sc :: scs => by
    have h1 := scopesM_wt scs
    have h2 := scM_wt (cfg := cfg) sc
    rw [scopesM_cons, wScopes]; omega

theorem itemsM_wt : ∀ (l : List (It V)), itemsM l ≤ wItems 1 l
  | [] => Nat.le_refl _
  | i :: l => by
    have h1 := itemsM_wt l
    have h2 : (itemMentions i).length ≤ wItem 1 i := by
      cases i with
      | glue g => cases g <;> simp [itemMentions, wItem]
      | _ => simp [itemMentions, wItem]
    rw [itemsM_cons, wItems]; omega

theorem size_wt : ∀ (fs : Stack V), size cfg fs ≤ wStack 1 cfg fs
  | [] => Nat.le_refl _
  | f :: fs => by
    have h1 := size_wt fs
    have h2 := scopesM_wt (cfg := cfg) f.scopes
    have h3 := itemsM_wt f.items
    have h4 := optM_wt (cfg := cfg) f.ret
    rw [size_cons, frameM_eq, wStack, wFrame]; omega

/-! ### Variables -/

theorem wItems_append (l l' : List (It V)) : wItems ε (l ++ l') = wItems ε l + wItems ε l' := by
  induction l with
  | nil => simp [wItems]
  | cons i l ih => simp only [List.cons_append, wItems, ih]; omega

theorem wItems_stmts (l : List St) : wItems ε (l.map (Item.stmt : St → It V)) = 0 := by
  induction l with
  | nil => rfl
  | cons s l ih => rw [List.map_cons, wItems, ih]; rfl

theorem wItems_handles (l : List Addr) : wItems ε ((l.map (Glue.handle : Addr → Glue V)).map Item.glue) = ε * l.length := by
  induction l with
  | nil => rfl
  | cons b l ih => simp only [List.map_cons, wItems, ih, wItem, List.length_cons, Nat.mul_succ]; omega

theorem scopeSet_wt (x : Var) (w : Option (Val V)) : ∀ (sc : List (Var × Option (Val V))) {v : Option (Val V)}, scopeGet x sc = some v →
    wSc ε cfg (scopeSet x w sc) + wOpt ε cfg v = wSc ε cfg sc + wOpt ε cfg w
  | [], v, h => by cases h
  | (y, u) :: sc, v, h => by
    simp only [scopeGet] at h
    simp only [scopeSet]
    split at h
    · rename_i hy
      cases h
      simp only [hy, if_true, wSc]; omega
    · rename_i hy
      have ih := scopeSet_wt x w sc h
      simp only [hy, if_false, wSc]; omega

theorem set_wt (x : Var) (w : Option (Val V)) : ∀ (scs : Scopes Var (Val V)),
    wScopes ε cfg (scs.set x w) + wOpt ε cfg (scs.get x) ≤ wScopes ε cfg scs + wOpt ε cfg w
  | [] => by simp [Scopes.set, Scopes.get, wScopes, wOpt]
  | sc :: scs => by
    have ih := set_wt x w scs
    simp only [Scopes.set, Scopes.get]
    cases h : scopeGet x sc with
    | none => simp only [wScopes]; omega
    | some v =>
      have := scopeSet_wt (ε := ε) (cfg := cfg) x w sc h
      simp only [wScopes]; omega

theorem declare_wt (x : Var) (w : Option (Val V)) (scs : Scopes Var (Val V)) :
    wScopes ε cfg (scs.declare x w) ≤ wScopes ε cfg scs + wOpt ε cfg w := by
  cases scs with
  | nil => exact Nat.zero_le _
  | cons sc scs => simp only [Scopes.declare, wScopes, wSc]; omega

section
variable (hε : ε ≤ 1)
include hε

theorem glue_wt (x : Val V) : wItems ε ((glue cfg x).map Item.glue) ≤ wt ε cfg x := by
  cases x with
  | owned v =>
    simp only [glue, List.map_cons, wItems, wItems_handles, wItem, wt, Nat.zero_add]
    exact Nat.mul_le_mul (by omega) (Nat.le_refl _)
  | optBox o => cases o <;> exact Nat.zero_le _
  | _ => simp [glue, wItems, wItem, wt]

theorem optGlue_wt (o : Option (Val V)) : wItems ε ((o.toList.flatMap (glue cfg)).map Item.glue) ≤ wOpt ε cfg o := by
  cases o with
  | none => exact Nat.le_refl _
  | some x => simpa [wOpt] using glue_wt (cfg := cfg) hε x

theorem scGlue_wt : ∀ (sc : List (Var × Option (Val V))),
    wItems ε (((sc.flatMap fun x => x.2.toList.flatMap (glue cfg))).map Item.glue) ≤ wSc ε cfg sc
  | [] => Nat.le_refl _
  | x :: sc => by
    have ih := scGlue_wt sc
    have := optGlue_wt (cfg := cfg) hε x.2
    rw [wSc, List.flatMap_cons, List.map_append, wItems_append]
    omega

end

/-! ### Steps -/

section
variable [BEq V] [Hashable V]

/-- References to values are to values without handles: `ArcIntern<[T]>` copies them. -/
def Lean (cfg : Cfg V) (sc : Scopes Var (Val V)) : Prop := ∀ x v, sc.get x = some (.borrowed v) → cfg.kids v = []

theorem exec_wt {m : Mem V} {t : Tid} {a : Addr} {sc : Scopes Var (Val V)} (hb : Lean cfg sc) {op : Op} {d : Done (Mem V) Var (Val V)}
    (h : exec cfg m t a sc op = .ok d) :
    wScopes ε cfg d.scopes + wOpt ε cfg d.val + 2 * kept cfg d.mem.heap ≤ wScopes ε cfg sc + 2 * kept cfg m.heap + ε := by
  have hs := fun x w => set_wt (ε := ε) (cfg := cfg) x w sc
  cases op with
  | getContainer => cases h; simp [wOpt]
  | yieldNow => cases h; simp [wOpt]
  | fence => cases h; simp [wOpt]
  | noBox => cases h; simp [wOpt, wt]
  | getMut x =>
    simp only [exec] at h
    (repeat' split at h) <;> first | (cases h; done) | (cases h; simp only [wOpt, wt, Mem.lock]; omega)
  | key x =>
    simp only [exec] at h
    (repeat' split at h) <;> first | (cases h; done) | (cases h; simp only [wOpt, wt]; omega)
  | fetchAdd x =>
    simp only [exec] at h
    (repeat' split at h) <;> first | (cases h; done) | (cases h; simp only [wOpt, wt, kept_setCount]; omega)
  | fetchSub x =>
    simp only [exec] at h
    (repeat' split at h) <;> first | (cases h; done) | (cases h; simp only [wOpt, wt, kept_setCount]; omega)
  | nonzero x =>
    simp only [exec] at h
    (repeat' split at h) <;> first | (cases h; done) | (cases h; simp only [wOpt]; omega)
  | isOne x =>
    simp only [exec] at h
    (repeat' split at h) <;> first | (cases h; done) | (cases h; simp only [wOpt]; omega)
  | handleOf x =>
    simp only [exec] at h
    (repeat' split at h) <;> first | (cases h; done) | (cases h; simp only [wOpt, wt]; omega)
  | boxNew x =>
    simp only [exec] at h
    split at h
    · rename_i v hv
      split at h
      · cases h
      · cases h
        have := hs x none
        rw [hv] at this
        simp only [wOpt, wt, kept_cons] at this ⊢; omega
    · cases h
  | takeOrNew c x =>
    simp only [exec] at h
    split at h
    · rename_i b hc
      cases h
      have := hs c (some (.optBox none))
      simp only [wOpt, wt] at this ⊢; omega
    · rename_i v hc hv
      split at h
      · cases h
      · cases h
        simp only [wOpt, wt, kept_cons, hb x v hv, List.length_nil]; omega
    · cases h
  | entry x =>
    have := hs x none
    simp only [exec] at h
    (repeat' split at h) <;> first | (cases h; done) | (cases h; simp only [wOpt, wt, Mem.lock] at this ⊢; omega)
  | insert x =>
    simp only [exec] at h
    split at h
    · rename_i sh b hv
      cases h
      have := hs x none
      rw [hv] at this
      simp only [wOpt, wt] at this ⊢; omega
    · cases h
  | move x =>
    simp only [exec] at h
    split at h
    · rename_i v hv
      cases h
      have := hs x none
      rw [hv] at this
      simp only [wOpt] at this ⊢; omega
    · cases h
  | intoKey x =>
    have := hs x none
    simp only [exec] at h
    (repeat' split at h) <;> first | (cases h; done) | (cases h; simp only [wOpt, wt, Mem.unlock] at this ⊢; omega)
  | intoInner x =>
    simp only [exec] at h
    split at h
    · rename_i b hv
      split at h
      · rename_i c hc
        cases h
        have := hs x none
        have := kept_free cfg hc
        simp only [wOpt, wt] at *; omega
      · cases h
    · cases h
  | someBox x =>
    have := hs x none
    simp only [exec] at h
    (repeat' split at h) <;> first | (cases h; done) | (cases h; simp only [wOpt, wt] at this ⊢; omega)
  | remove x =>
    simp only [exec] at h
    (repeat' split at h) <;> first | (cases h; done) | (cases h; simp only [wOpt, wt]; omega)

theorem stmt_wt (hε : ε ≤ 1) {m m' : Mem V} {t : Tid} {a : Addr} {f f' : Frame Var (Val V) Op (Glue V)} (hb : Lean cfg f.scopes) {r : List (It V)} {s : St}
    (h : (lang cfg).stmt m t a f r s = .ok (m', f')) :
    wFrame ε cfg f' + 2 * kept cfg m'.heap ≤ wScopes ε cfg f.scopes + wItems ε r + wOpt ε cfg f.ret + 2 * kept cfg m.heap + ε := by
  cases s with
  | uninit x =>
    cases h
    have := declare_wt (ε := ε) (cfg := cfg) x none f.scopes
    simp only [wFrame, wOpt] at this ⊢; omega
  | bind x op =>
    simp only [Lang.stmt] at h
    split at h
    · rename_i d hd
      cases h
      have h1 := exec_wt (ε := ε) hb hd
      have h2 := declare_wt (ε := ε) (cfg := cfg) x d.val d.scopes
      simp only [wFrame]; omega
    · cases h
    · cases h
  | assign x op =>
    simp only [Lang.stmt] at h
    split at h
    · rename_i d hd
      cases h
      have h1 := exec_wt (ε := ε) hb hd
      have h2 := set_wt (ε := ε) (cfg := cfg) x d.val d.scopes
      have h3 := optGlue_wt (cfg := cfg) hε (d.scopes.get x)
      have h4 := wItems_append (ε := ε) (((d.scopes.get x).toList.flatMap (glue cfg)).map Item.glue) r
      simp only [wFrame]; simp only [lang]; omega
    · cases h
    · cases h
  | exec op =>
    simp only [Lang.stmt] at h
    split at h
    · rename_i d hd
      cases h
      have h1 := exec_wt (ε := ε) hb hd
      have h3 := optGlue_wt (cfg := cfg) hε d.val
      have h4 := wItems_append (ε := ε) ((d.val.toList.flatMap (glue cfg)).map Item.glue) r
      simp only [wFrame]; simp only [lang]; omega
    · cases h
    · cases h
  | choose x op a0 a1 =>
    simp only [Lang.stmt] at h
    split at h
    · rename_i d hd
      cases h
      have h1 := exec_wt (ε := ε) hb hd
      have h4 := wItems_append (ε := ε) ((if d.arm = 0 then a0 else a1).map (Item.stmt : St → It V)) (.close :: r)
      rw [wItems_stmts] at h4
      simp only [wFrame, wScopes, wSc]
      simp only [wItems, wItem] at h4
      omega
    · cases h
    · cases h
  | block l =>
    cases h
    have h4 := wItems_append (ε := ε) (l.map (Item.stmt : St → It V)) (.close :: r)
    rw [wItems_stmts] at h4
    simp only [wFrame, wScopes, wSc]
    simp only [wItems, wItem] at h4
    omega
  | loop l =>
    cases h
    simp only [wFrame, wItems, wItem]; omega
  | ret op =>
    simp only [Lang.stmt] at h
    split at h
    · rename_i d hd
      cases h
      have h1 := exec_wt (ε := ε) hb hd
      simp only [wFrame]; omega
    · cases h
    · cases h


omit [BEq V] [Hashable V] in
theorem wItems_stmts_close (l : List St) (r : List (It V)) : wItems ε (l.map (Item.stmt : St → It V) ++ r) = wItems ε r := by
  rw [wItems_append, wItems_stmts, Nat.zero_add]

omit [BEq V] [Hashable V] in
theorem deallocs_glue (x : Val V) (l : List (It V)) : deallocsOf ((glue cfg x).map Item.glue ++ l) = deallocsOf l := by
  cases x with
  | optBox o => cases o <;> simp [glue, deallocsOf]
  | _ => simp [glue, deallocsOf]

omit [BEq V] [Hashable V] in
theorem deallocs_append (l l' : List (It V)) : deallocsOf (l ++ l') = deallocsOf l ++ deallocsOf l' := by
  simp only [deallocsOf, List.filterMap_append]

omit [BEq V] [Hashable V] in
theorem deallocs_scGlue (l : List (It V)) : ∀ (sc : List (Var × Option (Val V))),
    deallocsOf ((sc.flatMap fun x => x.2.toList.flatMap (glue cfg)).map Item.glue ++ l) = deallocsOf l
  | [] => rfl
  | (y, o) :: sc => by
    have ih := deallocs_scGlue l sc
    rw [List.flatMap_cons, List.map_append, List.append_assoc]
    cases o with
    | none => simpa using ih
    | some x =>
      simp only [Option.toList_some, List.flatMap_cons, List.flatMap_nil, List.append_nil]
      rw [deallocs_glue, ih]

omit [BEq V] [Hashable V] in
theorem dying_cons (f : Frame Var (Val V) Op (Glue V)) (fs : Stack V) : dying (f :: fs) = deallocsOf f.items ++ dying fs := rfl

omit [BEq V] [Hashable V] in
theorem wStack_cons (f : Frame Var (Val V) Op (Glue V)) (fs : Stack V) :
    wStack ε cfg (f :: fs) = wScopes ε cfg f.scopes + wItems ε f.items + wOpt ε cfg f.ret + wStack ε cfg fs := rfl

omit [BEq V] [Hashable V] in
theorem destroy_wt (f : Frame Var (Val V) Op (Glue V)) (fs : Stack V) (l : List (It V)) {b : Addr} {v : V} :
    wStack ε cfg ({ f with items := (Glue.value v :: (cfg.kids v).map .handle ++ [Glue.dealloc b]).map .glue ++ l } :: fs) =
      wScopes ε cfg f.scopes + wItems ε (.glue (.destroy b) :: l : List (It V)) + wOpt ε cfg f.ret + wStack ε cfg fs + ε * (cfg.kids v).length := by
  have h1 := wItems_handles (V := V) (ε := ε) (cfg.kids v)
  simp only [wStack_cons, List.cons_append, List.map_cons, List.map_append, wItems, wItem, wItems_append, h1, List.map_nil]
  omega

omit [BEq V] [Hashable V] in
theorem destroy_dying (f : Frame Var (Val V) Op (Glue V)) (fs : Stack V) (l : List (It V)) {b : Addr} {v : V} :
    dying ({ f with items := (Glue.value v :: (cfg.kids v).map .handle ++ [Glue.dealloc b]).map .glue ++ l } :: fs) =
      b :: (deallocsOf (.glue (.destroy b) :: l : List (It V)) ++ dying fs) := by
  simp [dying, deallocsOf]

omit [BEq V] [Hashable V] in
theorem close_wt (hε : ε ≤ 1) (f : Frame Var (Val V) Op (Glue V)) (fs : Stack V) (l : List (It V)) (sc : List (Var × Option (Val V))) (scs : Scopes Var (Val V)) :
    wStack ε cfg ({ f with scopes := scs, items := (sc.flatMap fun x => x.2.toList.flatMap (glue cfg)).map Item.glue ++ l } :: fs) ≤
      wScopes ε cfg (sc :: scs) + wItems ε (.close :: l) + wOpt ε cfg f.ret + wStack ε cfg fs := by
  have h1 := scGlue_wt (cfg := cfg) hε sc
  simp only [wStack_cons, wScopes, wItems, wItem, wItems_append]; omega

/-- A step that is not a statement. -/
theorem run_wind (hε : ε ≤ 1) {m m' : Mem V} {t : Tid} {a : Addr} {f : Frame Var (Val V) Op (Glue V)} {fs fs' : Stack V} {r : Option (Val V)}
    (h : (lang cfg).run m t a (f :: fs) = .ok (m', fs', r)) (hno : f.exiting = true ∨ ∀ s l, f.items ≠ .stmt s :: l) :
    (m'.heap = m.heap ∧ wStack ε cfg fs' ≤ wStack ε cfg (f :: fs) ∧ dying fs' = dying (f :: fs)) ∨
    (∃ b c l, f.items = .glue (.destroy b) :: l ∧ Arc.get m.heap b = some c ∧ m'.heap = m.heap ∧
      wStack ε cfg fs' ≤ wStack ε cfg (f :: fs) + ε * (cfg.kids c.data).length ∧ dying fs' = b :: dying (f :: fs)) ∨
    (∃ b, m'.heap = Arc.free m.heap b ∧ wStack ε cfg fs' ≤ wStack ε cfg (f :: fs) ∧ dying (f :: fs) = b :: dying fs') := by
  rw [wStack_cons, dying_cons]
  simp only [Lang.run] at h
  split at h
  · rename_i hi
    rw [hi]
    refine .inl ?_
    split at h
    · cases h; exact ⟨rfl, Nat.zero_le _, rfl⟩
    · rename_i g gs
      cases h
      refine ⟨rfl, ?_, rfl⟩
      have h1 : wStack ε cfg ({ g with exiting := g.exiting || f.panicking, panicking := g.panicking || f.panicking } :: gs) = wStack ε cfg (g :: gs) := rfl
      have h2 : wStack ε cfg ({ g with exiting := g.exiting || f.panicking, panicking := g.panicking || f.panicking } :: gs) ≤
          wScopes ε cfg f.scopes + wItems ε ([] : List (It V)) + wOpt ε cfg f.ret + wStack ε cfg (g :: gs) := by rw [h1]; omega
      exact h2
  · rename_i g l hi
    rw [hi]
    split at h
    · rename_i m1 more callee hd
      cases h
      cases g with
      | value v =>
        cases hd
        refine .inl ⟨rfl, ?_, rfl⟩
        exact Nat.le_of_eq (by rw [List.map_nil]; simp [wStack, wFrame, wItems, wItem])
      | unlock v =>
        cases hd
        refine .inl ⟨rfl, ?_, rfl⟩
        exact Nat.le_of_eq (by rw [List.map_nil]; simp [wStack, wFrame, wItems, wItem])
      | handle b =>
        cases hd
        refine .inl ⟨rfl, ?_, ?_⟩
        · exact Nat.le_of_eq (by simp [wStack, wFrame, wItems, wItem, dropCode, wScopes, wSc, wOpt, wt]; omega)
        · simp [dying, deallocsOf, dropCode]
      | destroy b =>
        simp only [drop] at hd
        split at hd
        · rename_i c hc
          cases hd
          refine .inr (.inl ⟨b, c, l, rfl, hc, rfl, ?_, ?_⟩)
          · exact Nat.le_of_eq (destroy_wt f fs l)
          · exact destroy_dying f fs l
        · cases hd
      | dealloc b =>
        simp only [drop] at hd
        split at hd
        · cases hd
          refine .inr (.inr ⟨b, rfl, ?_, rfl⟩)
          exact Nat.le_of_eq (by rw [List.map_nil]; simp [wStack, wFrame, wItems, wItem])
        · cases hd
    · cases h
    · cases h
  · rename_i l hi
    rw [hi]
    refine .inl ?_
    split at h
    · rename_i sc scs hs
      cases h
      refine ⟨rfl, ?_, ?_⟩
      · rw [hs]
        exact close_wt hε f fs l sc scs
      · have h1 := deallocs_scGlue (cfg := cfg) l sc
        have h3 : dying ({ f with scopes := scs, items := (sc.flatMap fun x => x.2.toList.flatMap (glue cfg)).map Item.glue ++ l } :: fs) =
            deallocsOf (.close :: l) ++ dying fs := by
          simp only [dying_cons, h1]; rfl
        exact h3
    · cases h
  · rename_i l' l hi
    rw [hi]
    refine .inl ?_
    split at h
    · cases h
      exact ⟨rfl, Nat.le_of_eq (by simp [wStack, wFrame, wItems, wItem]), rfl⟩
    · cases h
      exact ⟨rfl, Nat.le_of_eq (by simp [wStack, wFrame, wItems, wItem]), rfl⟩
  · rename_i s l hi
    rcases hno with hno | hno
    · simp only [hno, if_true] at h
      cases h
      rw [hi]
      exact .inl ⟨rfl, Nat.le_of_eq (by simp [wStack, wFrame, wItems, wItem]), rfl⟩
    · exact absurd hi (hno s l)

end

/-! ### Boxes that are being destroyed -/

theorem kept_mono {D D' : List Addr} (hD : ∀ x, x ∈ D → x ∈ D') : ∀ (h : List (Addr × Cell V)),
    kept cfg (h.filter fun e => decide (e.1 ∉ D')) ≤ kept cfg (h.filter fun e => decide (e.1 ∉ D))
  | [] => Nat.le_refl _
  | e :: h => by
    have ih := kept_mono hD h
    simp only [List.filter_cons]
    by_cases h1 : e.1 ∈ D
    · simp only [h1, hD _ h1, not_true_eq_false, decide_false, Bool.false_eq_true, if_false]; exact ih
    · by_cases h2 : e.1 ∈ D'
      · simp only [h1, h2, not_true_eq_false, not_false_eq_true, decide_true, decide_false, Bool.false_eq_true, if_false, if_true, kept_cons]; omega
      · simp only [h1, h2, not_false_eq_true, decide_true, if_true, kept_cons]; omega

theorem kept_destroy {D : List Addr} {b : Addr} (hb : b ∉ D) {c : Cell V} : ∀ {h : List (Addr × Cell V)}, Arc.get h b = some c →
    kept cfg (h.filter fun e => decide (e.1 ∉ b :: D)) + (cfg.kids c.data).length ≤ kept cfg (h.filter fun e => decide (e.1 ∉ D))
  | [], e => by cases e
  | (d, x) :: h, e => by
    simp only [Arc.get] at e
    split at e
    · rename_i hd
      cases e; subst hd
      have := kept_mono (cfg := cfg) (D := D) (D' := d :: D) (fun y hy => List.mem_cons_of_mem _ hy) h
      simp only [List.filter_cons, List.mem_cons_self, hb, not_true_eq_false, not_false_eq_true, decide_true, decide_false, Bool.false_eq_true, if_false, if_true,
        kept_cons]
      omega
    · rename_i hd
      have ih := kept_destroy hb e
      by_cases h1 : d ∈ D
      · simp only [List.filter_cons, h1, List.mem_cons_of_mem, not_true_eq_false, decide_false, Bool.false_eq_true, if_false]; exact ih
      · have h2 : d ∉ b :: D := by simp [hd, h1]
        simp only [List.filter_cons, h1, h2, not_false_eq_true, decide_true, if_true, kept_cons]; omega

theorem kept_release (D : List Addr) (b : Addr) (h : List (Addr × Cell V)) :
    kept cfg ((Arc.free h b).filter fun e => decide (e.1 ∉ D)) = kept cfg (h.filter fun e => decide (e.1 ∉ b :: D)) := by
  rw [Arc.free, List.filter_filter]
  congr 1
  refine List.filter_congr fun e _ => ?_
  simp only [List.mem_cons, not_or, Bool.decide_and, ne_eq, decide_not, Bool.and_comm]

/-- What a call has and what is in boxes; what it has is counted at least once. -/
def pot (cfg : Cfg V) (m : Mem V) (fs : Stack V) : Nat :=
  wStack 1 cfg fs + kept cfg m.heap + kept cfg (m.heap.filter fun e => decide (e.1 ∉ dying fs))

/-- Only handles in values and in boxes: it never increases. -/
def bal (cfg : Cfg V) (m : Mem V) (fs : Stack V) : Nat := wStack 0 cfg fs + 2 * kept cfg m.heap

variable [BEq V] [Hashable V]

theorem wind_pot {m m' : Mem V} {t : Tid} {a : Addr} {f : Frame Var (Val V) Op (Glue V)} {fs fs' : Stack V} {r : Option (Val V)}
    (h : (lang cfg).run m t a (f :: fs) = .ok (m', fs', r)) (hno : f.exiting = true ∨ ∀ s l, f.items ≠ .stmt s :: l)
    (hb : ∀ b l, f.items = .glue (.destroy b) :: l → b ∉ dying (f :: fs)) : bal cfg m' fs' ≤ bal cfg m (f :: fs) ∧ pot cfg m' fs' ≤ pot cfg m (f :: fs) := by
  constructor
  · rcases run_wind (ε := 0) (by omega) h hno with ⟨h1, h2, _⟩ | ⟨b, c, l, _, _, h1, h2, _⟩ | ⟨b, h1, h2, _⟩
    · simp only [bal, h1]; omega
    · simp only [bal, h1]; omega
    · have := kept_filter cfg (fun e => e.1 ≠ b) m.heap
      simp only [bal, h1, Arc.free]; omega
  · rcases run_wind (ε := 1) (by omega) h hno with ⟨h1, h2, h3⟩ | ⟨b, c, l, hi, hc, h1, h2, h3⟩ | ⟨b, h1, h2, h3⟩
    · simp only [pot, h1, h3]; omega
    · have := kept_destroy (cfg := cfg) (hb b l hi) hc
      simp only [pot, h1, h3]; omega
    · have h4 := kept_filter cfg (fun e => e.1 ≠ b) m.heap
      have h5 := kept_release (cfg := cfg) (dying fs') b m.heap
      simp only [pot, h1, h3, h5]
      simp only [Arc.free]
      omega

omit [BEq V] [Hashable V] in
theorem lean_params {c : Call V} (hc : OkCall cfg c) (ε : Nat) : wSc ε cfg (params c) = wSc 0 cfg (params c) ∧ wSc ε cfg (taken c) = wSc 0 cfg (taken c) := by
  cases h : c.dst with
  | false => simp [params, taken, h, wSc, wOpt, wt]
  | true => simp [params, taken, h, wSc, wOpt, wt, hc.1 h]

omit [BEq V] [Hashable V] in
/-- In `new` there are at most two, apart from those in values. -/
theorem NewAt.wt {scs : Scopes Var (Val V)} {items : List (It V)} {pc : Pc V} {r : Option Addr} (h : NewAt cfg scs items pc r) :
    wScopes 1 cfg scs + wItems 1 items ≤ wScopes 0 cfg scs + wItems 0 items + 2 := by
  have h0 : ∀ (ε : Nat) (d : Bool), wItems ε (rest d : List (It V)) = 0 := fun ε d => rfl
  have h0' : ∀ (ε : Nat) (d : Bool), wItems ε (after d : List (It V)) = 0 := fun ε d => rfl
  have hp : ∀ {c : Call V}, OkCall cfg c → wSc 1 cfg (params c) = wSc 0 cfg (params c) := fun h => (lean_params h 1).1
  have ht : ∀ {c : Call V}, OkCall cfg c → wSc 1 cfg (taken c) = wSc 0 cfg (taken c) := fun h => (lean_params h 1).2
  cases h with
  | conv hc => simp [wScopes, wSc, wItems, wItem, wOpt, ArcCode.wt, hc]
  | miss2 hc _ => simp only [wScopes, wSc, wItems_stmts_close, h0, ht hc, wOpt, ArcCode.wt]; omega
  | vac1 hc _ | vac2 hc _ | vac3 hc _ | vac4 hc _ | occ1 hc _ | occ2 hc _ =>
    simp only [wScopes, wSc, wItems, wItem, h0, ht hc, wOpt, ArcCode.wt]; omega
  | hit1 hc | miss1 hc => simp only [wScopes, wSc, wItems_stmts_close, h0, hp hc, wOpt, ArcCode.wt]; omega
  | loop hc | block hc | cont hc | look hc | hit2 hc | hit3 hc | hit4 hc | undo1 hc | undo2 hc | undo3 hc | undo4 hc | yield hc | endBlock hc | again hc | occ3 hc
  | occ4 hc =>
    simp only [wScopes, wSc, wItems, wItem, h0, h0', hp hc, wOpt, ArcCode.wt]; omega

/-- `Lean`, place by place. -/
def Thin (cfg : Cfg V) (scs : Scopes Var (Val V)) : Prop := ∀ sc ∈ scs, ∀ x ∈ sc, ∀ v, x.2 = some (.borrowed v) → cfg.kids v = []

omit [BEq V] [Hashable V] in
theorem scopeGet_mem {x : Var} : ∀ {sc : List (Var × Option (Val V))} {v : Option (Val V)}, scopeGet x sc = some v → ∃ y ∈ sc, y.2 = v
  | [], v, h => by cases h
  | (y, u) :: sc, v, h => by
    simp only [scopeGet] at h
    split at h
    · cases h; exact ⟨_, List.mem_cons_self, rfl⟩
    · obtain ⟨z, hz, e⟩ := scopeGet_mem h
      exact ⟨z, List.mem_cons_of_mem _ hz, e⟩

omit [BEq V] [Hashable V] in
theorem Thin.lean : ∀ {scs : Scopes Var (Val V)}, Thin cfg scs → Lean cfg scs
  | [], _ => by intro x v h; cases h
  | sc :: scs, ht => by
    intro x v h
    simp only [Scopes.get] at h
    split at h
    · rename_i w hw
      obtain ⟨y, hy, e⟩ := scopeGet_mem hw
      exact ht sc List.mem_cons_self y hy v (e.trans h)
    · exact Thin.lean (scs := scs) (fun sc' hs => ht sc' (List.mem_cons_of_mem _ hs)) x v h

omit [BEq V] [Hashable V] in
theorem NewAt.thin {scs : Scopes Var (Val V)} {items : List (It V)} {pc : Pc V} {r : Option Addr} (h : NewAt cfg scs items pc r) : Thin cfg scs := by
  have hp : ∀ {c : Call V}, OkCall cfg c → ∀ x ∈ params c, ∀ v, x.2 = some (.borrowed v) → cfg.kids v = [] := by
    intro c hc x hx v hv
    cases hd : c.dst with
    | false => simp only [params, hd, Bool.false_eq_true, if_false, List.mem_singleton] at hx; subst hx; cases hv
    | true =>
      simp only [params, hd, if_true, List.mem_cons, List.not_mem_nil, or_false] at hx
      rcases hx with rfl | rfl
      · cases hv
      · cases hv; exact hc.1 hd
  have ht : ∀ {c : Call V}, OkCall cfg c → ∀ x ∈ taken c, ∀ v, x.2 = some (.borrowed v) → cfg.kids v = [] := by
    intro c hc x hx v hv
    cases hd : c.dst with
    | false => simp only [taken, hd, Bool.false_eq_true, if_false, List.mem_singleton] at hx; subst hx; cases hv
    | true =>
      simp only [taken, hd, if_true, List.mem_cons, List.not_mem_nil, or_false] at hx
      rcases hx with rfl | rfl
      · cases hv
      · cases hv; exact hc.1 hd
  have nil : Thin cfg ([] : Scopes Var (Val V)) := fun sc h => by cases h
  have cons : ∀ {sc : List (Var × Option (Val V))} {scs : Scopes Var (Val V)}, (∀ x ∈ sc, ∀ v, x.2 = some (.borrowed v) → cfg.kids v = []) → Thin cfg scs →
      Thin cfg (sc :: scs) := by
    intro sc scs h1 h2 sc' hs
    rcases List.mem_cons.mp hs with rfl | hs
    · exact h1
    · exact h2 _ hs
  cases h with
  | conv hc => intro sc hs x hx v hv; simp at hs; subst hs; simp at hx; subst hx; cases hv; exact hc
  | miss2 hc _ | vac1 hc _ | vac2 hc _ | vac3 hc _ | vac4 hc _ | occ1 hc _ | occ2 hc _ =>
    repeat' (first | exact nil | exact cons (ht hc) nil | refine cons (by simp) ?_)
  | hit1 hc | miss1 hc | loop hc | block hc | cont hc | look hc | hit2 hc | hit3 hc | hit4 hc | undo1 hc | undo2 hc | undo3 hc | undo4 hc | yield hc | endBlock hc
  | again hc | occ3 hc | occ4 hc =>
    repeat' (first | exact nil | exact cons (hp hc) nil | refine cons (by simp) ?_)

macro "frame_tac" : tactic => `(tactic|
  simp [wFrame, wScopes, wSc, wOpt, ArcCode.wt, wItems, wItem, dropVars, dropCode, Scopes.declare, Scopes.set, Scopes.get, scopeSet, scopeGet, glue])

/-- A step of `drop` changes nothing. -/
theorem DropAt.pot {scs : Scopes Var (Val V)} {items : List (It V)} {pc : Pc V} (hd : DropAt scs items pc) {m m' : Mem V} {t : Tid} {a : Addr}
    {fs fs' : Stack V} {r : Option (Val V)} (h : (lang cfg).run m t a ({ scopes := scs, items := items } :: fs) = .ok (m', fs', r)) :
    bal cfg m' fs' ≤ bal cfg m ({ scopes := scs, items := items } :: fs) ∧ ArcCode.pot cfg m' fs' ≤ ArcCode.pot cfg m ({ scopes := scs, items := items } :: fs) := by
  have fin : ∀ {f f' : Frame Var (Val V) Op (Glue V)} {m' : Mem V}, (∀ ε, wFrame ε cfg f' = ε) → (∀ ε, wFrame ε cfg f = ε) → deallocsOf f'.items = [] →
      deallocsOf f.items = [] → (m'.heap = m.heap ∨ ∃ b n, m'.heap = Arc.setCount m.heap b n) →
      bal cfg m' (f' :: fs) ≤ bal cfg m (f :: fs) ∧ ArcCode.pot cfg m' (f' :: fs) ≤ ArcCode.pot cfg m (f :: fs) := by
    intro f f' m' h1 h2 h3 h4 h5
    simp only [bal, ArcCode.pot, wStack, h1, h2, dying_cons, h3, h4]
    rcases h5 with h5 | ⟨b, n, h5⟩
    · rw [h5]; exact ⟨Nat.le_refl _, Nat.le_refl _⟩
    · rw [h5, kept_setCount, kept_filter_setCount]; exact ⟨Nat.le_refl _, Nat.le_refl _⟩
  have go : ∀ {s : St} {l : List (It V)} {scs : Scopes Var (Val V)} {m' : Mem V} {fs' : Stack V} {r : Option (Val V)},
      (lang cfg).run m t a ({ scopes := scs, items := .stmt s :: l } :: fs) = .ok (m', fs', r) →
      ∃ f', fs' = f' :: fs ∧ (lang cfg).stmt m t a { scopes := scs, items := .stmt s :: l } l s = .ok (m', f') := by
    intro s l scs m' fs' r h
    simp only [Lang.run, Bool.false_eq_true, if_false] at h
    split at h
    · rename_i f' hf
      cases h
      exact ⟨_, rfl, hf⟩
    · cases h
    · cases h
  cases hd with
  | sub =>
    obtain ⟨f', rfl, hs⟩ := go h
    simp only [Lang.stmt, exec, Scopes.get, scopeGet, if_true] at hs
    split at hs
    · rename_i d hd
      split at hd
      · cases hd; cases hs
        exact fin (fun _ => by frame_tac) (fun _ => by frame_tac) rfl rfl (.inr ⟨_, _, rfl⟩)
      · cases hd
    · cases hs
    · cases hs
  | @test b n =>
    obtain ⟨f', rfl, hs⟩ := go h
    by_cases hn : n = 1
    · subst hn; cases hs
      exact fin (fun _ => by frame_tac) (fun _ => by frame_tac) rfl rfl (.inl rfl)
    · simp only [Lang.stmt, exec, dropVars, Scopes.get, scopeGet, if_true, hn, if_false] at hs
      cases hs
      exact fin (fun _ => by frame_tac) (fun _ => by frame_tac) rfl rfl (.inl rfl)
  | yield => obtain ⟨f', rfl, hs⟩ := go h; cases hs; exact fin (fun _ => by frame_tac) (fun _ => by frame_tac) rfl rfl (.inl rfl)
  | fence => obtain ⟨f', rfl, hs⟩ := go h; cases hs; exact fin (fun _ => by frame_tac) (fun _ => by frame_tac) rfl rfl (.inl rfl)
  | uninit => obtain ⟨f', rfl, hs⟩ := go h; cases hs; exact fin (fun _ => by frame_tac) (fun _ => by frame_tac) rfl rfl (.inl rfl)
  | cont => obtain ⟨f', rfl, hs⟩ := go h; cases hs; exact fin (fun _ => by frame_tac) (fun _ => by frame_tac) rfl rfl (.inl rfl)
  | @remove b n =>
    obtain ⟨f', rfl, hs⟩ := go h
    have hg : Scopes.get .self [[(.remove, none), (.u, none)], dropVars b n] = (some (.ref b) : Option (Val V)) := rfl
    simp only [Lang.stmt, exec, hg] at hs
    split at hs
    · rename_i d hd
      (repeat' split at hd) <;> first
        | (cases hd; done)
        | (cases hd; cases hs
           exact fin (fun _ => by frame_tac) (fun _ => by frame_tac) rfl rfl (.inl rfl))
    · cases hs
    · cases hs

omit [BEq V] [Hashable V] in
theorem wind_first {f : Frame Var (Val V) Op (Glue V)} {g : List (Glue V)} (h : wind cfg f.exiting f.scopes f.items = some g) {x : Glue V} {l : List (It V)}
    (hi : f.items = .glue x :: l) : ∃ g', g = x :: g' := by
  rw [hi, wind_glue] at h
  simp only [Option.map_eq_some_iff] at h
  obtain ⟨g', _, rfl⟩ := h
  exact ⟨g', rfl⟩

omit [BEq V] [Hashable V] in
theorem Winds.first {f : Frame Var (Val V) Op (Glue V)} {fs : Stack V} {G : List (Glue V)} {r : Option Addr} (h : Winds cfg (f :: fs) G r) {x : Glue V}
    {l : List (It V)} (hi : f.items = .glue x :: l) : ∃ G', G = x :: G' := by
  cases h with
  | last h _ => exact wind_first h hi
  | cons h _ _ => obtain ⟨g', rfl⟩ := wind_first h hi; exact ⟨_, rfl⟩

/-- A step of a call. -/
theorem Rel.pot {fs fs' : Stack V} {th : Thread V} (hR : Rel cfg fs th) {m m' : Mem V} {t : Tid} {a : Addr} {r : Option (Val V)}
    (h : (lang cfg).run m t a fs = .ok (m', fs', r)) (hal : ∀ b, th.pc = .dropFree b → b ∉ dying fs) :
    bal cfg m' fs' ≤ bal cfg m fs ∧ (ArcCode.pot cfg m' fs' ≤ ArcCode.pot cfg m fs ∨ ArcCode.pot cfg m' fs' ≤ bal cfg m fs + 3) := by
  have good : ∀ {x y : Prop}, x ∧ y → x ∧ (y ∨ ArcCode.pot cfg m' fs' ≤ bal cfg m fs + 3) := fun h => ⟨h.1, .inl h.2⟩
  cases fs with
  | nil => cases h
  | cons f fs =>
    cases hR with
    | leave hw hG =>
      refine good (wind_pot h hw.no_stmt fun b l hi => ?_)
      obtain ⟨G', rfl⟩ := hw.first hi
      cases hG
    | destroy hw hG =>
      refine good (wind_pot h hw.no_stmt fun b l hi => ?_)
      obtain ⟨G', e⟩ := hw.first hi
      cases e
      exact hal _ rfl
    | unlock hw _ =>
      refine good (wind_pot h hw.no_stmt fun b l hi => ?_)
      obtain ⟨G', e⟩ := hw.first hi
      cases e
    | drop hd _ _ => exact good (hd.pot h)
    | @new scs items pc r _ hn =>
      by_cases hs : ∃ s l, items = .stmt s :: l
      · obtain ⟨s, l, rfl⟩ := hs
        have h1 := hn.wt
        have hl := hn.thin.lean
        simp only [Lang.run, Bool.false_eq_true, if_false] at h
        split at h
        · rename_i f1 hd
          cases h
          have h2 := stmt_wt (ε := 0) (by omega) hl hd
          have h3 := stmt_wt (ε := 1) (by omega) hl hd
          have h4 := kept_filter cfg (fun e => decide (e.1 ∉ dying [f1])) m'.heap
          simp only [wItems, wItem] at h1
          have e0 : ∀ ε, wStack ε cfg [({ scopes := scs, items := .stmt s :: l } : Frame Var (Val V) Op (Glue V))] = wScopes ε cfg scs + wItems ε l := fun ε => by
            rw [wStack_cons]; simp only [wItems, wItem, wStack, wOpt]; omega
          have e1 : ∀ ε, wStack ε cfg [f1] = wFrame ε cfg f1 := fun ε => by simp [wStack]
          simp only [wOpt] at h2 h3
          refine ⟨?_, .inr ?_⟩
          · have : bal cfg m' [f1] ≤ bal cfg m [({ scopes := scs, items := .stmt s :: l } : Frame Var (Val V) Op (Glue V))] := by
              simp only [bal, e0, e1]; omega
            exact this
          · have : ArcCode.pot cfg m' [f1] ≤ bal cfg m [({ scopes := scs, items := .stmt s :: l } : Frame Var (Val V) Op (Glue V))] + 3 := by
              simp only [bal, ArcCode.pot, e0, e1]; omega
            exact this
        · cases h
        · cases h
      · refine good (wind_pot h (.inr fun s l hi => hs ⟨s, l, hi⟩) fun b l hi => ?_)
        cases hn <;> cases hi

end Src.ArcCode
