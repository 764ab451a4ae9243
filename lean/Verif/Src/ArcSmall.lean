import Verif.Src.ArcSim
/-
How many handles and references a running call of `ArcIntern` has in its local variables, if values contain no handles: at most four. (For C92.)
-/
namespace Src.ArcCode
open Arc (Addr Tid Cell Cfg Res Call Pc Thread)

variable {V : Type}

def optM (cfg : Cfg V) (o : Option (Val V)) : Nat := (o.toList.flatMap (Val.mentions cfg)).length
def scM (cfg : Cfg V) (sc : List (Var × Option (Val V))) : Nat := (sc.flatMap fun x => x.2.toList.flatMap (Val.mentions cfg)).length
def scopesM (cfg : Cfg V) (scs : Scopes Var (Val V)) : Nat :=
  (scs.flatMap fun sc => sc.flatMap fun x => x.2.toList.flatMap (Val.mentions cfg)).length
def itemsM (l : List (It V)) : Nat := (l.flatMap itemMentions).length
def frameM (cfg : Cfg V) (f : Frame Var (Val V) Op (Glue V)) : Nat := (frameMentions cfg f).length

/-- The number of handles and references in the variables of a call. -/
def size (cfg : Cfg V) (fs : Stack V) : Nat := (fs.flatMap (frameMentions cfg)).length

variable {cfg : Cfg V}

theorem frameM_eq (f : Frame Var (Val V) Op (Glue V)) : frameM cfg f = scopesM cfg f.scopes + itemsM f.items + optM cfg f.ret := by
  simp only [frameM, frameMentions, scopesM, itemsM, optM, List.length_append]

theorem size_cons (f : Frame Var (Val V) Op (Glue V)) (fs : Stack V) : size cfg (f :: fs) = frameM cfg f + size cfg fs := by
  simp only [size, frameM, List.flatMap_cons, List.length_append]

theorem size_nil : size cfg ([] : Stack V) = 0 := rfl

theorem scopesM_cons (sc : List (Var × Option (Val V))) (scs : Scopes Var (Val V)) : scopesM cfg (sc :: scs) = scM cfg sc + scopesM cfg scs := by
  simp only [scopesM, scM, List.flatMap_cons, List.length_append]

theorem scM_cons (x : Var × Option (Val V)) (sc : List (Var × Option (Val V))) : scM cfg (x :: sc) = optM cfg x.2 + scM cfg sc := by
  simp only [scM, optM, List.flatMap_cons, List.length_append]

theorem itemsM_cons (i : It V) (l : List (It V)) : itemsM (i :: l) = (itemMentions i).length + itemsM l := by
  simp only [itemsM, List.flatMap_cons, List.length_append]

theorem itemsM_append (l l' : List (It V)) : itemsM (l ++ l') = itemsM l + itemsM l' := by
  simp only [itemsM, List.flatMap_append, List.length_append]

theorem itemsM_stmts (l : List St) : itemsM (l.map (Item.stmt : St → It V)) = 0 := by
  induction l with
  | nil => rfl
  | cons s l ih => rw [List.map_cons, itemsM_cons, ih]; rfl

theorem optM_none : optM cfg (none : Option (Val V)) = 0 := rfl

variable (hk : ∀ v, cfg.kids v = [])
include hk

theorem optM_le (o : Option (Val V)) : optM cfg o ≤ 1 := by
  cases o with
  | none => exact Nat.zero_le _
  | some x => cases x <;> simp [optM, Val.mentions, hk]

theorem glueM_le (x : Val V) : itemsM ((glue cfg x).map Item.glue) ≤ optM cfg (some x) := by
  cases x with
  | optBox o => cases o <;> simp [itemsM, itemMentions, glue, optM, Val.mentions]
  | _ => simp [itemsM, itemMentions, glue, optM, Val.mentions, hk]

theorem optGlue_le (o : Option (Val V)) : itemsM ((o.toList.flatMap (glue cfg)).map Item.glue) ≤ optM cfg o := by
  cases o with
  | none => exact Nat.le_refl _
  | some x => simpa using glueM_le hk x

theorem scGlue_le (sc : List (Var × Option (Val V))) :
    itemsM (((sc.flatMap fun x => x.2.toList.flatMap (glue cfg))).map Item.glue) ≤ scM cfg sc := by
  induction sc with
  | nil => exact Nat.le_refl _
  | cons x sc ih =>
    rw [scM_cons, List.flatMap_cons, List.map_append, itemsM_append]
    have := optGlue_le hk x.2
    omega

omit hk in
theorem scopeSet_le (x : Var) (w : Option (Val V)) (sc : List (Var × Option (Val V))) : scM cfg (scopeSet x w sc) ≤ scM cfg sc + optM cfg w := by
  induction sc with
  | nil => exact Nat.zero_le _
  | cons y sc ih =>
    obtain ⟨y, v⟩ := y
    simp only [scopeSet]
    split <;> simp only [scM_cons] <;> omega

omit hk in
theorem set_le (x : Var) (w : Option (Val V)) (scs : Scopes Var (Val V)) : scopesM cfg (scs.set x w) ≤ scopesM cfg scs + optM cfg w := by
  induction scs with
  | nil => exact Nat.zero_le _
  | cons sc scs ih =>
    simp only [Scopes.set]
    split
    · have := scopeSet_le (cfg := cfg) x w sc
      simp only [scopesM_cons]; omega
    · simp only [scopesM_cons]; omega

omit hk in
theorem declare_le (x : Var) (w : Option (Val V)) (scs : Scopes Var (Val V)) : scopesM cfg (scs.declare x w) ≤ scopesM cfg scs + optM cfg w := by
  cases scs with
  | nil => exact Nat.zero_le _
  | cons sc scs => simp only [Scopes.declare, scopesM_cons, scM_cons]; omega

variable [BEq V] [Hashable V]

omit hk in
theorem exec_le {m : Mem V} {t : Tid} {a : Addr} {sc : Scopes Var (Val V)} {op : Op} {d : Done (Mem V) Var (Val V)}
    (h : exec cfg m t a sc op = .ok d) : scopesM cfg d.scopes ≤ scopesM cfg sc := by
  have hn : ∀ x, scopesM cfg (sc.set x none) ≤ scopesM cfg sc := fun x => by simpa [optM_none] using set_le (cfg := cfg) x none sc
  have hb : ∀ x, scopesM cfg (sc.set x (some (.optBox none))) ≤ scopesM cfg sc := fun x => by
    simpa [optM, Val.mentions] using set_le (cfg := cfg) x (some (.optBox none)) sc
  cases op <;> simp only [exec] at h <;> (repeat' split at h) <;> first
    | (cases h; done)
    | (cases h; first | exact Nat.le_refl _ | exact hn _ | exact hb _)

omit hk [BEq V] [Hashable V] in
theorem frame_le {f : Frame Var (Val V) Op (Glue V)} {a b c : Nat} (h1 : scopesM cfg f.scopes ≤ a) (h2 : itemsM f.items ≤ b)
    (h3 : optM cfg f.ret ≤ c) : frameM cfg f ≤ a + b + c := by
  rw [frameM_eq]; omega

omit hk [BEq V] [Hashable V] in
theorem size_le {f : Frame Var (Val V) Op (Glue V)} {fs : Stack V} {a b : Nat} (h1 : frameM cfg f ≤ a) (h2 : size cfg fs ≤ b) : size cfg (f :: fs) ≤ a + b := by
  rw [size_cons]; omega

omit hk [BEq V] [Hashable V] in
theorem append_le {l l' : List (It V)} {a b : Nat} (h1 : itemsM l ≤ a) (h2 : itemsM l' ≤ b) : itemsM (l ++ l') ≤ a + b := by
  rw [itemsM_append]; omega

omit hk [BEq V] [Hashable V] in
theorem stmts_le (l : List St) (r : List (It V)) : itemsM (l.map .stmt ++ .close :: r) ≤ itemsM r := by
  rw [itemsM_append, itemsM_stmts, itemsM_cons]
  exact Nat.le_of_eq (by simp [itemMentions])

theorem stmt_le {m m' : Mem V} {t : Tid} {a : Addr} {f f' : Frame Var (Val V) Op (Glue V)} {r : List (It V)} {s : St}
    (h : (lang cfg).stmt m t a f r s = .ok (m', f')) : frameM cfg f' ≤ scopesM cfg f.scopes + itemsM r + optM cfg f.ret + 2 := by
  cases s with
  | uninit x =>
    cases h
    have := declare_le (cfg := cfg) x none f.scopes
    simp only [optM_none] at this
    exact Nat.le_trans (frame_le this (Nat.le_refl (itemsM r)) (Nat.le_refl (optM cfg f.ret))) (by omega)
  | bind x op =>
    simp only [Lang.stmt] at h
    split at h
    · rename_i d hd
      cases h
      have h1 := exec_le hd
      have h2 := declare_le (cfg := cfg) x d.val d.scopes
      have h3 := optM_le hk d.val
      exact Nat.le_trans (frame_le h2 (Nat.le_refl (itemsM r)) (Nat.le_refl (optM cfg f.ret))) (by omega)
    · cases h
    · cases h
  | assign x op =>
    simp only [Lang.stmt] at h
    split at h
    · rename_i d hd
      cases h
      have h1 := exec_le hd
      have h2 := set_le (cfg := cfg) x d.val d.scopes
      have h3 := optM_le hk d.val
      have h4 := optM_le hk (d.scopes.get x)
      exact Nat.le_trans (frame_le h2 (append_le (optGlue_le hk (d.scopes.get x)) (Nat.le_refl (itemsM r))) (Nat.le_refl (optM cfg f.ret))) (by omega)
    · cases h
    · cases h
  | exec op =>
    simp only [Lang.stmt] at h
    split at h
    · rename_i d hd
      cases h
      have h1 := exec_le hd
      have h3 := optM_le hk d.val
      exact Nat.le_trans (frame_le h1 (append_le (optGlue_le hk d.val) (Nat.le_refl (itemsM r))) (Nat.le_refl (optM cfg f.ret))) (by omega)
    · cases h
    · cases h
  | choose x op a0 a1 =>
    simp only [Lang.stmt] at h
    split at h
    · rename_i d hd
      cases h
      have h1 := exec_le hd
      have h3 := optM_le hk d.val
      have h4 : scopesM cfg ([(x, d.val)] :: d.scopes) = optM cfg d.val + scopesM cfg d.scopes := by
        rw [scopesM_cons, scM_cons]; rfl
      exact Nat.le_trans (frame_le (Nat.le_of_eq h4) (stmts_le _ r) (Nat.le_refl (optM cfg f.ret))) (by omega)
    · cases h
    · cases h
  | block l =>
    cases h
    have h4 : scopesM cfg ([] :: f.scopes) = scopesM cfg f.scopes := rfl
    exact Nat.le_trans (frame_le (Nat.le_of_eq h4) (stmts_le _ r) (Nat.le_refl (optM cfg f.ret))) (by omega)
  | loop l =>
    cases h
    have h4 : itemsM (.stmt (.block l) :: .again l :: r : List (It V)) = itemsM r := rfl
    exact Nat.le_trans (frame_le (Nat.le_refl (scopesM cfg f.scopes)) (Nat.le_of_eq h4) (Nat.le_refl (optM cfg f.ret))) (by omega)
  | ret op =>
    simp only [Lang.stmt] at h
    split at h
    · rename_i d hd
      cases h
      have h1 := exec_le hd
      have h3 := optM_le hk d.val
      exact Nat.le_trans (frame_le h1 (Nat.le_refl (itemsM r)) h3) (by omega)
    · cases h
    · cases h

/-- A step of a call adds at most two, and nothing if it is not a statement. -/
theorem run_le {m m' : Mem V} {t : Tid} {a : Addr} {f : Frame Var (Val V) Op (Glue V)} {fs fs' : Stack V} {r : Option (Val V)}
    (h : (lang cfg).run m t a (f :: fs) = .ok (m', fs', r)) :
    size cfg fs' ≤ size cfg (f :: fs) + 2 ∧ ((f.exiting = true ∨ ∀ s l, f.items ≠ .stmt s :: l) → size cfg fs' ≤ size cfg (f :: fs)) := by
  rw [size_cons, frameM_eq]
  have all : ∀ {n k : Nat}, n ≤ k → n ≤ k + 2 ∧ ((f.exiting = true ∨ ∀ s l, f.items ≠ .stmt s :: l) → n ≤ k) := fun h => ⟨by omega, fun _ => h⟩
  simp only [Lang.run] at h
  split at h
  · refine all ?_
    split at h
    · cases h; exact Nat.zero_le _
    · rename_i g gs
      cases h
      exact Nat.le_trans (size_le (Nat.le_refl (frameM cfg g)) (Nat.le_refl (size cfg gs))) (by rw [size_cons]; omega)
  · rename_i g l hi
    refine all ?_
    rw [hi, itemsM_cons]
    split at h
    · rename_i m1 more callee hd
      cases h
      have same : ∀ l', itemsM l' ≤ itemsM l → size cfg ({ f with items := l' } :: fs) ≤
          scopesM cfg f.scopes + ((itemMentions (.glue g : It V)).length + itemsM l) + optM cfg f.ret + size cfg fs := fun l' hl =>
        Nat.le_trans (size_le (frame_le (Nat.le_refl (scopesM cfg f.scopes)) hl (Nat.le_refl (optM cfg f.ret))) (Nat.le_refl (size cfg fs))) (by omega)
      cases g with
      | value v => cases hd; exact same _ (Nat.le_refl _)
      | unlock v => cases hd; exact same _ (Nat.le_refl _)
      | destroy b =>
        simp only [drop] at hd
        split at hd
        · rename_i c hc
          cases hd
          exact same _ (Nat.le_of_eq (by rw [hk]; rfl))
        · cases hd
      | dealloc b =>
        simp only [drop] at hd
        split at hd
        · cases hd; exact same _ (Nat.le_refl _)
        · cases hd
      | handle b =>
        cases hd
        have h1 : (itemMentions (.glue (.handle b) : It V)).length = 1 := rfl
        have h2 : frameM cfg { scopes := [[(.self, some (.ref b))]], items := dropCode.map .stmt ++ [.close] } = 1 := rfl
        exact Nat.le_trans (size_le (Nat.le_of_eq h2) (size_le (frame_le (Nat.le_refl (scopesM cfg f.scopes)) (Nat.le_refl (itemsM l)) (Nat.le_refl (optM cfg f.ret))) (Nat.le_refl (size cfg fs))))
          (by omega)
    · cases h
    · cases h
  · rename_i l hi
    refine all ?_
    rw [hi, itemsM_cons]
    split at h
    · rename_i sc scs hs
      cases h
      rw [hs, scopesM_cons]
      exact Nat.le_trans (size_le (frame_le (Nat.le_refl (scopesM cfg scs)) (append_le (scGlue_le hk sc) (Nat.le_refl (itemsM l))) (Nat.le_refl (optM cfg f.ret)))
        (Nat.le_refl (size cfg fs))) (by omega)
    · cases h
  · rename_i l' l hi
    refine all ?_
    have same : ∀ l', itemsM l' = itemsM l → size cfg ({ f with items := l' } :: fs) ≤
        scopesM cfg f.scopes + itemsM f.items + optM cfg f.ret + size cfg fs := fun l' hl => by
      have : itemsM f.items = itemsM l := by rw [hi]; rfl
      exact Nat.le_trans (size_le (frame_le (Nat.le_refl (scopesM cfg f.scopes)) (Nat.le_of_eq hl) (Nat.le_refl (optM cfg f.ret))) (Nat.le_refl (size cfg fs))) (by omega)
    split at h
    · cases h; exact same _ rfl
    · cases h; exact same _ rfl
  · rename_i s l hi
    have hitems : itemsM f.items = itemsM l := by rw [hi]; rfl
    split at h
    · cases h
      exact all (Nat.le_trans (size_le (frame_le (Nat.le_refl (scopesM cfg f.scopes)) (Nat.le_refl (itemsM l)) (Nat.le_refl (optM cfg f.ret))) (Nat.le_refl (size cfg fs))) (by omega))
    · rename_i he
      split at h
      · rename_i m1 f1 hd
        cases h
        have h2 := stmt_le hk hd
        refine ⟨Nat.le_trans (size_le h2 (Nat.le_refl _)) (by omega), fun hh => ?_⟩
        rcases hh with hh | hh
        · exact absurd hh he
        · exact absurd hi (hh s l)
      · cases h
      · cases h

omit hk [BEq V] [Hashable V] in
theorem params_le (hk : ∀ v, cfg.kids v = []) (c : Call V) : scM cfg (params c) = 0 := by
  cases h : c.dst <;> simp [params, h, scM, Val.mentions, hk]

omit hk [BEq V] [Hashable V] in
theorem taken_le (hk : ∀ v, cfg.kids v = []) (c : Call V) : scM cfg (taken c) = 0 := by
  cases h : c.dst <;> simp [taken, h, scM, Val.mentions, hk]

omit [BEq V] [Hashable V] in
/-- In `new` there are at most two. -/
theorem NewAt.small {scs : Scopes Var (Val V)} {items : List (It V)} {pc : Pc V} {r : Option Addr} (h : NewAt cfg scs items pc r) :
    scopesM cfg scs + itemsM items ≤ 2 := by
  have h1 : ∀ s : St, (itemMentions (.stmt s : It V)).length = 0 := fun _ => rfl
  have h2 : (itemMentions (.close : It V)).length = 0 := rfl
  have h3 : ∀ l, (itemMentions (.again l : It V)).length = 0 := fun _ => rfl
  have h4 : ∀ n, (itemMentions (.glue (.unlock n) : It V)).length = 0 := fun _ => rfl
  have h5 : itemsM ([] : List (It V)) = 0 := rfl
  have h6 : scM cfg ([] : List (Var × Option (Val V))) = 0 := rfl
  have h7 : scopesM cfg ([] : Scopes Var (Val V)) = 0 := rfl
  have h8 : ∀ (n : Nat) (b : Addr), optM cfg (some (.guard n b) : Option (Val V)) = 1 := fun _ _ => rfl
  have h9 : ∀ (b : Addr), optM cfg (some (.ref b) : Option (Val V)) = 1 := fun _ => rfl
  have h10 : ∀ (b : Addr), optM cfg (some (.handle b) : Option (Val V)) = 1 := fun _ => rfl
  have h11 : ∀ (n : Nat) (b : Addr), optM cfg (some (.vacant n b) : Option (Val V)) = 1 := fun _ _ => rfl
  have h12 : ∀ (n : Nat) (b : Addr), optM cfg (some (.occupied n b) : Option (Val V)) = 0 := fun _ _ => rfl
  have h13 : ∀ (b : Addr), optM cfg (some (.box b) : Option (Val V)) = 0 := fun _ => rfl
  have h14 : ∀ (b : Nat), optM cfg (some (.num b) : Option (Val V)) = 0 := fun _ => rfl
  have h15 : ∀ (v : V), optM cfg (some (.borrowed v) : Option (Val V)) = 0 := fun v => by simp [optM, Val.mentions, hk]
  cases h <;>
    simp only [rest, after, scopesM_cons, scM_cons, itemsM_cons, itemsM_append, itemsM_stmts, params_le hk, taken_le hk, optM_none,
      h1, h2, h3, h4, h5, h6, h7, h8, h9, h10, h11, h12, h13, h14, h15] <;> decide

omit hk in
/-- A step of `drop` adds none. -/
theorem DropAt.run_le {scs : Scopes Var (Val V)} {items : List (It V)} {pc : Pc V} (hd : DropAt scs items pc) {m m' : Mem V} {t : Tid} {a : Addr}
    {fs fs' : Stack V} {r : Option (Val V)} (h : (lang cfg).run m t a ({ scopes := scs, items := items } :: fs) = .ok (m', fs', r)) :
    size cfg fs' ≤ size cfg ({ scopes := scs, items := items } :: fs) := by
  have fin : ∀ {f f' : Frame Var (Val V) Op (Glue V)}, frameM cfg f' = 1 → frameM cfg f = 1 → size cfg (f' :: fs) ≤ size cfg (f :: fs) := by
    intro f f' h1 h2; rw [size_cons, size_cons]; omega
  have go : ∀ {s : St} {l : List (It V)} {scs : Scopes Var (Val V)} {m' : Mem V} {fs' : Stack V} {r : Option (Val V)},
      (lang cfg).run m t a ({ scopes := scs, items := .stmt s :: l } :: fs) = .ok (m', fs', r) →
      ∃ f', fs' = f' :: fs ∧ (lang cfg).stmt m t a { scopes := scs, items := .stmt s :: l } l s = .ok (m', f') := by
    intro s l scs m' fs' r h
    simp only [Lang.run, Bool.false_eq_true, if_false] at h
    split at h
    · rename_i f' hf
      cases h
      exact ⟨_, rfl, hf⟩
    · cases h
    · cases h
  cases hd with
  | sub =>
    obtain ⟨f', rfl, hs⟩ := go h
    simp only [Lang.stmt, exec, Scopes.get, scopeGet, if_true] at hs
    split at hs
    · rename_i d hd
      split at hd
      · cases hd; cases hs; exact fin rfl rfl
      · cases hd
    · cases hs
    · cases hs
  | @test b n =>
    obtain ⟨f', rfl, hs⟩ := go h
    by_cases hn : n = 1
    · subst hn; cases hs; exact fin rfl rfl
    · simp only [Lang.stmt, exec, dropVars, Scopes.get, scopeGet, if_true, hn, if_false] at hs
      cases hs; exact fin rfl rfl
  | yield => obtain ⟨f', rfl, hs⟩ := go h; cases hs; exact fin rfl rfl
  | fence => obtain ⟨f', rfl, hs⟩ := go h; cases hs; exact fin rfl rfl
  | uninit => obtain ⟨f', rfl, hs⟩ := go h; cases hs; exact fin rfl rfl
  | cont => obtain ⟨f', rfl, hs⟩ := go h; cases hs; exact fin rfl rfl
  | @remove b n =>
    obtain ⟨f', rfl, hs⟩ := go h
    have hg : Scopes.get .self [[(.remove, none), (.u, none)], dropVars b n] = (some (.ref b) : Option (Val V)) := rfl
    simp only [Lang.stmt, exec, hg] at hs
    split at hs
    · rename_i d hd
      (repeat' split at hd) <;> first | (cases hd; done) | (cases hd; cases hs; exact fin rfl rfl)
    · cases hs
    · cases hs

omit hk [BEq V] [Hashable V] in
/-- A function on its way out has no statement to run. -/
theorem wind_leaves {f : Frame Var (Val V) Op (Glue V)} {g : List (Glue V)} (h : wind cfg f.exiting f.scopes f.items = some g) :
    f.exiting = true ∨ ∀ s l, f.items ≠ .stmt s :: l := by
  cases he : f.exiting with
  | true => exact .inl rfl
  | false =>
    refine .inr fun s l hi => ?_
    rw [he, hi] at h
    cases hs : f.scopes <;> rw [hs] at h <;> cases h

omit hk [BEq V] [Hashable V] in
theorem Winds.no_stmt {f : Frame Var (Val V) Op (Glue V)} {fs : Stack V} {G : List (Glue V)} {r : Option Addr} (h : Winds cfg (f :: fs) G r) :
    f.exiting = true ∨ ∀ s l, f.items ≠ .stmt s :: l := by
  cases h with
  | last h _ => exact wind_leaves h
  | cons h _ _ => exact wind_leaves h

/-- At most four, always. -/
theorem Rel.small {fs fs' : Stack V} {th : Thread V} (hR : Rel cfg fs th) {m m' : Mem V} {t : Tid} {a : Addr} {r : Option (Val V)}
    (h : (lang cfg).run m t a fs = .ok (m', fs', r)) (hs : size cfg fs ≤ 4) : size cfg fs' ≤ 4 := by
  cases fs with
  | nil => cases h
  | cons f fs =>
    cases hR with
    | leave hw _ => exact Nat.le_trans ((ArcCode.run_le hk h).2 hw.no_stmt) hs
    | destroy hw _ => exact Nat.le_trans ((ArcCode.run_le hk h).2 hw.no_stmt) hs
    | unlock hw _ => exact Nat.le_trans ((ArcCode.run_le hk h).2 hw.no_stmt) hs
    | drop hd _ _ => exact Nat.le_trans (hd.run_le h) hs
    | new hn =>
      have h1 := (ArcCode.run_le hk h).1
      have h2 := hn.small hk
      rw [size_cons, frameM_eq] at h1
      simp only [optM_none, size_nil] at h1
      omega

end Src.ArcCode
