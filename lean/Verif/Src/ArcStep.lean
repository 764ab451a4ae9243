import Verif.Src.ArcSim
/-
Each step of the code (`Verif/Src/ArcCode.lean`) is a step of the model or none at all.
-/
namespace Src.ArcCode
open Arc (Addr Tid Cell Cfg Res Call Pc Thread)

variable {V : Type}

/-! ### Memory -/

theorem get_live (h : List (Addr × Cell V)) (D : List Addr) (b : Addr) :
    Arc.get (h.filter fun e => decide (e.1 ∉ D)) b = if b ∈ D then none else Arc.get h b := by
  induction h with
  | nil => simp [Arc.get]
  | cons e h ih =>
    obtain ⟨k, c⟩ := e
    rw [List.filter_cons]
    by_cases hk : k ∈ D
    · simp only [hk, not_true_eq_false, decide_false, Bool.false_eq_true, if_false, ih, Arc.get]
      by_cases hkb : k = b
      · subst hkb; simp [hk]
      · simp [hkb]
    · simp only [hk, not_false_eq_true, decide_true, if_true, Arc.get, ih]
      by_cases hkb : k = b
      · subst hkb; simp [hk]
      · simp [hkb]

theorem setCount_live (h : List (Addr × Cell V)) (D : List Addr) (b n : Nat) :
    Arc.setCount (h.filter fun e => decide (e.1 ∉ D)) b n = (Arc.setCount h b n).filter fun e => decide (e.1 ∉ D) := by
  rw [Arc.setCount, Arc.setCount, List.filter_map]
  congr 2; funext e
  by_cases hb : e.1 = b <;> simp [hb]

theorem free_live (h : List (Addr × Cell V)) (D : List Addr) (b : Addr) :
    Arc.free (h.filter fun e => decide (e.1 ∉ D)) b = (Arc.free h b).filter fun e => decide (e.1 ∉ D) := by
  simp only [Arc.free, List.filter_filter]
  congr 1; funext e; simp [Bool.and_comm]

theorem keys_live {h : List (Addr × Cell V)} {D : List Addr} {b : Addr} (hb : b ∈ Arc.keys (h.filter fun e => decide (e.1 ∉ D))) :
    b ∈ Arc.keys h ∧ b ∉ D := by
  simp only [Arc.keys, List.mem_map, List.mem_filter, decide_eq_true_eq] at hb ⊢
  obtain ⟨e, ⟨h1, h2⟩, rfl⟩ := hb
  exact ⟨⟨e, h1, rfl⟩, h2⟩

section
variable [BEq V] [Hashable V] {cfg : Cfg V} {D : List Addr} {m : Mem V} {s : Arc.State V}

theorem Shared.get (h : Shared D m s) {b : Addr} {x : Cell V} (hb : Arc.get s.heap b = some x) : Arc.get m.heap b = some x ∧ b ∉ D := by
  rw [h.heap, get_live] at hb
  split at hb
  · cases hb
  · exact ⟨hb, by assumption⟩

theorem Shared.tableOk (h : Shared D m s) (hs : Arc.tableOk s = true) : Arc.tableOk m.view = true := by
  simp only [Arc.tableOk, List.all_eq_true, h.table, Mem.view] at hs ⊢
  intro b hb
  have := hs b hb
  cases hg : Arc.get s.heap b with
  | none => rw [hg] at this; cases this
  | some x => rw [(h.get hg).1]; rfl

theorem Shared.find (h : Shared D m s) (hs : Arc.tableOk s = true) (v : V) : Arc.find m.view v = Arc.find s v := by
  simp only [Arc.tableOk, List.all_eq_true] at hs
  simp only [Arc.find, Mem.view, ← h.table]
  have : ∀ l : List Addr, (∀ b ∈ l, (Arc.get s.heap b).isSome = true) →
      l.find? (fun b => match Arc.get m.heap b with | some c => Arc.keyEq c.data v | none => false) =
      l.find? (fun b => match Arc.get s.heap b with | some c => Arc.keyEq c.data v | none => false) := by
    intro l
    induction l with
    | nil => intro _; rfl
    | cons b l ih =>
      intro hl
      have hb := hl b (by simp)
      cases hg : Arc.get s.heap b with
      | none => rw [hg] at hb; cases hb
      | some x => simp only [List.find?_cons, (h.get hg).1, hg, ih (fun b hb => hl b (by simp [hb]))]
  exact this _ hs

end

/-! ### Functions on their way out -/

theorem wind_exiting {cfg : Cfg V} {e e' : Bool} {scs : Scopes Var (Val V)} {l : List (It V)} {G : List (Glue V)} (h : wind cfg e scs l = some G)
    (he : e = true → e' = true) : wind cfg e' scs l = some G := by
  induction l generalizing scs G with
  | nil => cases scs <;> simpa [wind] using h
  | cons i l ih =>
    cases i with
    | glue g =>
      cases scs <;> (simp only [wind, Option.map_eq_some_iff] at h ⊢; obtain ⟨G', h1, h2⟩ := h; exact ⟨G', ih h1, h2⟩)
    | close =>
      cases scs with
      | nil => cases h
      | cons sc scs => simp only [wind, Option.map_eq_some_iff] at h ⊢; obtain ⟨G', h1, h2⟩ := h; exact ⟨G', ih h1, h2⟩
    | again l' =>
      cases e with
      | false => cases scs <;> cases h
      | true => rw [he rfl]; cases scs <;> (simp only [wind, if_true] at h ⊢; have := ih h; rw [he rfl] at this; exact this)
    | stmt s' =>
      cases e with
      | false => cases scs <;> cases h
      | true => rw [he rfl]; cases scs <;> (simp only [wind, if_true] at h ⊢; have := ih h; rw [he rfl] at this; exact this)

theorem wind_glue (cfg : Cfg V) (e : Bool) (scs : Scopes Var (Val V)) (g : Glue V) (l : List (It V)) :
    wind cfg e scs (.glue g :: l) = (wind cfg e scs l).map (g :: ·) := by
  cases scs <;> rfl

theorem wind_glues (cfg : Cfg V) (e : Bool) (scs : Scopes Var (Val V)) (gs : List (Glue V)) (l : List (It V)) :
    wind cfg e scs (gs.map .glue ++ l) = (wind cfg e scs l).map (gs ++ ·) := by
  induction gs with
  | nil => simp
  | cons g gs ih =>
    rw [List.map_cons, List.cons_append, wind_glue, ih, Option.map_map]; rfl

theorem deallocsOf_append (l l' : List (It V)) : deallocsOf (l ++ l') = deallocsOf l ++ deallocsOf l' := by
  simp [deallocsOf]

/-- The glue of a variable never releases memory directly. -/
theorem deallocsOf_glue (cfg : Cfg V) (v : Val V) : deallocsOf ((glue cfg v).map .glue) = [] := by
  cases v with
  | owned v =>
    simp only [glue, deallocsOf, List.filterMap_eq_nil_iff]; intro i hi; simp at hi
    rcases hi with rfl | ⟨b, _, rfl⟩ <;> rfl
  | optBox o => cases o <;> rfl
  | _ => rfl

theorem deallocsOf_scGlue (cfg : Cfg V) (sc : List (Var × Option (Val V))) : deallocsOf ((scGlue cfg sc).map .glue) = [] := by
  induction sc with
  | nil => rfl
  | cons x sc ih =>
    obtain ⟨x, v⟩ := x
    have : scGlue cfg ((x, v) :: sc) = v.toList.flatMap (glue cfg) ++ scGlue cfg sc := rfl
    rw [this, List.map_append, deallocsOf_append, ih, List.append_nil]
    cases v with
    | none => rfl
    | some v => simpa using deallocsOf_glue cfg v

theorem Winds.tail {cfg : Cfg V} {f : Frame Var (Val V) Op (Glue V)} {fs : Stack V} {G : List (Glue V)} {r : Option Addr}
    (h : Winds cfg (f :: fs) G r) : ∃ g G', G = g ++ G' ∧ wind cfg f.exiting f.scopes f.items = some g ∧
      (∀ (f' : Frame Var (Val V) Op (Glue V)) (g' : List (Glue V)), wind cfg f'.exiting f'.scopes f'.items = some g' → f'.ret = f.ret →
        Winds cfg (f' :: fs) (g' ++ G') r) ∧ (fs = [] → G' = [] ∧ f.ret = r.map .handle) ∧
      (∀ f2 fs', fs = f2 :: fs' → f.ret = none ∧ Winds cfg fs G' r) := by
  cases h with
  | last h1 h2 =>
    refine ⟨G, [], by simp, h1, fun f' g' h3 h4 => ?_, fun _ => ⟨rfl, h2⟩, fun _ _ e => by cases e⟩
    rw [List.append_nil]; exact .last h3 (h4.trans h2)
  | cons h1 h2 h3 =>
    refine ⟨_, _, rfl, h1, fun f' g' h4 h5 => .cons h4 (h5.trans h2) h3, (by intro e; cases e), fun f2 fs' e => ⟨h2, h3⟩⟩

theorem Winds.panicking {cfg : Cfg V} {f : Frame Var (Val V) Op (Glue V)} {fs : Stack V} {G : List (Glue V)} {r : Option Addr}
    (h : Winds cfg (f :: fs) G r) (e p : Bool) : Winds cfg ({ f with exiting := f.exiting || e, panicking := p } :: fs) G r := by
  obtain ⟨g, G', rfl, h1, h2, _⟩ := h.tail
  exact h2 _ g (wind_exiting h1 (by intro h; simp [h])) rfl

theorem lt_eq_trans {a b c : Nat} (h : a = b) (h' : b < c) : a < c := h ▸ h'

theorem wind_slack {cfg : Cfg V} {scs : Scopes Var (Val V)} {l : List (It V)} {g : List (Glue V)} (h : wind cfg false scs l = some g) : slack l = 0 := by
  induction l generalizing scs g with
  | nil => rfl
  | cons i l ih =>
    cases i with
    | glue g =>
      rw [wind_glue, Option.map_eq_some_iff] at h
      obtain ⟨G', h1, _⟩ := h
      exact ih h1
    | close =>
      cases scs with
      | nil => cases h
      | cons sc scs =>
        simp only [wind, Option.map_eq_some_iff] at h
        obtain ⟨G', h1, _⟩ := h
        exact ih h1
    | again l' => cases scs <;> cases h
    | stmt s' => cases scs <;> cases h

theorem wind_cost {cfg : Cfg V} {f : Frame Var (Val V) Op (Glue V)} {g : List (Glue V)} (h : wind cfg f.exiting f.scopes f.items = some g) :
    cost cfg f = f.items.length + (f.scopes.map fun sc => (scGlue cfg sc).length).sum + 1 := by
  cases he : f.exiting with
  | true => simp [cost, he]
  | false => rw [he] at h; simp [cost, he, wind_slack h]

theorem work_cons (cfg : Cfg V) (f : Frame Var (Val V) Op (Glue V)) (fs : Stack V) : work cfg (f :: fs) = cost cfg f + work cfg fs := by
  simp [work]

section
variable [BEq V] [Hashable V] {cfg : Cfg V}

/-- One step of a thread all of whose functions are on their way out. -/
theorem Winds.step {f : Frame Var (Val V) Op (Glue V)} {fs : Stack V} {G : List (Glue V)} {r : Option Addr} (h : Winds cfg (f :: fs) G r)
    (m : Mem V) (t : Tid) (a : Addr) :
    (fs = [] ∧ G = [] ∧ (lang cfg).run m t a (f :: fs) = .ok (m, [], r.map .handle)) ∨
    (∃ fs', (lang cfg).run m t a (f :: fs) = .ok (m, fs', none) ∧ Winds cfg fs' G r ∧ dying fs' = dying (f :: fs) ∧
      fs'.length ≤ (f :: fs).length ∧ work cfg fs' < work cfg (f :: fs)) ∨
    (∃ g G' l, G = g :: G' ∧ f.items = .glue g :: l ∧
      ∀ gs : List (Glue V), Winds cfg ({ f with items := gs.map .glue ++ l } :: fs) (gs ++ G') r) := by
  obtain ⟨g, G', rfl, hw, hnew, hlast, hcons⟩ := h.tail
  have hcost := wind_cost hw
  cases hi : f.items with
  | nil =>
    rw [hi] at hw
    have hg : g = [] := by cases hs : f.scopes <;> simp [hs, wind] at hw <;> exact hw
    subst hg
    cases fs with
    | nil =>
      obtain ⟨rfl, hr⟩ := hlast rfl
      exact .inl ⟨rfl, rfl, by simp [Lang.run, hi, hr]⟩
    | cons f2 fs' =>
      obtain ⟨hr, hw2⟩ := hcons f2 fs' rfl
      refine .inr (.inl ⟨_, by simp only [Lang.run, hi]; rfl, ?_, ?_, by simp, ?_⟩)
      · exact hw2.panicking _ _
      · simp [dying, hi, deallocsOf]
      · refine lt_eq_trans (work_cons cfg _ _) ?_
        simp only [work_cons, hcost]
        have : cost cfg { f2 with exiting := f2.exiting || f.panicking, panicking := f2.panicking || f.panicking } ≤ cost cfg f2 := by
          cases h1 : f2.exiting <;> cases h2 : f.panicking <;> simp [cost, h1]
        omega
  | cons i l =>
    rw [hi] at hw
    cases i with
    | glue g0 =>
      rw [wind_glue, Option.map_eq_some_iff] at hw
      obtain ⟨g1, hw, rfl⟩ := hw
      refine .inr (.inr ⟨g0, g1 ++ G', l, rfl, rfl, fun gs => ?_⟩)
      rw [← List.append_assoc]
      exact hnew _ _ (by simp only [wind_glues, hw]; rfl) rfl
    | close =>
      cases hs : f.scopes with
      | nil => rw [hs] at hw; cases hw
      | cons sc scs =>
        rw [hs] at hw
        simp only [wind, Option.map_eq_some_iff] at hw
        obtain ⟨g1, hw, rfl⟩ := hw
        refine .inr (.inl ⟨_, by simp only [Lang.run, hi, hs]; rfl, ?_, ?_, by simp, ?_⟩)
        rotate_left 2
        · have h2 := wind_cost (cfg := cfg) (f := { f with scopes := scs, items := (lang cfg).scopeGlue sc ++ l }) (g := _)
            (by simp only [Lang.scopeGlue]; rw [wind_glues, hw]; rfl)
          rw [hi, hs] at hcost
          refine lt_eq_trans (work_cons cfg _ _) ?_
          refine lt_eq_trans (congrArg (· + work cfg fs) h2) ?_
          simp only [work_cons, hcost]
          simp only [Lang.scopeGlue, scGlue, List.length_append, List.length_map, List.length_cons, List.map_cons, List.sum_cons]
          omega
        · exact hnew _ _ (by simp only [Lang.scopeGlue]; rw [wind_glues, hw]; rfl) rfl
        · simp only [dying, List.flatMap_cons, hi, Lang.scopeGlue]
          rw [deallocsOf_append]
          have := deallocsOf_scGlue cfg sc
          unfold scGlue at this
          rw [this]; simp [deallocsOf]
    | again l' =>
      cases he : f.exiting with
      | false => rw [he] at hw; cases hs : f.scopes <;> rw [hs] at hw <;> cases hw
      | true =>
        rw [he] at hw
        have hw : wind cfg true f.scopes l = some g := by cases hs : f.scopes <;> rw [hs] at hw <;> simpa [wind] using hw
        refine .inr (.inl ⟨_, by simp only [Lang.run, hi, he, if_true]; rfl, ?_, ?_, by simp, ?_⟩)
        rotate_left 2
        · have h2 := wind_cost (cfg := cfg) (f := { f with items := l }) (by simp only [he]; exact hw)
          rw [hi] at hcost
          refine lt_eq_trans (work_cons cfg _ _) ?_
          simp only [he] at h2
          refine lt_eq_trans (congrArg (· + work cfg fs) h2) ?_
          simp only [work_cons, hcost, List.length_cons]
          omega
        · exact hnew _ _ (by simp only [he]; exact hw) rfl
        · simp [dying, hi, deallocsOf]
    | stmt s' =>
      cases he : f.exiting with
      | false => rw [he] at hw; cases hs : f.scopes <;> rw [hs] at hw <;> cases hw
      | true =>
        rw [he] at hw
        have hw : wind cfg true f.scopes l = some g := by cases hs : f.scopes <;> rw [hs] at hw <;> simpa [wind] using hw
        refine .inr (.inl ⟨_, by simp only [Lang.run, hi, he, if_true]; rfl, ?_, ?_, by simp, ?_⟩)
        rotate_left 2
        · have h2 := wind_cost (cfg := cfg) (f := { f with items := l }) (by simp only [he]; exact hw)
          rw [hi] at hcost
          refine lt_eq_trans (work_cons cfg _ _) ?_
          simp only [he] at h2
          refine lt_eq_trans (congrArg (· + work cfg fs) h2) ?_
          simp only [work_cons, hcost, List.length_cons]
          omega
        · exact hnew _ _ (by simp only [he]; exact hw) rfl
        · simp [dying, hi, deallocsOf]

end

end Src.ArcCode
