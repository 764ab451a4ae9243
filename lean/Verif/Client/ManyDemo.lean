import Verif.Client.Many
import Verif.Client.Demo
/-! Checked executions of programs that use several interners, used to show that the hypotheses of the theorems of C91 are met. -/
namespace Client
open Traits (Methods)
open Pool (Ptr)

/-! ### Orders -/

section
variable {V W : Type} [BEq V] [BEq W]

/-- All methods from one. -/
def ofCmp (c : V → V → Ordering) : Methods V :=
  { partialCmp := fun a b => some (c a b), lt := fun a b => c a b == .lt, le := fun a b => c a b != .gt, gt := fun a b => c a b == .gt,
    ge := fun a b => c a b != .lt, cmp := c }

theorem ofCmp_lawful {c : V → V → Ordering} (h1 : ∀ x y, c x y = .eq ↔ (x == y) = true) (h2 : ∀ x y, c y x = (c x y).swap)
    (h3 : ∀ x y z, c x y = .lt → c y z = .lt → c x z = .lt) : (ofCmp c).Lawful where
  eq := h1
  swap := h2
  trans := h3
  partial_ _ _ := rfl
  lt x y := by simp [ofCmp]
  le x y := by simp [ofCmp]
  gt x y := by simp [ofCmp]
  ge x y := by simp [ofCmp]

/-- Values of the first type come first. -/
def sumCmp (M : Methods V) (N : Methods W) : V ⊕ W → V ⊕ W → Ordering
  | .inl x, .inl y => M.cmp x y
  | .inr x, .inr y => N.cmp x y
  | .inl _, .inr _ => .lt
  | .inr _, .inl _ => .gt

theorem sum_lawful {M : Methods V} {N : Methods W} (hM : M.Lawful) (hN : N.Lawful) : (ofCmp (sumCmp M N)).Lawful := by
  refine ofCmp_lawful ?_ ?_ ?_
  · rintro (x | x) (y | y)
    · exact hM.eq x y
    · exact ⟨fun h => (by cases h), fun h => by cases h⟩
    · exact ⟨fun h => (by cases h), fun h => by cases h⟩
    · exact hN.eq x y
  · rintro (x | x) (y | y)
    · exact hM.swap x y
    · rfl
    · rfl
    · exact hN.swap x y
  · rintro (x | x) (y | y) (z | z) h h'
    · exact hM.trans x y z h h'
    · rfl
    · cases h'
    · rfl
    · cases h
    · cases h
    · cases h'
    · exact hN.trans x y z h h'

/-- By type first. -/
def pairCmp (M : Methods V) (a b : Nat × V) : Ordering := if a.1 < b.1 then .lt else if b.1 < a.1 then .gt else M.cmp a.2 b.2

theorem pair_lawful {M : Methods V} (hM : M.Lawful) : (ofCmp (pairCmp M)).Lawful := by
  refine ofCmp_lawful ?_ ?_ ?_
  · rintro ⟨a, x⟩ ⟨b, y⟩
    show pairCmp M (a, x) (b, y) = .eq ↔ (a == b && x == y) = true
    simp only [pairCmp, Bool.and_eq_true, beq_iff_eq]
    split
    · exact ⟨fun h => (by cases h), fun h => by omega⟩
    · split
      · exact ⟨fun h => (by cases h), fun h => by omega⟩
      · rw [hM.eq]; exact ⟨fun h => ⟨by omega, h⟩, fun h => h.2⟩
  · rintro ⟨a, x⟩ ⟨b, y⟩
    simp only [pairCmp]
    split
    · rw [if_neg (by omega)]; rfl
    · split
      · rfl
      · exact hM.swap x y
  · rintro ⟨a, x⟩ ⟨b, y⟩ ⟨c, z⟩
    simp only [pairCmp]
    intro h h'
    split at h
    · split at h'
      · rw [if_pos (by omega)]
      · split at h'
        · cases h'
        · rw [if_pos (by omega)]
    · split at h
      · cases h
      · split at h'
        · rw [if_pos (by omega)]
        · split at h'
          · cases h'
          · rw [if_neg (by omega), if_neg (by omega)]
            exact hM.trans x y z h h'
end

theorem mem_of_count {α : Type} [DecidableEq α] {l : List α} {x : α} (h : 0 < l.count x) : x ∈ l := List.count_pos_iff.mp h

/-! ### Several types -/

def poolsMachine (ks : List Nat) : Machine (pools Pool.Demo.cfg (· ∈ ks)) where
  Lbl := Src.PoolCode.Cmd
  step S c := okOf (Src.PoolCode.step Pool.Demo.cfg S c.act)
  idle S t := empty S.threads[t]?
  owns S l := (ks.all fun k => !decide (k ∈ S.gone)) && l.all fun p => decide (p.1 ∈ ks) && decide (p.2 ∈ poolHandles p.1 S)
  call S t x := if x.1 ∈ ks then (poolMachine x.1).call S t x.2 else none
  ret S t a := ks.findSome? fun k => match poolRet k S t a with
    | some (p, S') => some ((k, p), S')
    | none => none
  clone S t _ := if empty S.threads[t]? then some S else none
  drop S t _ := if empty S.threads[t]? then some S else none
  step_ok := by
    intro S c S' h
    exact ⟨c.act, c.lawful, okOf_some h⟩
  idle_ok := empty_iff
  owns_ok := by
    intro S l h
    obtain ⟨h1, h2⟩ := Bool.and_eq_true_iff.mp h
    refine ⟨fun k hk => by simpa using List.all_eq_true.mp h1 k hk, fun p hp => ?_⟩
    obtain ⟨h3, h4⟩ := Bool.and_eq_true_iff.mp (List.all_eq_true.mp h2 p (mem_of_count hp))
    exact ⟨of_decide_eq_true h3, poolHandles_ok (of_decide_eq_true h4)⟩
  call_ok := by
    intro S t x S' h
    obtain ⟨hk, h⟩ := if_some h
    exact ⟨hk, (poolMachine x.1).call_ok h⟩
  ret_ok := by
    intro S t a b S' h
    obtain ⟨k, hk, h⟩ := List.exists_of_findSome?_eq_some h
    split at h
    · rename_i p S1 hr
      cases h; exact ⟨hk, poolRet_ok hr⟩
    · cases h
  clone_ok := by
    intro S t p S' h
    obtain ⟨hi, h⟩ := if_some h
    cases h; exact ⟨empty_iff.mp hi, rfl⟩
  drop_ok := by
    intro S t p S' h
    obtain ⟨hi, h⟩ := if_some h
    cases h; exact ⟨empty_iff.mp hi, rfl⟩

open Src.NewCode (dcfg)

/-- Types 0, 1 and 2. -/
def newInternsMachine : Machine (newInterns dcfg) where
  Lbl := Src.NewCode.Cmd
  step S c := okOf (Src.NewCode.step dcfg S c.act)
  idle S t := empty S.threads[t]?
  owns S l := l.all fun p => decide (p.2 ∈ newHandles p.1 S)
  call S t x := (newMachine x.1).call S t x.2
  ret S t a := [0, 1, 2].findSome? fun k => match newRet k S t a with
    | some (p, S') => some ((k, p), S')
    | none => none
  clone S t _ := if empty S.threads[t]? then some S else none
  drop S t _ := if empty S.threads[t]? then some S else none
  step_ok := by
    intro S c S' h
    exact ⟨c.act, c.lawful, okOf_some h⟩
  idle_ok := empty_iff
  owns_ok := by
    intro S l h p hp
    exact newHandles_ok (of_decide_eq_true (List.all_eq_true.mp h p (mem_of_count hp)))
  call_ok := by
    intro S t x S' h
    exact (newMachine x.1).call_ok h
  ret_ok := by
    intro S t a b S' h
    obtain ⟨k, hk, h⟩ := List.exists_of_findSome?_eq_some h
    split at h
    · rename_i p S1 hr
      cases h; exact newRet_ok hr
    · cases h
  clone_ok := by
    intro S t p S' h
    obtain ⟨hi, h⟩ := if_some h
    cases h; exact ⟨empty_iff.mp hi, rfl⟩
  drop_ok := by
    intro S t p S' h
    obtain ⟨hi, h⟩ := if_some h
    cases h; exact ⟨empty_iff.mp hi, rfl⟩

/-! ### Two interners -/

section
variable {V W P Q : Type} [DecidableEq P] [DecidableEq Q] {I : Interner V P} {J : Interner W Q}

def nestedB (K : Machine I) (L : Machine J) (s : Both I.State J.State) : Bool := s.outer.all fun e => match s.who e.1 with
  | some false => !K.idle s.fst e.1 || L.idle s.snd e.1
  | some true => !L.idle s.snd e.1 || K.idle s.fst e.1
  | none => true

theorem lookup_mem {l : List (Tid × Bool)} {t : Tid} {b : Bool} (h : l.lookup t = some b) : (t, b) ∈ l := by
  induction l with
  | nil => cases h
  | cons e l ih =>
    obtain ⟨u, c⟩ := e
    rw [List.lookup_cons] at h
    by_cases hu : (t == u) = true
    · rw [hu] at h
      cases h; rw [eq_of_beq hu]; exact List.mem_cons_self
    · rw [Bool.eq_false_iff.mpr hu] at h
      exact List.mem_cons_of_mem _ (ih h)

theorem nestedB_ok {K : Machine I} {L : Machine J} {s : Both I.State J.State} (h : nestedB K L s = true) : Both.Nested I J s := by
  intro t
  refine ⟨fun e hi => ?_, fun e hi => ?_⟩
  · have := List.all_eq_true.mp h _ (lookup_mem e)
    simp only [e, K.idle_ok.mpr hi, Bool.not_true, Bool.false_or] at this
    exact L.idle_ok.mp this
  · have := List.all_eq_true.mp h _ (lookup_mem e)
    simp only [e, L.idle_ok.mpr hi, Bool.not_true, Bool.false_or] at this
    exact K.idle_ok.mp this

theorem count_part {α β : Type} [DecidableEq α] [DecidableEq β] (f : α → Option β) (g : β → α) (h : ∀ a b, f a = some b ↔ a = g b) (l : List α) (b : β) :
    (l.filterMap f).count b = l.count (g b) := by
  induction l with
  | nil => rfl
  | cons a l ih =>
    rw [List.count_cons]
    cases hf : f a with
    | none =>
      rw [List.filterMap_cons_none hf, ih, if_neg, Nat.add_zero]
      intro e
      have := (h a b).mpr (eq_of_beq e)
      rw [hf] at this; cases this
    | some c =>
      rw [List.filterMap_cons_some hf, List.count_cons, ih]
      congr 1
      have ha := (h a c).mp hf
      by_cases hc : c = b
      · rw [if_pos (by simpa using hc), if_pos (by simp [ha, hc])]
      · rw [if_neg (by simpa using hc), if_neg]
        intro e
        have := (h a b).mpr (eq_of_beq e)
        rw [hf] at this; exact hc (Option.some.inj this)

theorem count_left (l : List (P ⊕ Q)) (p : P) : (l.filterMap Sum.getLeft?).count p = @List.count _ instBEqOfDecidableEq (.inl p) l :=
  count_part Sum.getLeft? Sum.inl (by rintro (a | a) b <;> simp) l p

theorem count_right (l : List (P ⊕ Q)) (p : Q) : (l.filterMap Sum.getRight?).count p = @List.count _ instBEqOfDecidableEq (.inr p) l :=
  count_part Sum.getRight? Sum.inr (by rintro (a | a) b <;> simp) l p

def prodStep (K : Machine I) (L : Machine J) (s : Both I.State J.State) : K.Lbl ⊕ L.Lbl → Option (Both I.State J.State)
  | .inl l => match K.step s.fst l with
    | some x => if nestedB K L { s with fst := x } then some { s with fst := x } else none
    | none => none
  | .inr l => match L.step s.snd l with
    | some x => if nestedB K L { s with snd := x } then some { s with snd := x } else none
    | none => none

theorem prodStep_ok {K : Machine I} {L : Machine J} {s s' : Both I.State J.State} {l : K.Lbl ⊕ L.Lbl} (h : prodStep K L s l = some s') :
    (prod I J).Step s s' := by
  cases l with
  | inl l =>
    simp only [prodStep] at h
    split at h
    · rename_i x hx
      obtain ⟨hn, h⟩ := if_some h
      cases h
      exact ⟨.inl ⟨K.step_ok hx, rfl⟩, fun _ _ => rfl, nestedB_ok hn⟩
    · cases h
  | inr l =>
    simp only [prodStep] at h
    split at h
    · rename_i x hx
      obtain ⟨hn, h⟩ := if_some h
      cases h
      exact ⟨.inr (.inl ⟨L.step_ok hx, rfl⟩), fun _ _ => rfl, nestedB_ok hn⟩
    · cases h

def prodRet (K : Machine I) (L : Machine J) (s : Both I.State J.State) (t a : Nat) : Option ((P ⊕ Q) × Both I.State J.State) :=
  match s.who t with
  | some false => match K.ret s.fst t a with
    | some (p, x) => if L.idle s.snd t then some (.inl p, { s with fst := x }) else none
    | none => none
  | some true => match L.ret s.snd t a with
    | some (p, x) => if K.idle s.fst t then some (.inr p, { s with snd := x }) else none
    | none => none
  | none => none

theorem prodRet_ok {K : Machine I} {L : Machine J} {s s' : Both I.State J.State} {t a : Nat} {b : P ⊕ Q} (h : prodRet K L s t a = some (b, s')) :
    (prod I J).Returns s t b s' := by
  unfold prodRet at h
  split at h
  · rename_i hw
    split at h
    · rename_i p x hr
      obtain ⟨hi, h⟩ := if_some h
      cases h; exact ⟨K.ret_ok hr, L.idle_ok.mp hi, rfl, hw, rfl⟩
    · cases h
  · rename_i hw
    split at h
    · rename_i p x hr
      obtain ⟨hi, h⟩ := if_some h
      cases h; exact ⟨L.ret_ok hr, K.idle_ok.mp hi, rfl, hw, rfl⟩
    · cases h
  · cases h

theorem map_some {α β : Type} {f : α → β} {o : Option α} {y : β} (h : o.map f = some y) : ∃ x, o = some x ∧ f x = y := Option.map_eq_some_iff.mp h

def prodMachine (K : Machine I) (L : Machine J) : Machine (prod I J) where
  Lbl := K.Lbl ⊕ L.Lbl
  step := prodStep K L
  idle s t := K.idle s.fst t && L.idle s.snd t
  owns s l := K.owns s.fst (l.filterMap Sum.getLeft?) && L.owns s.snd (l.filterMap Sum.getRight?)
  call s t x := match x with
    | .inl v => if L.idle s.snd t then (K.call s.fst t v).map fun x => ⟨x, s.snd, (t, false) :: s.outer⟩ else none
    | .inr v => if K.idle s.fst t then (L.call s.snd t v).map fun x => ⟨s.fst, x, (t, true) :: s.outer⟩ else none
  ret := prodRet K L
  clone s t p := match p with
    | .inl v => if L.idle s.snd t then (K.clone s.fst t v).map fun x => ⟨x, s.snd, s.outer⟩ else none
    | .inr v => if K.idle s.fst t then (L.clone s.snd t v).map fun x => ⟨s.fst, x, s.outer⟩ else none
  drop s t p := match p with
    | .inl v => if L.idle s.snd t then (K.drop s.fst t v).map fun x => ⟨x, s.snd, (t, false) :: s.outer⟩ else none
    | .inr v => if K.idle s.fst t then (L.drop s.snd t v).map fun x => ⟨s.fst, x, (t, true) :: s.outer⟩ else none
  step_ok := prodStep_ok
  idle_ok := by
    intro s t
    rw [Bool.and_eq_true_iff, K.idle_ok, L.idle_ok]; exact Iff.rfl
  owns_ok := by
    intro s l h
    obtain ⟨h1, h2⟩ := Bool.and_eq_true_iff.mp h
    refine ⟨?_, ?_⟩
    · have := K.owns_ok h1
      rwa [funext (count_left l)] at this
    · have := L.owns_ok h2
      rwa [funext (count_right l)] at this
  call_ok := by
    rintro s t (v | v) s' h
    · obtain ⟨hi, h⟩ := if_some h
      obtain ⟨x, hx, rfl⟩ := map_some h
      exact ⟨K.call_ok hx, L.idle_ok.mp hi, rfl, rfl⟩
    · obtain ⟨hi, h⟩ := if_some h
      obtain ⟨x, hx, rfl⟩ := map_some h
      exact ⟨L.call_ok hx, K.idle_ok.mp hi, rfl, rfl⟩
  ret_ok := prodRet_ok
  clone_ok := by
    rintro s t (v | v) s' h
    · obtain ⟨hi, h⟩ := if_some h
      obtain ⟨x, hx, rfl⟩ := map_some h
      exact ⟨K.clone_ok hx, L.idle_ok.mp hi, rfl, rfl⟩
    · obtain ⟨hi, h⟩ := if_some h
      obtain ⟨x, hx, rfl⟩ := map_some h
      exact ⟨L.clone_ok hx, K.idle_ok.mp hi, rfl, rfl⟩
  drop_ok := by
    rintro s t (v | v) s' h
    · obtain ⟨hi, h⟩ := if_some h
      obtain ⟨x, hx, rfl⟩ := map_some h
      exact ⟨K.drop_ok hx, L.idle_ok.mp hi, rfl, rfl⟩
    · obtain ⟨hi, h⟩ := if_some h
      obtain ⟨x, hx, rfl⟩ := map_some h
      exact ⟨L.drop_ok hx, K.idle_ok.mp hi, rfl, rfl⟩

end
end Client
