import Verif.Client.Arc
import Verif.Client.Pool
import Verif.Src.ArcHeldDemo
import Verif.Src.ArcHeldInv
import Verif.Src.PoolDemo
import Verif.Src.NewDemo
import Verif.Props.Traits
/-! Checked executions of programs, used to show that the hypotheses of the theorems of C90 are met. -/
namespace Client
open Traits (Methods)

/-! ### Running a program -/

section
variable {V R P : Type} [DecidableEq P]

/-- An interner whose steps can be computed. -/
structure Machine (I : Interner V P) where
  Lbl : Type
  step : I.State → Lbl → Option I.State
  idle : I.State → Tid → Bool
  owns : I.State → List P → Bool
  call : I.State → Tid → V → Option I.State
  ret : I.State → Tid → Nat → Option (P × I.State)
  clone : I.State → Tid → P → Option I.State
  drop : I.State → Tid → P → Option I.State
  step_ok : ∀ {s l s'}, step s l = some s' → I.Step s s'
  idle_ok : ∀ {s t}, idle s t = true ↔ I.idle s t
  owns_ok : ∀ {s l}, owns s l = true → I.Owns s fun p => l.count p
  call_ok : ∀ {s t v s'}, call s t v = some s' → I.Calls s t v s'
  ret_ok : ∀ {s t a b s'}, ret s t a = some (b, s') → I.Returns s t b s'
  clone_ok : ∀ {s t p s'}, clone s t p = some s' → I.Clones s t p s'
  drop_ok : ∀ {s t p s'}, drop s t p = some s' → I.Drops s t p s'

/-- What a thread does without a call. -/
def lookF (d : P → Option V) (M : Methods V) (th : Thread V R P) (qs : List (List P)) : Option (Thread V R P × List (List P)) :=
  match th.prog with
  | .eq i j k => match th.locals[i]?, th.locals[j]? with
    | some (some p), some (some q) => some ({ th with prog := k (Traits.eq p q) }, qs)
    | _, _ => none
  | .cmp i j k => match th.locals[i]?, th.locals[j]? with
    | some (some p), some (some q) => match Traits.cmp d M p q with
      | some o => some ({ th with prog := k o }, qs)
      | none => none
    | _, _ => none
  | .read i k => match th.locals[i]? with
    | some (some p) => match d p with
      | some x => some ({ th with prog := k x }, qs)
      | none => none
    | _ => none
  | .give q i k => match th.locals[i]?, qs[q]? with
    | some (some p), some l => some ({ th with prog := k, locals := th.locals.set i none }, qs.set q (l ++ [p]))
    | _, _ => none
  | .take q k => match qs[q]? with
    | some (p :: l) => some ({ th with prog := k, locals := th.locals ++ [some p] }, qs.set q l)
    | _ => none
  | _ => none

theorem lookF_ok {I : Interner V P} {M : Methods V} {s : I.State} {th th' : Thread V R P} {qs qs' : List (List P)}
    (h : lookF (I.deref s) M th qs = some (th', qs')) : Look (I.view M s) th qs th' qs' := by
  unfold lookF at h
  split at h
  · rename_i i j k e
    split at h
    · rename_i p q h1 h2
      cases h; exact .eq e h1 h2 rfl
    · cases h
  · rename_i i j k e
    split at h
    · rename_i p q h1 h2
      split at h
      · rename_i o ho
        cases h; exact .cmp e h1 h2 ho
      · cases h
    · cases h
  · rename_i i k e
    split at h
    · rename_i p h1
      split at h
      · rename_i x hx
        cases h; exact .read e h1 hx
      · cases h
    · cases h
  · rename_i q i k e
    split at h
    · rename_i p l h1 h2
      cases h; exact .give e h1 h2
    · cases h
  · rename_i q k e
    split at h
    · rename_i p l h1
      cases h; exact .take e h1
    · cases h
  · cases h

/-- Events of an execution. -/
inductive Ev (L : Type)
  | inside (l : L)
  | look (t : Nat)
  | call (t : Nat)
  | ret (t a : Nat)
  | clone (t : Nat)
  | drop (t : Nat)
  | dropped (t : Nat)

/-- Everything that a program owns. -/
def Conf.all (c : Conf V R P) : List P := (c.threads.flatMap fun th => th.locals.filterMap id) ++ c.queues.flatten

theorem count_filterMap (l : List (Option P)) (p : P) : (l.filterMap id).count p = l.count (some p) := by
  induction l with
  | nil => rfl
  | cons o l ih =>
    cases o with
    | none => simpa using ih
    | some q =>
      rw [List.filterMap_cons_some (by rfl : id (some q) = some q), List.count_cons, List.count_cons, ih]
      simp

theorem held_all (c : Conf V R P) (p : P) : c.held p = c.all.count p := by
  simp only [Conf.held, Conf.all, List.count_append, List.count_flatMap, List.count_flatten]
  congr 2
  apply List.map_congr_left
  intro th _
  exact (count_filterMap th.locals p).symm

variable {I : Interner V P}

/-- One event. -/
def play1 (K : Machine I) (M : Methods V) (w : World I R) : Ev K.Lbl → Option (World I R)
  | .inside l => match K.step w.state l with
    | some s => if (List.range w.conf.threads.length).all (fun t => match w.conf.threads[t]? with
          | some th => decide (th.phase = .dropping) || K.idle w.state t == K.idle s t
          | none => true) && K.owns s w.conf.all then
        some ⟨s, w.conf⟩ else none
    | none => none
  | .look t => match w.conf.threads[t]? with
    | some th => if th.phase = .own then match lookF (I.deref w.state) M th w.conf.queues with
        | some (th', qs) => some ⟨w.state, { threads := w.conf.threads.set t th', queues := qs }⟩
        | none => none
      else none
    | none => none
  | .call t => match w.conf.threads[t]? with
    | some th => if th.phase = .own then match th.prog with
        | .intern v _ => match K.call w.state t v with
          | some s => if K.owns s w.conf.all then
              some ⟨s, { w.conf with threads := w.conf.threads.set t { th with phase := .interning } }⟩ else none
          | none => none
        | _ => none
      else none
    | none => none
  | .ret t a => match w.conf.threads[t]? with
    | some th => if th.phase = .interning then match th.prog with
        | .intern _ k => match K.ret w.state t a with
          | some (b, s) =>
            some ⟨s, { w.conf with threads := w.conf.threads.set t { prog := k, locals := th.locals ++ [some b], phase := .own } }⟩
          | none => none
        | _ => none
      else none
    | none => none
  | .clone t => match w.conf.threads[t]? with
    | some th => if th.phase = .own then match th.prog with
        | .clone i k => match th.locals[i]? with
          | some (some p) => match K.clone w.state t p with
            | some s => some ⟨s, { w.conf with threads := w.conf.threads.set t { th with prog := k, locals := th.locals ++ [some p] } }⟩
            | none => none
          | _ => none
        | _ => none
      else none
    | none => none
  | .drop t => match w.conf.threads[t]? with
    | some th => if th.phase = .own then match th.prog with
        | .drop i k => match th.locals[i]? with
          | some (some p) => match K.drop w.state t p with
            | some s =>
              some ⟨s, { w.conf with threads := w.conf.threads.set t { prog := k, locals := th.locals.set i none, phase := .dropping } }⟩
            | none => none
          | _ => none
        | _ => none
      else none
    | none => none
  | .dropped t => match w.conf.threads[t]? with
    | some th => if th.phase = .dropping then
        if K.idle w.state t then some ⟨w.state, { w.conf with threads := w.conf.threads.set t { th with phase := .own } }⟩ else none
      else none
    | none => none

theorem play1_ok {K : Machine I} {M : Methods V} {w w' : World I R} {e : Ev K.Lbl} (h : play1 K M w e = some w') : WStep M w w' := by
  have own : ∀ {s : I.State}, K.owns s w.conf.all = true → I.Owns s w.conf.held := by
    intro s hs
    have := K.owns_ok hs
    rwa [show (fun p => w.conf.all.count p) = w.conf.held from funext fun p => (held_all w.conf p).symm] at this
  cases e with
  | inside l =>
    simp only [play1] at h
    split at h
    · rename_i s hs
      split at h
      · rename_i hc
        cases h
        obtain ⟨h1, h2⟩ := Bool.and_eq_true_iff.mp hc
        refine .inside (K.step_ok hs) (fun t th ht hp => ?_) (own h2)
        have := List.all_eq_true.mp h1 t (List.mem_range.mpr (List.getElem?_eq_some_iff.mp ht).1)
        simp only [ht, hp, decide_false, Bool.false_or] at this
        rw [← K.idle_ok, ← K.idle_ok, eq_of_beq this]
      · cases h
    · cases h
  | look t =>
    simp only [play1] at h
    split at h
    · rename_i th ht
      split at h
      · rename_i hp
        split at h
        · rename_i th' qs hl
          cases h; exact .look ht hp (lookF_ok hl)
        · cases h
      · cases h
    · cases h
  | call t =>
    simp only [play1] at h
    split at h
    · rename_i th ht
      split at h
      · rename_i hp
        split at h
        · rename_i v k hg
          split at h
          · rename_i s hs
            split at h
            · rename_i ho
              cases h; exact .call ht hp hg (K.call_ok hs) (own ho)
            · cases h
          · cases h
        · cases h
      · cases h
    · cases h
  | ret t a =>
    simp only [play1] at h
    split at h
    · rename_i th ht
      split at h
      · rename_i hp
        split at h
        · rename_i v k hg
          split at h
          · rename_i b s hs
            cases h; exact .ret ht hp hg (K.ret_ok hs)
          · cases h
        · cases h
      · cases h
    · cases h
  | clone t =>
    simp only [play1] at h
    split at h
    · rename_i th ht
      split at h
      · rename_i hp
        split at h
        · rename_i i k hg
          split at h
          · rename_i p hi
            split at h
            · rename_i s hs
              cases h; exact .clone ht hp hg hi (K.clone_ok hs)
            · cases h
          · cases h
        · cases h
      · cases h
    · cases h
  | drop t =>
    simp only [play1] at h
    split at h
    · rename_i th ht
      split at h
      · rename_i hp
        split at h
        · rename_i i k hg
          split at h
          · rename_i p hi
            split at h
            · rename_i s hs
              cases h; exact .drop ht hp hg hi (K.drop_ok hs)
            · cases h
          · cases h
        · cases h
      · cases h
    · cases h
  | dropped t =>
    simp only [play1] at h
    split at h
    · rename_i th ht
      split at h
      · rename_i hp
        split at h
        · rename_i hi
          cases h; exact .dropped ht hp (K.idle_ok.mp hi)
        · cases h
      · cases h
    · cases h

/-- A list of events. When an event is not possible yet, a step of the interner with one of the given labels comes first. -/
def play (K : Machine I) (M : Methods V) : Nat → World I R → List (List K.Lbl × Ev K.Lbl) → Option (World I R)
  | 0, _, _ => none
  | _ + 1, w, [] => some w
  | n + 1, w, (ls, e) :: r => match play1 K M w e with
    | some w' => play K M n w' r
    | none => match ls.findSome? fun l => play1 K M w (.inside l) with
      | some w' => play K M n w' ((ls, e) :: r)
      | none => none

theorem play_ok {K : Machine I} {M : Methods V} {w0 : World I R} : ∀ {n : Nat} {l : List (List K.Lbl × Ev K.Lbl)} {w w' : World I R}, WRun M w0 w →
    play K M n w l = some w' → WRun M w0 w' := by
  intro n
  induction n with
  | zero => intro l w w' _ e; cases e
  | succ n ih =>
    intro l w w' h e
    cases l with
    | nil => cases e; exact h
    | cons x r =>
      obtain ⟨ls, x⟩ := x
      simp only [play] at e
      split at e
      · rename_i w1 h1
        exact ih (.step h (play1_ok h1)) e
      · split at e
        · rename_i w1 h1
          obtain ⟨y, _, hy⟩ := List.exists_of_findSome?_eq_some h1
          exact ih (.step h (play1_ok hy)) e
        · cases e

/-- The end of an execution. -/
def after (K : Machine I) (M : Methods V) (w : World I R) (l : List (List K.Lbl × Ev K.Lbl)) : World I R := (play K M 400 w l).getD w

theorem after_run (K : Machine I) (M : Methods V) (w : World I R) (l : List (List K.Lbl × Ev K.Lbl)) : WRun M w (after K M w l) := by
  unfold after
  cases h : play K M 400 w l with
  | none => exact .refl
  | some w' => exact play_ok .refl h

end

/-! ### `ArcIntern` -/

section
open Arc (demoCfg)
open Src.ArcHeld (mayCall)

def okOf {α : Type} : Arc.Res α → Option α
  | .ok a => some a
  | _ => none

theorem okOf_some {α : Type} {r : Arc.Res α} {a : α} (h : okOf r = some a) : r = .ok a := by
  cases r <;> simp_all [okOf]

theorem if_some {α : Type} {c : Prop} [Decidable c] {o : Option α} {x : α} (h : (if c then o else none) = some x) : c ∧ o = some x := by
  split at h
  · exact ⟨by assumption, h⟩
  · cases h

def empty {ρ : Type} (l : Option (List ρ)) : Bool := match l with
  | some [] => true
  | _ => false

theorem empty_iff {ρ : Type} {l : Option (List ρ)} : empty l = true ↔ l = some [] := by
  unfold empty
  split <;> simp_all

/-- One step, if no object gets too many handles. -/
def arcStep (X : Src.ArcHeld.State Arc.Val) (a : Src.ArcHeld.Act Arc.Val) : Option (Src.ArcHeld.State Arc.Val) :=
  match Src.ArcHeld.step demoCfg X a with
  | .ok X' => if (Src.ArcNest.mentions demoCfg X'.base).length < demoCfg.W then some X' else none
  | _ => none

theorem arcStep_ok {X X' : Src.ArcHeld.State Arc.Val} {a : Src.ArcHeld.Act Arc.Val} (h : arcStep X a = some X') :
    Src.ArcHeld.step demoCfg X a = .ok X' ∧ Src.ArcNest.Few demoCfg X'.base := by
  unfold arcStep at h
  split at h
  · rename_i X1 hs
    split at h
    · rename_i hc
      cases h; exact ⟨hs, fun _ => Nat.lt_of_le_of_lt List.count_le_length hc⟩
    · cases h
  · cases h

/-- The result of a call: the newest event. -/
def arcRet (X : Src.ArcHeld.State Arc.Val) (t a : Nat) : Option (Arc.Addr × Src.ArcHeld.State Arc.Val) := match X.base.threads[t]? with
  | some [c] => match arcStep X (.act (.run t a)) with
    | some X' => match X'.base.hist with
      | .ret j (some b) :: _ => if j = c.id ∧ X'.base.hist.length = X.base.hist.length + 1 ∧ empty X'.base.threads[t]? = true then some (b, X') else none
      | _ => none
    | none => none
  | _ => none

theorem suffix_one {α : Type} {x : α} {l m n : List α} (h : x :: l = m ++ n) (hl : (x :: l).length = n.length + 1) : x :: l = x :: n := by
  cases m with
  | nil =>
    simp only [List.nil_append] at h
    rw [h] at hl; omega
  | cons y m =>
    simp only [List.cons_append, List.cons.injEq] at h
    obtain ⟨rfl, rfl⟩ := h
    simp only [List.length_cons, List.length_append] at hl
    have : m = [] := List.length_eq_zero_iff.mp (by omega)
    rw [this]; rfl

theorem arc_run_hist {V : Type} [BEq V] [Hashable V] {cfg : Arc.Cfg V} {X X' : Src.ArcHeld.State V} {t a : Nat} (e : Src.ArcHeld.step cfg X (.act (.run t a)) = .ok X') :
    ∃ l, X'.base.hist = l ++ X.base.hist := by
  rcases Src.ArcHeld.step_base e with ⟨_, _, h, _⟩ | ⟨a', h, e, _⟩
  · cases h
  · cases h
    simp only [Src.ArcNest.step] at e
    (repeat' split at e) <;> first | (cases e; done) | (cases e; exact ⟨[], by simp_all⟩) | (rw [← (Arc.Res.ok.inj e)]; exact ⟨_, rfl⟩) |
      (rw [← (Arc.Res.ok.inj e)]; exact ⟨[], rfl⟩)

theorem arcRet_ok {X X' : Src.ArcHeld.State Arc.Val} {t a : Nat} {b : Arc.Addr} (h : arcRet X t a = some (b, X')) : (arc demoCfg).Returns X t b X' := by
  unfold arcRet at h
  split at h
  · rename_i c ht
    split at h
    · rename_i X1 hs
      obtain ⟨h1, h2⟩ := arcStep_ok hs
      split at h
      · rename_i j b' l hh
        split at h
        · rename_i hc
          cases h
          obtain ⟨rfl, hlen, he⟩ := hc
          obtain ⟨m, hm⟩ := arc_run_hist h1
          rw [hh] at hm hlen
          exact ⟨c, a, ht, h1, h2, empty_iff.mp he, hh.trans (suffix_one hm hlen)⟩
        · cases h
      · cases h
    · cases h
  · cases h

def arcMachine : Machine (arc demoCfg) where
  Lbl := Src.ArcHeld.Act Arc.Val
  step := arcStep
  idle X t := empty X.base.threads[t]?
  owns X l := l.all fun p => decide (l.count p ≤ X.base.handles.count p)
  call X t v := if empty X.base.threads[t]? then arcStep X (.act (.new t v false)) else none
  ret := arcRet
  clone X t p := if empty X.base.threads[t]? then arcStep X (.act (.clone t [p])) else none
  drop X t p := if empty X.base.threads[t]? then arcStep X (.act (.drop t p)) else none
  step_ok h := ⟨_, arcStep_ok h⟩
  idle_ok := empty_iff
  owns_ok := by
    intro X l h p
    by_cases hp : p ∈ l
    · exact of_decide_eq_true (List.all_eq_true.mp h p hp)
    · show l.count p ≤ _
      rw [List.count_eq_zero.mpr hp]; exact Nat.zero_le _
  call_ok := by
    intro X t v X' h
    obtain ⟨hi, h⟩ := if_some h
    exact ⟨empty_iff.mp hi, false, arcStep_ok h⟩
  ret_ok := arcRet_ok
  clone_ok := by
    intro X t v X' h
    obtain ⟨hi, h⟩ := if_some h
    exact ⟨empty_iff.mp hi, arcStep_ok h⟩
  drop_ok := by
    intro X t v X' h
    obtain ⟨hi, h⟩ := if_some h
    exact ⟨empty_iff.mp hi, arcStep_ok h⟩

end

/-! ### `Intern`, `ArenaIntern` -/

section
open Pool (Ptr)

def poolRet (k : Nat) (S : Src.PoolCode.State Nat Pool.Demo.Val) (t a : Nat) : Option (Ptr × Src.PoolCode.State Nat Pool.Demo.Val) :=
  match S.threads[t]? with
  | some [c] => match okOf (Src.PoolCode.step Pool.Demo.cfg S (.run t a)) with
    | some S' => match S'.hist with
      | .ret ⟨j, .intern k' _ _, .ptr p⟩ :: _ =>
        if j = c.id ∧ k' = k ∧ S'.hist.length = S.hist.length + 1 ∧ empty S'.threads[t]? = true then some (p, S') else none
      | _ => none
    | none => none
  | _ => none

theorem pool_run_hist {K V : Type} [DecidableEq K] [BEq V] [Hashable V] {cfg : Pool.Cfg K V} {S S' : Src.PoolCode.State K V} {t a : Nat}
    (e : Src.PoolCode.step cfg S (.run t a) = .ok S') : ∃ l, S'.hist = l ++ S.hist := by
  simp only [Src.PoolCode.step] at e
  split at e
  · split at e
    · cases e; exact ⟨_, rfl⟩
    · cases e; exact ⟨[], rfl⟩
    · cases e
    · cases e
  · cases e

theorem poolRet_ok {k : Nat} {S S' : Src.PoolCode.State Nat Pool.Demo.Val} {t a : Nat} {p : Ptr} (h : poolRet k S t a = some (p, S')) :
    (pool Pool.Demo.cfg k).Returns S t p S' := by
  unfold poolRet at h
  split at h
  · rename_i c ht
    split at h
    · rename_i X1 hs
      have h1 := okOf_some hs
      split at h
      · rename_i j k' q v p' l hh
        split at h
        · rename_i hc
          cases h
          obtain ⟨rfl, rfl, hlen, he⟩ := hc
          obtain ⟨m, hm⟩ := pool_run_hist h1
          rw [hh] at hm hlen
          exact ⟨c, a, q, v, ht, h1, empty_iff.mp he, hh.trans (suffix_one hm hlen)⟩
        · cases h
      · cases h
    · cases h
  · cases h

/-- The handles that calls have returned. -/
def poolHandles (k : Nat) (S : Src.PoolCode.State Nat Pool.Demo.Val) : List Ptr := S.hist.filterMap fun
  | .ret ⟨_, .intern k' _ _, .ptr p⟩ => if k' = k then some p else none
  | _ => none

theorem poolHandles_ok {k : Nat} {S : Src.PoolCode.State Nat Pool.Demo.Val} {p : Ptr} (h : p ∈ poolHandles k S) :
    ∃ j q v, Src.PoolCode.Returned S ⟨j, .intern k q v, .ptr p⟩ := by
  obtain ⟨e, he, hp⟩ := List.mem_filterMap.mp h
  split at hp
  · rename_i j k' q v p'
    split at hp
    · rename_i hk
      cases hp; subst hk
      exact ⟨j, q, v, he⟩
    · cases hp
  · cases hp

def poolMachine (k : Nat) : Machine (pool Pool.Demo.cfg k) where
  Lbl := Src.PoolCode.Cmd
  step S c := okOf (Src.PoolCode.step Pool.Demo.cfg S c.act)
  idle S t := empty S.threads[t]?
  owns S l := !decide (k ∈ S.gone) && l.all fun p => decide (p ∈ poolHandles k S)
  call S t v := if empty S.threads[t]? then okOf (Src.PoolCode.step Pool.Demo.cfg S (.call t (.intern k (.ofVal v) v) false)) else none
  ret := poolRet k
  clone S t _ := if empty S.threads[t]? then some S else none
  drop S t _ := if empty S.threads[t]? then some S else none
  step_ok := by
    intro S c S' h
    exact ⟨c.act, c.lawful, okOf_some h⟩
  idle_ok := empty_iff
  owns_ok := by
    intro S l h
    obtain ⟨h1, h2⟩ := Bool.and_eq_true_iff.mp h
    refine ⟨by simpa using h1, fun p hp => poolHandles_ok ?_⟩
    exact of_decide_eq_true (List.all_eq_true.mp h2 p (List.count_pos_iff.mp hp))
  call_ok := by
    intro S t v S' h
    obtain ⟨hi, h⟩ := if_some h
    exact ⟨empty_iff.mp hi, _, false, Pool.lawful_new k v, okOf_some h⟩
  ret_ok := poolRet_ok
  clone_ok := by
    intro S t p S' h
    obtain ⟨hi, h⟩ := if_some h
    cases h; exact ⟨empty_iff.mp hi, rfl⟩
  drop_ok := by
    intro S t p S' h
    obtain ⟨hi, h⟩ := if_some h
    cases h; exact ⟨empty_iff.mp hi, rfl⟩

/-! ### typearena.rs -/

open Src.NewCode (dcfg)

def newRet (k : Nat) (S : Src.NewCode.State Nat Pool.Demo.Val) (t a : Nat) : Option (Ptr × Src.NewCode.State Nat Pool.Demo.Val) :=
  match S.threads[t]? with
  | some [c] => match okOf (Src.NewCode.step dcfg S (.run t a)) with
    | some S' => match S'.hist with
      | .ret ⟨j, .intern k' _ _, .ptr p⟩ :: _ =>
        if j = c.id ∧ k' = k ∧ S'.hist.length = S.hist.length + 1 ∧ empty S'.threads[t]? = true then some (p, S') else none
      | _ => none
    | none => none
  | _ => none

theorem new_run_hist {K V : Type} [DecidableEq K] [BEq V] [Hashable V] {cfg : Src.NewCode.Cfg K V} {S S' : Src.NewCode.State K V} {t a : Nat}
    (e : Src.NewCode.step cfg S (.run t a) = .ok S') : ∃ l, S'.hist = l ++ S.hist := by
  simp only [Src.NewCode.step] at e
  split at e
  · split at e
    · simp only [Src.NewCode.unwind] at e
      split at e
      · cases e; exact ⟨[], rfl⟩
      · cases e
      · cases e
      · cases e
    · split at e
      · cases e; exact ⟨_, rfl⟩
      · cases e; exact ⟨[], rfl⟩
      · cases e
      · cases e
  · cases e

theorem newRet_ok {k : Nat} {S S' : Src.NewCode.State Nat Pool.Demo.Val} {t a : Nat} {p : Ptr} (h : newRet k S t a = some (p, S')) :
    (newIntern dcfg k).Returns S t p S' := by
  unfold newRet at h
  split at h
  · rename_i c ht
    split at h
    · rename_i X1 hs
      have h1 := okOf_some hs
      split at h
      · rename_i j k' q v p' l hh
        split at h
        · rename_i hc
          cases h
          obtain ⟨rfl, rfl, hlen, he⟩ := hc
          obtain ⟨m, hm⟩ := new_run_hist h1
          rw [hh] at hm hlen
          exact ⟨c, a, q, v, ht, h1, empty_iff.mp he, hh.trans (suffix_one hm hlen)⟩
        · cases h
      · cases h
    · cases h
  · cases h

/-- The handles that calls have returned. -/
def newHandles (k : Nat) (S : Src.NewCode.State Nat Pool.Demo.Val) : List Ptr := S.hist.filterMap fun
  | .ret ⟨_, .intern k' _ _, .ptr p⟩ => if k' = k then some p else none
  | _ => none

theorem newHandles_ok {k : Nat} {S : Src.NewCode.State Nat Pool.Demo.Val} {p : Ptr} (h : p ∈ newHandles k S) :
    ∃ j q v, Src.NewCode.Returned S ⟨j, .intern k q v, .ptr p⟩ := by
  obtain ⟨e, he, hp⟩ := List.mem_filterMap.mp h
  split at hp
  · rename_i j k' q v p'
    split at hp
    · rename_i hk
      cases hp; subst hk
      exact ⟨j, q, v, he⟩
    · cases hp
  · cases hp

def newMachine (k : Nat) : Machine (newIntern dcfg k) where
  Lbl := Src.NewCode.Cmd
  step S c := okOf (Src.NewCode.step dcfg S c.act)
  idle S t := empty S.threads[t]?
  owns S l := l.all fun p => decide (p ∈ newHandles k S)
  call S t v := if empty S.threads[t]? then okOf (Src.NewCode.step dcfg S (.call t (.intern k (.ofVal v) v) false false)) else none
  ret := newRet k
  clone S t _ := if empty S.threads[t]? then some S else none
  drop S t _ := if empty S.threads[t]? then some S else none
  step_ok := by
    intro S c S' h
    exact ⟨c.act, c.lawful, okOf_some h⟩
  idle_ok := empty_iff
  owns_ok := by
    intro S l h p hp
    exact newHandles_ok (of_decide_eq_true (List.all_eq_true.mp h p (List.count_pos_iff.mp hp)))
  call_ok := by
    intro S t v S' h
    obtain ⟨hi, h⟩ := if_some h
    exact ⟨empty_iff.mp hi, _, false, false, Pool.lawful_new k v, okOf_some h⟩
  ret_ok := newRet_ok
  clone_ok := by
    intro S t p S' h
    obtain ⟨hi, h⟩ := if_some h
    cases h; exact ⟨empty_iff.mp hi, rfl⟩
  drop_ok := by
    intro S t p S' h
    obtain ⟨hi, h⟩ := if_some h
    cases h; exact ⟨empty_iff.mp hi, rfl⟩

/-- An order for the values of the pools. -/
def poolMethods : Methods Pool.Demo.Val :=
  { partialCmp := fun a b => some (compare a.cls b.cls), lt := fun a b => compare a.cls b.cls == .lt, le := fun a b => compare a.cls b.cls != .gt,
    gt := fun a b => compare a.cls b.cls == .gt, ge := fun a b => compare a.cls b.cls != .lt, cmp := fun a b => compare a.cls b.cls }

end
end Client
