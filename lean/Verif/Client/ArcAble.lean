import Verif.Client.Able
import Verif.Client.ArcLaws
import Verif.Client.PoolAble
import Verif.Src.ArcSmall
import Verif.Src.ArcNestMain
/-
Calls of `ArcIntern` can be carried through (C92).
-/
namespace Src.ArcHeld
open Arc (Addr Tid Cell Cfg Res)
open Src.ArcCode (Var Val Op Glue Mem Stack lang frameMentions size)
open Src.ArcNest (Running Few Quiet Good mentions)

variable {V : Type} [BEq V] [Hashable V] {cfg : Cfg V}

omit [BEq V] [Hashable V] in
/-- Only thread `t` is executing anything: call `c`. -/
structure Alone (X : State V) (t : Tid) (c : Running V) : Prop where
  this : X.base.threads[t]? = some [c]
  others : ∀ (u : Tid) (cs : List (Running V)), X.base.threads[u]? = some cs → u ≠ t → cs = []

/-- Steps of thread `t`. Its call goes on. -/
inductive Goes (cfg : Cfg V) (t : Tid) (X : State V) : State V → Prop
  | refl : Goes cfg t X X
  | step {X' X'' : State V} {act : Act V} : Goes cfg t X X' → ArcHeld.step cfg X' act = .ok X'' → Few cfg X''.base →
      X''.base.handles = X'.base.handles → (∀ u, u ≠ t → X''.base.threads[u]? = X'.base.threads[u]?) → X''.base.threads[t]? ≠ some [] → Goes cfg t X X''

theorem Goes.head {t : Tid} {X X' X'' : State V} {act : Act V} (h1 : ArcHeld.step cfg X act = .ok X') (h2 : Few cfg X'.base)
    (h3 : X'.base.handles = X.base.handles) (h4 : ∀ u, u ≠ t → X'.base.threads[u]? = X.base.threads[u]?) (h5 : X'.base.threads[t]? ≠ some [])
    (h : Goes cfg t X' X'') : Goes cfg t X X'' := by
  induction h with
  | refl => exact .step .refl h1 h2 h3 h4 h5
  | step _ k1 k2 k3 k4 k5 ih => exact .step ih k1 k2 k3 k4 k5

omit [BEq V] [Hashable V] in
theorem flat_alone {β : Type} (g : List (Running V) → List β) (hg : g [] = []) : ∀ {l : List (List (Running V))} {t : Nat} {x : List (Running V)}, l[t]? = some x →
    (∀ (u : Nat) (y : List (Running V)), l[u]? = some y → u ≠ t → y = []) → l.flatMap g = g x := by
  intro l
  induction l with
  | nil => intro t x h; cases h
  | cons y l ih =>
    intro t x h ho
    rw [List.flatMap_cons]
    cases t with
    | zero =>
      cases h
      have : l.flatMap g = [] := by
        rw [List.flatMap_eq_nil_iff]
        intro z hz
        obtain ⟨u, hu⟩ := List.mem_iff_getElem?.mp hz
        rw [ho (u + 1) z hu (by omega), hg]
      rw [this, List.append_nil]
    | succ t =>
      rw [ho 0 y rfl (by omega), hg, List.nil_append]
      exact ih h fun u z hu hut => ho (u + 1) z hu (by omega)

omit [BEq V] [Hashable V] in
theorem stored_nil (hk : ∀ v, cfg.kids v = []) (h : List (Addr × Cell V)) : Arc.storedHandles cfg h = [] := by
  simp [Arc.storedHandles, hk]

omit [BEq V] [Hashable V] in
theorem Alone.mentions (hk : ∀ v, cfg.kids v = []) {X : State V} {t : Tid} {c : Running V} (h : Alone X t c) :
    (mentions cfg X.base).length = X.base.handles.length + size cfg c.stack := by
  have h1 := flat_alone (fun cs : List (Running V) => cs.flatMap fun c => c.stack.flatMap (frameMentions cfg)) rfl h.this h.others
  simp only [ArcNest.mentions, h1, stored_nil hk, size, List.flatMap_cons, List.flatMap_nil, List.append_nil, List.length_append]

omit [BEq V] [Hashable V] in
theorem quiet_mentions (hk : ∀ v, cfg.kids v = []) {X : State V} (h : Quiet X.base) : (mentions cfg X.base).length = X.base.handles.length := by
  have : (X.base.threads.flatMap fun cs : List (Running V) => cs.flatMap fun c => c.stack.flatMap (frameMentions cfg)) = [] := by
    rw [List.flatMap_eq_nil_iff]
    intro cs hcs
    rw [h cs hcs]; rfl
  simp only [ArcNest.mentions, this, stored_nil hk, List.append_nil]

omit [BEq V] [Hashable V] in
theorem few_of {N : ArcNest.State V} (h : (mentions cfg N).length < cfg.W) : Few cfg N := fun _ => Nat.lt_of_le_of_lt List.count_le_length h

variable [EquivBEq V] [LawfulHashable V]

theorem quiet_held (hv : cfg.Valid) {X : State V} (h : Reach cfg X) (hq : Quiet X.base) : X.held = [] := by
  cases hh : X.held with
  | nil => rfl
  | cons x l =>
    obtain ⟨cs, hcs, c, hc, _⟩ := (good_reach hv h).2.run x (by rw [hh]; exact List.mem_cons_self)
    rw [hq cs hcs] at hc; cases hc

/-- A step of the call that is alone, with the lock that it needs. -/
theorem Alone.run (hv : cfg.Valid) {X : State V} (h : ReachND cfg X) {t : Tid} {c : Running V} (ha : Alone X t c) (hh : X.held = []) {a : Addr}
    {N' : ArcNest.State V} (e : ArcNest.step cfg X.base (.run t a) = .ok N') (hf : Few cfg X.base) :
    ∃ X0, X0.base = X.base ∧ ReachND cfg X0 ∧ Goes cfg t X X0 ∧ step cfg X0 (.act (.run t a)) = .ok { base := N', held := [] } := by
  have e' : ArcNest.step cfg X.base (.run t a) mayCall = .ok N' := e
  have hni : X.base.threads[t]? ≠ some [] := by rw [ha.this]; simp
  cases hn : needs cfg X.base t with
  | none =>
    refine ⟨X, rfl, h, .refl, ?_⟩
    simp only [step, hn, lift, e', hh]
  | some x =>
    obtain ⟨c', cs, h1, h2, h3⟩ := needs_some hn
    rw [ha.this] at h1; cases h1
    obtain ⟨l, S, s, hg, _⟩ := good_reachND hv h
    have htk : X.taken x.1 = false := by
      simp only [State.taken, hh, List.any_nil, Bool.or_false]
      cases hl : X.base.mem.locks x.1 with
      | none => rfl
      | some j =>
        obtain ⟨cs, hcs, d, hd, _, hno⟩ := lock_owner hg hl
        obtain ⟨u, hu⟩ := List.mem_iff_getElem?.mp hcs
        by_cases hut : u = t
        · subst hut
          rw [ha.this] at hu; cases hu
          rcases List.mem_singleton.mp hd with rfl
          rw [hno] at h3; cases h3
        · rw [ha.others u cs hu hut] at hd; cases hd
    have hlock : step cfg X (.lock t) = .ok { X with held := [x] } := by
      simp only [step, hn, htk, hh, Bool.false_eq_true, if_false]
    refine ⟨{ X with held := [x] }, rfl, .step (act := .lock t) h (by intro h; exact h) hlock hf,
      .step .refl hlock hf rfl (fun _ _ => rfl) hni, ?_⟩
    simp only [step, hn, List.mem_singleton, if_true, lift, e', List.erase_cons_head]

/-- A call that is alone comes to its end. -/
theorem Alone.ends (hv : cfg.Valid) (hk : ∀ v, cfg.kids v = []) {t : Tid} {N : ArcNest.State V} (hm : ArcNest.Must cfg Quiet N) :
    ∀ {X : State V} {c : Running V}, X.base = N → ReachND cfg X → X.held = [] → Alone X t c → (∀ f ∈ c.stack, f.panicking = false) →
      size cfg c.stack ≤ 4 → X.base.handles.length + 4 < cfg.W →
      ∃ X1 X2 a c', Goes cfg t X X1 ∧ X1.base.handles = X.base.handles ∧ ReachND cfg X1 ∧ X1.base.threads[t]? = some [c'] ∧ c'.call = c.call ∧
        c'.id = c.id ∧ (∀ f ∈ c'.stack, f.panicking = false) ∧ step cfg X1 (.act (.run t a)) = .ok X2 ∧ Few cfg X2.base ∧
        X2.base.threads[t]? = some [] ∧ (∀ u, u ≠ t → X2.base.threads[u]? = X1.base.threads[u]?) ∧ Quiet X2.base ∧ ReachND cfg X2 := by
  induction hm with
  | @done N hq =>
    intro X c hX _ _ ha
    subst hX
    have := hq _ (List.mem_of_getElem? ha.this)
    cases this
  | @step N t' hen _ ih =>
    intro X c hX hr hh ha hp hs hW
    subst hX
    obtain ⟨a, ha1, ha2⟩ := Arc.fresh_addr X.base.mem.heap
    obtain ⟨N', e⟩ := hen a ha1 ha2
    have htt : t' = t := by
      by_cases hut : t' = t
      · exact hut
      · simp only [ArcNest.step] at e
        split at e
        · rename_i d ds hd
          cases ha.others t' _ hd hut
        · cases e
    subst htt
    have hmen := ha.mentions hk
    have hf : Few cfg X.base := few_of (by omega)
    obtain ⟨X0, hb, hr0, hg0, e0⟩ := Alone.run hv hr ha hh e hf
    have e1 := e
    simp only [ArcNest.step, ha.this] at e1
    cases hrun : (lang cfg).run X.base.mem c.id a c.stack with
    | blocked => rw [hrun] at e1; cases e1
    | ub => rw [hrun] at e1; cases e1
    | ok d =>
      obtain ⟨m', fs', r⟩ := d
      have hcalm := (lang cfg).run_calm (by
        intro m t g m' more f hd
        cases g <;> simp only [ArcCode.drop] at hd <;> (try split at hd) <;> cases hd
        rfl) hrun hp
      have hsm : size cfg fs' ≤ 4 := by
        obtain ⟨l, S, s, hg, _⟩ := good_reachND hv hr
        obtain ⟨th, _, hR⟩ := hg.sim.thread (hg.flat.run _ (List.mem_of_getElem? ha.this) c (List.mem_singleton.mpr rfl)).1
        exact hR.small hk hrun hs
      rw [hrun] at e1
      have htl : t' < X.base.threads.length := (List.getElem?_eq_some_iff.mp ha.this).1
      cases fs' with
      | nil =>
        injection e1 with e1
        have hthr : N'.threads[t']? = some [] := by subst e1; exact List.getElem?_set_self htl
        have hoth : ∀ u, u ≠ t' → N'.threads[u]? = X.base.threads[u]? := by
          intro u hut; subst e1; exact List.getElem?_set_ne (Ne.symm hut)
        have hq : Quiet N' := by
          intro cs hcs
          obtain ⟨u, hu⟩ := List.mem_iff_getElem?.mp hcs
          by_cases hut : u = t'
          · subst hut; rw [hthr] at hu; cases hu; rfl
          · exact ha.others u cs (by rw [← hoth u hut]; exact hu) hut
        have hlen : N'.handles.length ≤ X.base.handles.length + 1 := by
          subst e1
          show (ArcCode.result r ++ X.base.handles).length ≤ _
          rw [List.length_append]
          have : (ArcCode.result r).length ≤ 1 := by
            unfold ArcCode.result; split <;> simp
          omega
        have hf' : Few cfg N' := few_of (by
          have := quiet_mentions (X := ⟨N', []⟩) hk hq
          simp only at this
          omega)
        exact ⟨X0, ⟨N', []⟩, a, c, hg0, by rw [hb], hr0, by rw [hb]; exact ha.this, rfl, rfl, hp, e0, hf', hthr, by rw [hb]; exact hoth, hq,
          .step (act := .act (.run t' a)) hr0 (by intro h; exact h) e0 hf'⟩
      | cons f fs' =>
        injection e1 with e1
        have hthr : N'.threads[t']? = some [{ c with stack := f :: fs' }] := by subst e1; exact List.getElem?_set_self htl
        have hoth : ∀ u, u ≠ t' → N'.threads[u]? = X.base.threads[u]? := by
          intro u hut; subst e1; exact List.getElem?_set_ne (Ne.symm hut)
        have hhan : N'.handles = X.base.handles := by subst e1; rfl
        have ha' : Alone (⟨N', []⟩ : State V) t' { c with stack := f :: fs' } :=
          ⟨hthr, fun u cs hu hut => ha.others u cs (by rw [← hoth u hut]; exact hu) hut⟩
        have hmen' := ha'.mentions hk
        have hf' : Few cfg N' := few_of (by
          have hsm : size cfg (f :: fs') ≤ 4 := hsm
          simp only [hhan] at hmen'
          omega)
        obtain ⟨X1, X2, b, c', g1, g2, g3, g4, g5, g6, g7, g8, g9, g10, g11, g12⟩ := ih a N' ha1 ha2 e rfl
          (.step (act := .act (.run t' a)) hr0 (by intro h; exact h) e0 hf') rfl ha' hcalm hsm (by rw [show (⟨N', []⟩ : State V).base.handles = X.base.handles from hhan]; exact hW)
        refine ⟨X1, X2, b, c', ?_, g2.trans hhan, g3, g4, g5, g6, g7, g8, g9, g10, g11, g12⟩
        have g0 : Goes cfg t' X0 X1 := .head e0 hf' (by rw [hb]; exact hhan) (by rw [hb]; exact hoth) (by rw [hthr]; simp) g1
        clear g1 g2 g3 g4 g5 g6 g7 g8 g9 g10 g11 g12 ih
        induction g0 with
        | refl => exact hg0
        | step _ k1 k2 k3 k4 k5 ih => exact .step ih k1 k2 k3 k4 k5

/-- The end of a `drop` gives no handle. -/
theorem drop_result (hv : cfg.Valid) {X X' : State V} (h : Reach cfg X) {t : Tid} {c : Running V} {p : Addr} {a : Addr}
    (ht : X.base.threads[t]? = some [c]) (hc : c.call = .drop p) (e : step cfg X (.act (.run t a)) = .ok X') (hend : X'.base.threads[t]? = some []) :
    X'.base.handles = X.base.handles := by
  obtain ⟨⟨l, S, s, hg⟩, _⟩ := good_reach hv h
  rcases step_base e with ⟨_, _, h1, _⟩ | ⟨a', h1, e, _⟩
  · cases h1
  · cases h1
    obtain ⟨th, hth, hT⟩ := hg.run _ (List.mem_of_getElem? ht) c (by simp)
    obtain ⟨th', hth', hR⟩ := hg.sim.thread (hg.flat.head ht).1
    rw [hth] at hth'; cases hth'
    have htl : t < X.base.threads.length := (List.getElem?_eq_some_iff.mp ht).1
    simp only [ArcNest.step, ht] at e
    split at e
    · rename_i m r hr
      injection e with e
      obtain ⟨f, hst, hi, rfl, rfl⟩ := ArcNest.run_end hr
      rw [hst] at hR
      obtain ⟨hpc, htodo, hret⟩ := ArcNest.rel_end hR hi
      simp only [ArcNest.Tracks, hc] at hT
      have hdone : th.done = th.ret := by simp [Arc.Thread.done, hpc]
      rw [hdone] at hT
      rw [hret, hT.1] at e
      rw [← e]; rfl
    · injection e with e
      rw [← e] at hend
      simp only at hend
      rw [List.getElem?_set_self htl] at hend
      cases hend
    · cases e
    · cases e

end Src.ArcHeld

namespace Client
open Arc (Cfg Addr Tid)
open Src.ArcNest (Running Few Quiet)
open Src.ArcCode (size)

variable {V : Type} [BEq V] [Hashable V] {cfg : Cfg V}

theorem ArcGoes.path {t : Tid} {n : Addr → Nat} {busy : Prop} {X X' : Src.ArcHeld.State V} (h : Src.ArcHeld.Goes cfg t X X')
    (ho : (arc cfg).Owns X n) : Path (arc cfg) t busy n X X' ∧ (arc cfg).Owns X' n := by
  induction h with
  | refl => exact ⟨.refl, ho⟩
  | @step X1 X2 act _ h1 h2 h3 h4 h5 ih =>
    obtain ⟨g1, g2⟩ := ih
    have ho2 : (arc cfg).Owns X2 n := fun p => by rw [h3]; exact g2 p
    refine ⟨.step g1 ⟨act, h1, h2⟩ (fun u hu => ?_) (fun _ => h5) ho2, ho2⟩
    show _ = _ ↔ _ = _
    rw [h4 u hu]

variable [EquivBEq V] [LawfulHashable V]

/-- The state of the interner between calls, when the program owns the handles `l`: nobody executes a call, no removal has been abandoned (C20),
and the counters have room for the handles up to number `N`, and for what a call holds. -/
def ArcCalm (cfg : Cfg V) (N : Nat) (l : List Addr) (X : Src.ArcHeld.State V) : Prop :=
  Src.ArcHeld.ReachND cfg X ∧ Quiet X.base ∧ X.base.handles.length + (N - l.length) + 4 < cfg.W

theorem arc_able (hv : cfg.Valid) (hk : ∀ v, cfg.kids v = []) (N : Nat) : Able (arc cfg) N (fun _ => True) (ArcCalm cfg N) where
  perm h hp := ⟨h.1, h.2.1, by rw [← hp.length_eq]; exact h.2.2⟩
  news {l X t v} hr hc hl _ ho hi := by
    obtain ⟨hnd, hq, hW⟩ := hc
    have hi : X.base.threads[t]? = some [] := hi
    have htl : t < X.base.threads.length := (List.getElem?_eq_some_iff.mp hi).1
    let c : Running V := { id := X.base.next, call := .new v false, stack :=
      [(Src.ArcCode.lang cfg).enter [(.val, some (if false then .borrowed v else .owned v))] (Src.ArcCode.newCode false)] }
    let X1 : Src.ArcHeld.State V := { X with base := { X.base with
      threads := X.base.threads.set t [c], next := X.base.next + 1, hist := .call X.base.next (.new v false) :: X.base.hist } }
    have e : Src.ArcHeld.step cfg X (.act (.new t v false)) = .ok X1 := by
      simp only [Src.ArcHeld.step, Src.ArcHeld.lift, Src.ArcNest.step, hi, hk]
      rfl
    have ha : Src.ArcHeld.Alone X1 t c := ⟨List.getElem?_set_self htl, fun u cs hu hut => by
      have hu : (X.base.threads.set t [c])[u]? = some cs := hu
      rw [List.getElem?_set_ne (Ne.symm hut)] at hu
      exact hq cs (List.mem_of_getElem? hu)⟩
    have hsz : size cfg c.stack ≤ 4 := by
      simp [c, size, Src.Lang.enter, Src.ArcCode.frameMentions, Src.ArcCode.newCode, Src.ArcCode.Val.mentions, Src.ArcCode.itemMentions, hk]
    have hmen := ha.mentions hk
    have hlen : X1.base.handles.length = X.base.handles.length := rfl
    have hf1 : Few cfg X1.base := Src.ArcHeld.few_of (by omega)
    have hnd1 : Src.ArcHeld.ReachND cfg X1 := .step (act := .act (.new t v false)) hnd (by intro h; exact h) e hf1
    have hm : Src.ArcNest.Must cfg Quiet X1.base := by
      obtain ⟨ll, S, s, hg, hz⟩ := Src.ArcHeld.good_reachND hv hnd1
      refine Src.ArcNest.must_all hv _ X1.base S s (Nat.lt_succ_self _) hg.flat hg.sim ⟨hg.inv, fun p => ?_, hz⟩ ?_
      · have e1 := hg.sim.count_le p
        have e3 := Src.ArcNest.pending_le hg.flat hg.sim
        have e4 := hg.flat.mentions cfg p
        have e5 : (Src.ArcNest.mentions cfg X1.base).count p ≤ (Src.ArcNest.mentions cfg X1.base).length := List.count_le_length
        have e6 : Src.ArcNest.running X1.base = 1 := by
          have := Src.ArcHeld.flat_alone (fun cs : List (Running V) => cs) rfl ha.this ha.others
          have := congrArg List.length this
          rwa [List.length_flatMap] at this
        simp only [Arc.A]
        omega
      · intro cs hcs d hd
        obtain ⟨u, hu⟩ := List.mem_iff_getElem?.mp hcs
        by_cases hut : u = t
        · subst hut; rw [ha.this] at hu; cases hu; cases hd
        · rw [ha.others u cs hu hut] at hd; cases hd
    have hh : X1.held = [] := (Src.ArcHeld.quiet_held hv hnd.reach hq : X.held = [])
    obtain ⟨X2, X3, a, c', g1, g2, g3, g4, g5, g6, g7, g8, g9, g10, g11, g12, g13⟩ := Src.ArcHeld.Alone.ends hv hk hm rfl hnd1 hh ha
      (by intro f hf; rcases List.mem_singleton.mp hf with rfl; rfl) hsz (by omega)
    have hpan : c'.stack.any (·.panicking) = false := by
      rw [List.any_eq_false]; intro f hf; rw [g7 f hf]; exact Bool.false_ne_true
    obtain ⟨b, x, k1, k2, _, _⟩ := Src.ArcHeld.C88_new_returns hv g3.reach g4 (g5.trans rfl) hpan g8 g10
    have ho1 : (arc cfg).Owns X1 (copies l) := ho
    refine ⟨X1, X2, b, X3, ⟨hi, false, e, hf1⟩, ho1, (ArcGoes.path g1 ho1).1, ⟨c', a, g4, g8, g9, g10, k2⟩, g13, g12, ?_⟩
    rw [k1, g2, List.length_cons, List.length_cons]
    omega
  clones {l X t p} hr hc hl hp ho hi := by
    obtain ⟨hnd, hq, hW⟩ := hc
    have hi : X.base.threads[t]? = some [] := hi
    have hpm : p ∈ X.base.handles := List.count_pos_iff.mp (Nat.lt_of_lt_of_le (List.count_pos_iff.mpr hp) (ho p))
    obtain ⟨_, x, y, hx, _⟩ := Src.ArcHeld.C88_canonical hv hr hpm hpm
    simp only [Src.ArcNest.deref, Option.map_eq_some_iff] at hx
    obtain ⟨cell, hcell, _⟩ := hx
    let X1 : Src.ArcHeld.State V := { X with base := { X.base with
      mem := { X.base.mem with heap := Arc.setCount X.base.mem.heap p (cfg.inc cell.count) }
      handles := p :: X.base.handles, next := X.base.next + 1, hist := .clone X.base.next p :: X.base.hist } }
    have hb : Arc.borrow cfg X.base.view [p] = .ok p := by
      have h1 : p ∈ X.base.view.handles := hpm
      have h2 : Arc.get X.base.view.heap p = some cell := hcell
      simp only [Arc.borrow, h1, if_true, Arc.follow, h2]
    have e : Src.ArcHeld.step cfg X (.act (.clone t [p])) = .ok X1 := by
      simp only [Src.ArcHeld.step, Src.ArcHeld.lift, Src.ArcNest.step, hi, Src.ArcHeld.mayCall, if_true, hb, hcell]
      rfl
    have hq1 : Quiet X1.base := hq
    have hlen : X1.base.handles.length = X.base.handles.length + 1 := rfl
    have hmen := Src.ArcHeld.quiet_mentions (X := X1) hk hq1
    have hf1 : Few cfg X1.base := Src.ArcHeld.few_of (by omega)
    refine ⟨X1, ⟨hi, e, hf1⟩, .step (act := .act (.clone t [p])) hnd (by intro h; exact h) e hf1, hq1, ?_⟩
    rw [hlen, List.length_cons]
    omega
  drops {l X t p} hr hc ho hi := by
    obtain ⟨hnd, hq, hW⟩ := hc
    have hi : X.base.threads[t]? = some [] := hi
    have htl : t < X.base.threads.length := (List.getElem?_eq_some_iff.mp hi).1
    have hpm : p ∈ X.base.handles := by
      refine List.count_pos_iff.mp (Nat.lt_of_lt_of_le (List.count_pos_iff.mpr ?_) (ho p))
      exact List.mem_cons_self
    let c : Running V := { id := X.base.next, call := .drop p, stack :=
      [(Src.ArcCode.lang cfg).enter [(.self, some (.ref p))] Src.ArcCode.dropCode] }
    let X1 : Src.ArcHeld.State V := { X with base := { X.base with
      threads := X.base.threads.set t [c], handles := X.base.handles.erase p, next := X.base.next + 1
      hist := .call X.base.next (.drop p) :: X.base.hist } }
    have e : Src.ArcHeld.step cfg X (.act (.drop t p)) = .ok X1 := by
      simp only [Src.ArcHeld.step, Src.ArcHeld.lift, Src.ArcNest.step, hi, Src.ArcHeld.mayCall, hpm, decide_true, Bool.and_self, if_true]
      rfl
    have ha : Src.ArcHeld.Alone X1 t c := ⟨List.getElem?_set_self htl, fun u cs hu hut => by
      have hu : (X.base.threads.set t [c])[u]? = some cs := hu
      rw [List.getElem?_set_ne (Ne.symm hut)] at hu
      exact hq cs (List.mem_of_getElem? hu)⟩
    have hsz : size cfg c.stack = 1 := rfl
    have hmen := ha.mentions hk
    have hlen : X1.base.handles.length = X.base.handles.length - 1 := List.length_erase_of_mem hpm
    have hpos : 0 < X.base.handles.length := List.length_pos_of_mem hpm
    have hf1 : Few cfg X1.base := Src.ArcHeld.few_of (by omega)
    have hnd1 : Src.ArcHeld.ReachND cfg X1 := .step (act := .act (.drop t p)) hnd (by intro h; exact h) e hf1
    have hm : Src.ArcNest.Must cfg Quiet X1.base := by
      obtain ⟨ll, S, s, hg, hz⟩ := Src.ArcHeld.good_reachND hv hnd1
      refine Src.ArcNest.must_all hv _ X1.base S s (Nat.lt_succ_self _) hg.flat hg.sim ⟨hg.inv, fun p => ?_, hz⟩ ?_
      · have e1 := hg.sim.count_le p
        have e3 := Src.ArcNest.pending_le hg.flat hg.sim
        have e4 := hg.flat.mentions cfg p
        have e5 : (Src.ArcNest.mentions cfg X1.base).count p ≤ (Src.ArcNest.mentions cfg X1.base).length := List.count_le_length
        have e6 : Src.ArcNest.running X1.base = 1 := by
          have := Src.ArcHeld.flat_alone (fun cs : List (Running V) => cs) rfl ha.this ha.others
          have := congrArg List.length this
          rwa [List.length_flatMap] at this
        simp only [Arc.A]
        omega
      · intro cs hcs d hd
        obtain ⟨u, hu⟩ := List.mem_iff_getElem?.mp hcs
        by_cases hut : u = t
        · subst hut; rw [ha.this] at hu; cases hu; cases hd
        · rw [ha.others u cs hu hut] at hd; cases hd
    have hh : X1.held = [] := (Src.ArcHeld.quiet_held hv hnd.reach hq : X.held = [])
    obtain ⟨X2, X3, a, c', g1, g2, g3, g4, g5, g6, g7, g8, g9, g10, g11, g12, g13⟩ := Src.ArcHeld.Alone.ends hv hk hm rfl hnd1 hh ha
      (by intro f hf; rcases List.mem_singleton.mp hf with rfl; rfl) (by omega) (by omega)
    have hres := Src.ArcHeld.drop_result hv g3.reach g4 (g5.trans rfl) g8 g10
    have hd : (arc cfg).Drops X t p X1 := ⟨hi, e, hf1⟩
    have ho1 : (arc cfg).Owns X1 (copies l) := (arc_laws hv).owns_drops hd (by
      rw [show (fun q => copies l q + if q = p then 1 else 0) = copies (p :: l) from funext fun q => (count_cons_if p q l).symm]
      exact ho)
    obtain ⟨k1, k2⟩ := ArcGoes.path (busy := False) g1 ho1
    refine ⟨X1, X3, hd, .step k1 ⟨_, g8, g9⟩ (fun u hu => ?_) (fun hb => hb.elim) (fun q => by rw [hres]; exact k2 q), g10, g13, g12, ?_⟩
    · show _ = _ ↔ _ = _
      rw [g11 u hu]
    · rw [hres, g2, hlen]
      rw [List.length_cons] at hW
      omega

end Client
