import Verif.Client.ArcAble
import Verif.Src.ArcSize
/-
Calls of `ArcIntern` can be carried through, also if values contain handles (C99).
-/
namespace Src.ArcHeld
open Arc (Addr Tid Cell Cfg Res)
open Src.ArcCode (Var Val Op Glue Mem Stack lang frameMentions size kept bal pot)
open Src.ArcNest (Running Few Quiet Good mentions)

variable {V : Type} [BEq V] [Hashable V] {cfg : Cfg V}

omit [BEq V] [Hashable V] in
theorem Alone.mentions_le {X : State V} {t : Tid} {c : Running V} (h : Alone X t c) :
    (ArcNest.mentions cfg X.base).length ≤ X.base.handles.length + pot cfg X.base.mem c.stack := by
  have h1 := flat_alone (fun cs : List (Running V) => cs.flatMap fun c => c.stack.flatMap (frameMentions cfg)) rfl h.this h.others
  have h2 := ArcCode.size_wt (cfg := cfg) c.stack
  simp only [ArcNest.mentions, h1, size, List.flatMap_cons, List.flatMap_nil, List.append_nil, List.length_append, pot, kept] at h2 ⊢
  omega

omit [BEq V] [Hashable V] in
theorem quiet_mentions_le {X : State V} (h : Quiet X.base) : (mentions cfg X.base).length = X.base.handles.length + kept cfg X.base.mem.heap := by
  have : (X.base.threads.flatMap fun cs : List (Running V) => cs.flatMap fun c => c.stack.flatMap (frameMentions cfg)) = [] := by
    rw [List.flatMap_eq_nil_iff]
    intro cs hcs
    rw [h cs hcs]; rfl
  simp only [ArcNest.mentions, this, List.append_nil, List.length_append, kept]

variable [EquivBEq V] [LawfulHashable V]

/-- A call that is alone comes to its end. -/
theorem Alone.through (hv : cfg.Valid) {B : Nat} {t : Tid} {N : ArcNest.State V} (hm : ArcNest.Must cfg Quiet N) :
    ∀ {X : State V} {c : Running V}, X.base = N → ReachND cfg X → X.held = [] → Alone X t c → (∀ f ∈ c.stack, f.panicking = false) →
      bal cfg X.base.mem c.stack ≤ B → pot cfg X.base.mem c.stack ≤ B + 4 → X.base.handles.length + B + 4 < cfg.W →
      ∃ X1 X2 a c', Goes cfg t X X1 ∧ X1.base.handles = X.base.handles ∧ ReachND cfg X1 ∧ X1.base.threads[t]? = some [c'] ∧ c'.call = c.call ∧
        c'.id = c.id ∧ (∀ f ∈ c'.stack, f.panicking = false) ∧ step cfg X1 (.act (.run t a)) = .ok X2 ∧ Few cfg X2.base ∧
        X2.base.threads[t]? = some [] ∧ (∀ u, u ≠ t → X2.base.threads[u]? = X1.base.threads[u]?) ∧ Quiet X2.base ∧ ReachND cfg X2 ∧ 2 * kept cfg X2.base.mem.heap ≤ B := by
  induction hm with
  | @done N hq =>
    intro X c hX _ _ ha
    subst hX
    have := hq _ (List.mem_of_getElem? ha.this)
    cases this
  | @step N t' hen _ ih =>
    intro X c hX hr hh ha hp hb hs hW
    subst hX
    obtain ⟨a, ha1, ha2⟩ := Arc.fresh_addr X.base.mem.heap
    obtain ⟨N', e⟩ := hen a ha1 ha2
    have htt : t' = t := by
      by_cases hut : t' = t
      · exact hut
      · simp only [ArcNest.step] at e
        split at e
        · rename_i d ds hd
          cases ha.others t' _ hd hut
        · cases e
    subst htt
    have hmen := ha.mentions_le (cfg := cfg)
    have hf : Few cfg X.base := few_of (by omega)
    obtain ⟨X0, hb0, hr0, hg0, e0⟩ := Alone.run hv hr ha hh e hf
    have e1 := e
    simp only [ArcNest.step, ha.this] at e1
    cases hrun : (lang cfg).run X.base.mem c.id a c.stack with
    | blocked => rw [hrun] at e1; cases e1
    | ub => rw [hrun] at e1; cases e1
    | ok d =>
      obtain ⟨m', fs', r⟩ := d
      have hcalm := (lang cfg).run_calm (by
        intro m t g m' more f hd
        cases g <;> simp only [ArcCode.drop] at hd <;> (try split at hd) <;> cases hd
        rfl) hrun hp
      have hsm : bal cfg m' fs' ≤ B ∧ pot cfg m' fs' ≤ B + 4 := by
        obtain ⟨l, S, s, hg, _⟩ := good_reachND hv hr
        have hst := (hg.flat.run _ (List.mem_of_getElem? ha.this) c (List.mem_singleton.mpr rfl)).1
        obtain ⟨th, hth, hR⟩ := hg.sim.thread hst
        have := hR.pot hrun fun b hb hd => by
          have hPb : 0 < Arc.P s b := Arc.mem_priv_P hth (by simp [hb, Arc.Pc.priv])
          have hsp := hg.inv.split b
          have hkey : b ∈ Arc.keys s.heap := List.count_pos_iff.mp (by simp only [Arc.K] at hsp; omega)
          rw [hg.sim.shared.heap] at hkey
          exact (ArcCode.keys_live hkey).2 (List.mem_flatMap.mpr ⟨_, List.mem_of_getElem? hst, hd⟩)
        omega
      rw [hrun] at e1
      have htl : t' < X.base.threads.length := (List.getElem?_eq_some_iff.mp ha.this).1
      cases fs' with
      | nil =>
        injection e1 with e1
        have hthr : N'.threads[t']? = some [] := by subst e1; exact List.getElem?_set_self htl
        have hoth : ∀ u, u ≠ t' → N'.threads[u]? = X.base.threads[u]? := by
          intro u hut; subst e1; exact List.getElem?_set_ne (Ne.symm hut)
        have hq : Quiet N' := by
          intro cs hcs
          obtain ⟨u, hu⟩ := List.mem_iff_getElem?.mp hcs
          by_cases hut : u = t'
          · subst hut; rw [hthr] at hu; cases hu; rfl
          · exact ha.others u cs (by rw [← hoth u hut]; exact hu) hut
        have hlen : N'.handles.length ≤ X.base.handles.length + 1 := by
          subst e1
          show (ArcCode.result r ++ X.base.handles).length ≤ _
          rw [List.length_append]
          have : (ArcCode.result r).length ≤ 1 := by
            unfold ArcCode.result; split <;> simp
          omega
        have hf' : Few cfg N' := few_of (by
          have := quiet_mentions_le (cfg := cfg) (X := ⟨N', []⟩) hq
          have hm' : N'.mem = m' := by subst e1; rfl
          have h0 := hsm.1
          simp only [bal, ArcCode.wStack] at h0
          simp only [hm'] at this
          omega)
        have hkept : 2 * kept cfg N'.mem.heap ≤ B := by
          have hm' : N'.mem = m' := by subst e1; rfl
          have h0 := hsm.1
          simp only [bal, ArcCode.wStack] at h0
          rw [hm']; omega
        exact ⟨X0, ⟨N', []⟩, a, c, hg0, by rw [hb0], hr0, by rw [hb0]; exact ha.this, rfl, rfl, hp, e0, hf', hthr, by rw [hb0]; exact hoth, hq,
          .step (act := .act (.run t' a)) hr0 (by intro h; exact h) e0 hf', hkept⟩
      | cons f fs' =>
        injection e1 with e1
        have hthr : N'.threads[t']? = some [{ c with stack := f :: fs' }] := by subst e1; exact List.getElem?_set_self htl
        have hoth : ∀ u, u ≠ t' → N'.threads[u]? = X.base.threads[u]? := by
          intro u hut; subst e1; exact List.getElem?_set_ne (Ne.symm hut)
        have hhan : N'.handles = X.base.handles := by subst e1; rfl
        have ha' : Alone (⟨N', []⟩ : State V) t' { c with stack := f :: fs' } :=
          ⟨hthr, fun u cs hu hut => ha.others u cs (by rw [← hoth u hut]; exact hu) hut⟩
        have hmem' : N'.mem = m' := by subst e1; rfl
        have hmen' := ha'.mentions_le (cfg := cfg)
        have hf' : Few cfg N' := few_of (by
          have h0 : pot cfg m' (f :: fs') ≤ B + 4 := hsm.2
          simp only [hhan, hmem'] at hmen'
          omega)
        obtain ⟨X1, X2, b, c', g1, g2, g3, g4, g5, g6, g7, g8, g9, g10, g11, g12⟩ := ih a N' ha1 ha2 e rfl
          (.step (act := .act (.run t' a)) hr0 (by intro h; exact h) e0 hf') rfl ha' hcalm (by simp only [hmem']; exact hsm.1) (by simp only [hmem']; exact hsm.2) (by rw [show (⟨N', []⟩ : State V).base.handles = X.base.handles from hhan]; exact hW)
        refine ⟨X1, X2, b, c', ?_, g2.trans hhan, g3, g4, g5, g6, g7, g8, g9, g10, g11, g12⟩
        have g0 : Goes cfg t' X0 X1 := .head e0 hf' (by rw [hb0]; exact hhan) (by rw [hb0]; exact hoth) (by rw [hthr]; simp) g1
        clear g1 g2 g3 g4 g5 g6 g7 g8 g9 g10 g11 g12 ih
        induction g0 with
        | refl => exact hg0
        | step _ k1 k2 k3 k4 k5 ih => exact .step ih k1 k2 k3 k4 k5

end Src.ArcHeld

namespace Client
open Arc (Cfg Addr Tid)
open Src.ArcNest (Running Few Quiet)
open Src.ArcCode (size kept bal pot)

variable {V : Type} [BEq V] [Hashable V] {cfg : Cfg V}

theorem length_eraseAll : ∀ (ks l : List Addr), (∀ p, ks.count p ≤ l.count p) → (Arc.eraseAll l ks).length + ks.length = l.length
  | [], l, _ => by simp [Arc.eraseAll]
  | k :: ks, l, h => by
    have hk : k ∈ l := by
      have := h k
      rw [List.count_cons_self] at this
      exact List.count_pos_iff.mp (by omega)
    have ih := length_eraseAll ks (l.erase k) fun p => by
      have h1 := h p
      rw [List.count_cons] at h1
      rw [List.count_erase]
      split at h1 <;> rename_i hp
      · have : k = p := by simpa using hp
        subst this; simp; omega
      · have : ¬ k = p := by simpa using hp
        simp [this] at h1 ⊢; omega
    have h2 := List.length_erase_of_mem hk
    have h3 := List.length_pos_of_mem hk
    simp only [Arc.eraseAll, List.foldl_cons, List.length_cons] at ih ⊢
    omega

variable [EquivBEq V] [LawfulHashable V]

/-- The state of the interner between calls: nobody executes a call, no removal has been abandoned (C20), and the counters have room for twice the handles
that there are, in variables and in boxes, and `k` more. -/
def ArcRoom (cfg : Cfg V) (k : Nat) (X : Src.ArcHeld.State V) : Prop :=
  Src.ArcHeld.ReachND cfg X ∧ Quiet X.base ∧ 2 * (X.base.handles.length + kept cfg X.base.mem.heap + k) + 4 < cfg.W

theorem arc_new (hv : cfg.Valid) {k : Nat} {X : Src.ArcHeld.State V} {t : Tid} {v : V} (hc : ArcRoom cfg (k + 1) X) (hi : (arc cfg).idle X t)
    (hown : ∀ p, (cfg.kids v).count p ≤ X.base.handles.count p) :
    ∃ X1 X2 b X3, (arc cfg).Calls X t v X1 ∧ Src.ArcHeld.Goes cfg t X1 X2 ∧ (arc cfg).Returns X2 t b X3 ∧ ArcRoom cfg k X3 := by
  obtain ⟨hnd, hq, hW⟩ := hc
  have hi : X.base.threads[t]? = some [] := hi
  have htl : t < X.base.threads.length := (List.getElem?_eq_some_iff.mp hi).1
  let c : Running V := { id := X.base.next, call := .new v false, stack :=
    [(Src.ArcCode.lang cfg).enter [(.val, some (if false then .borrowed v else .owned v))] (Src.ArcCode.newCode false)] }
  let X1 : Src.ArcHeld.State V := { X with base := { X.base with
    threads := X.base.threads.set t [c], handles := Arc.eraseAll X.base.handles (cfg.kids v), next := X.base.next + 1, hist := .call X.base.next (.new v false) :: X.base.hist } }
  have e : Src.ArcHeld.step cfg X (.act (.new t v false)) = .ok X1 := by
    have ho : Arc.ownsAll X.base.handles (cfg.kids v) = true := by
      simp only [Arc.ownsAll, List.all_eq_true, decide_eq_true_eq]
      exact fun p _ => hown p
    simp only [Src.ArcHeld.step, Src.ArcHeld.lift, Src.ArcNest.step, hi, Src.ArcHeld.mayCall, ho, Bool.not_false, Bool.true_or, Bool.and_self, if_true]
    rfl
  have ha : Src.ArcHeld.Alone X1 t c := ⟨List.getElem?_set_self htl, fun u cs hu hut => by
    have hu : (X.base.threads.set t [c])[u]? = some cs := hu
    rw [List.getElem?_set_ne (Ne.symm hut)] at hu
    exact hq cs (List.mem_of_getElem? hu)⟩
  have hw : ∀ ε, Src.ArcCode.wStack ε cfg c.stack = 2 * (cfg.kids v).length := fun ε => by
    simp [c, Src.Lang.enter, Src.ArcCode.newCode, Src.ArcCode.wStack, Src.ArcCode.wFrame, Src.ArcCode.wScopes, Src.ArcCode.wSc, Src.ArcCode.wItems,
      Src.ArcCode.wItem, Src.ArcCode.wOpt, Src.ArcCode.wt]
  have hbal : bal cfg X1.base.mem c.stack = 2 * (cfg.kids v).length + 2 * kept cfg X.base.mem.heap := by
    simp only [bal, hw]; rfl
  have hpot : pot cfg X1.base.mem c.stack ≤ 2 * (cfg.kids v).length + 2 * kept cfg X.base.mem.heap := by
    have h1 := Src.ArcCode.kept_filter cfg (fun e => decide (e.1 ∉ Src.ArcCode.dying c.stack)) X1.base.mem.heap
    have h2 : kept cfg X1.base.mem.heap = kept cfg X.base.mem.heap := rfl
    simp only [pot, hw]
    omega
  have hmen := ha.mentions_le (cfg := cfg)
  have hlen : X1.base.handles.length + (cfg.kids v).length = X.base.handles.length := length_eraseAll _ _ hown
  have hf1 : Few cfg X1.base := Src.ArcHeld.few_of (by omega)
  have hnd1 : Src.ArcHeld.ReachND cfg X1 := .step (act := .act (.new t v false)) hnd (by intro h; exact h) e hf1
  have hm : Src.ArcNest.Must cfg Quiet X1.base := by
    obtain ⟨ll, S, s, hg, hz⟩ := Src.ArcHeld.good_reachND hv hnd1
    refine Src.ArcNest.must_all hv _ X1.base S s (Nat.lt_succ_self _) hg.flat hg.sim ⟨hg.inv, fun p => ?_, hz⟩ ?_
    · have e1 := hg.sim.count_le p
      have e3 := Src.ArcNest.pending_le hg.flat hg.sim
      have e4 := hg.flat.mentions cfg p
      have e5 : (Src.ArcNest.mentions cfg X1.base).count p ≤ (Src.ArcNest.mentions cfg X1.base).length := List.count_le_length
      have e6 : Src.ArcNest.running X1.base = 1 := by
        have := Src.ArcHeld.flat_alone (fun cs : List (Running V) => cs) rfl ha.this ha.others
        have := congrArg List.length this
        rwa [List.length_flatMap] at this
      simp only [Arc.A]
      omega
    · intro cs hcs d hd
      obtain ⟨u, hu⟩ := List.mem_iff_getElem?.mp hcs
      by_cases hut : u = t
      · subst hut; rw [ha.this] at hu; cases hu; cases hd
      · rw [ha.others u cs hu hut] at hd; cases hd
  have hh : X1.held = [] := (Src.ArcHeld.quiet_held hv hnd.reach hq : X.held = [])
  obtain ⟨X2, X3, a, c', g1, g2, g3, g4, g5, g6, g7, g8, g9, g10, g11, g12, g13, g14⟩ := Src.ArcHeld.Alone.through hv hm rfl hnd1 hh ha
    (by intro f hf; rcases List.mem_singleton.mp hf with rfl; rfl) (B := 2 * (cfg.kids v).length + 2 * kept cfg X.base.mem.heap) (Nat.le_of_eq hbal) (by omega) (by omega)
  have hpan : c'.stack.any (·.panicking) = false := by
    rw [List.any_eq_false]; intro f hf; rw [g7 f hf]; exact Bool.false_ne_true
  obtain ⟨b, x, k1, k2, _, _⟩ := Src.ArcHeld.C88_new_returns hv g3.reach g4 (g5.trans rfl) hpan g8 g10
  refine ⟨X1, X2, b, X3, ⟨hi, false, e, hf1⟩, g1, ⟨c', a, g4, g8, g9, g10, k2⟩, g13, g12, ?_⟩
  rw [k1, g2, List.length_cons]
  omega

omit [EquivBEq V] [LawfulHashable V] in
theorem arc_clone {k : Nat} {X : Src.ArcHeld.State V} {t : Tid} {path : List Addr} {p : Addr} (hc : ArcRoom cfg (k + 1) X)
    (hi : (arc cfg).idle X t) (hb : Arc.borrow cfg X.base.view path = .ok p) (hp : (Arc.get X.base.mem.heap p).isSome) :
    ∃ X1, Src.ArcHeld.step cfg X (.act (.clone t path)) = .ok X1 ∧ Few cfg X1.base ∧ ArcRoom cfg k X1 := by
  obtain ⟨hnd, hq, hW⟩ := hc
  have hi : X.base.threads[t]? = some [] := hi
  obtain ⟨cell, hcell⟩ := Option.isSome_iff_exists.mp hp
  let X1 : Src.ArcHeld.State V := { X with base := { X.base with
    mem := { X.base.mem with heap := Arc.setCount X.base.mem.heap p (cfg.inc cell.count) }
    handles := p :: X.base.handles, next := X.base.next + 1, hist := .clone X.base.next p :: X.base.hist } }
  have e : Src.ArcHeld.step cfg X (.act (.clone t path)) = .ok X1 := by
    simp only [Src.ArcHeld.step, Src.ArcHeld.lift, Src.ArcNest.step, hi, Src.ArcHeld.mayCall, if_true, hb, hcell]
    rfl
  have hq1 : Quiet X1.base := hq
  have hlen : X1.base.handles.length = X.base.handles.length + 1 := rfl
  have hkept : kept cfg X1.base.mem.heap = kept cfg X.base.mem.heap := Src.ArcCode.kept_setCount cfg _ _ _
  have hmen := Src.ArcHeld.quiet_mentions_le (cfg := cfg) (X := X1) hq1
  have hf1 : Few cfg X1.base := Src.ArcHeld.few_of (by omega)
  refine ⟨X1, e, hf1, .step (act := .act (.clone t path)) hnd (by intro h; exact h) e hf1, hq1, ?_⟩
  rw [hlen, hkept]
  omega

theorem arc_drop (hv : cfg.Valid) {k : Nat} {X : Src.ArcHeld.State V} {t : Tid} {p : Addr} (hc : ArcRoom cfg k X) (hi : (arc cfg).idle X t)
    (hpm : p ∈ X.base.handles) :
    ∃ X1 X2 X3, (arc cfg).Drops X t p X1 ∧ Src.ArcHeld.Goes cfg t X1 X2 ∧ (arc cfg).Step X2 X3 ∧ X3.base.handles = X2.base.handles ∧
      (∀ u, u ≠ t → X3.base.threads[u]? = X2.base.threads[u]?) ∧ (arc cfg).idle X3 t ∧ ArcRoom cfg k X3 := by
  obtain ⟨hnd, hq, hW⟩ := hc
  have hi : X.base.threads[t]? = some [] := hi
  have htl : t < X.base.threads.length := (List.getElem?_eq_some_iff.mp hi).1
  let c : Running V := { id := X.base.next, call := .drop p, stack :=
    [(Src.ArcCode.lang cfg).enter [(.self, some (.ref p))] Src.ArcCode.dropCode] }
  let X1 : Src.ArcHeld.State V := { X with base := { X.base with
    threads := X.base.threads.set t [c], handles := X.base.handles.erase p, next := X.base.next + 1
    hist := .call X.base.next (.drop p) :: X.base.hist } }
  have e : Src.ArcHeld.step cfg X (.act (.drop t p)) = .ok X1 := by
    simp only [Src.ArcHeld.step, Src.ArcHeld.lift, Src.ArcNest.step, hi, Src.ArcHeld.mayCall, hpm, decide_true, Bool.and_self, if_true]
    rfl
  have ha : Src.ArcHeld.Alone X1 t c := ⟨List.getElem?_set_self htl, fun u cs hu hut => by
    have hu : (X.base.threads.set t [c])[u]? = some cs := hu
    rw [List.getElem?_set_ne (Ne.symm hut)] at hu
    exact hq cs (List.mem_of_getElem? hu)⟩
  have hw : ∀ ε, Src.ArcCode.wStack ε cfg c.stack = ε := fun ε => by
    simp [c, Src.Lang.enter, Src.ArcCode.dropCode, Src.ArcCode.wStack, Src.ArcCode.wFrame, Src.ArcCode.wScopes, Src.ArcCode.wSc, Src.ArcCode.wItems,
      Src.ArcCode.wItem, Src.ArcCode.wOpt, Src.ArcCode.wt]
  have hbal : bal cfg X1.base.mem c.stack = 2 * kept cfg X.base.mem.heap := by
    simp only [bal, hw, Nat.zero_add]; rfl
  have hpot : pot cfg X1.base.mem c.stack ≤ 2 * kept cfg X.base.mem.heap + 1 := by
    have h1 := Src.ArcCode.kept_filter cfg (fun e => decide (e.1 ∉ Src.ArcCode.dying c.stack)) X1.base.mem.heap
    have h2 : kept cfg X1.base.mem.heap = kept cfg X.base.mem.heap := rfl
    simp only [pot, hw]
    omega
  have hmen := ha.mentions_le (cfg := cfg)
  have hlen : X1.base.handles.length = X.base.handles.length - 1 := List.length_erase_of_mem hpm
  have hpos : 0 < X.base.handles.length := List.length_pos_of_mem hpm
  have hf1 : Few cfg X1.base := Src.ArcHeld.few_of (by omega)
  have hnd1 : Src.ArcHeld.ReachND cfg X1 := .step (act := .act (.drop t p)) hnd (by intro h; exact h) e hf1
  have hm : Src.ArcNest.Must cfg Quiet X1.base := by
    obtain ⟨ll, S, s, hg, hz⟩ := Src.ArcHeld.good_reachND hv hnd1
    refine Src.ArcNest.must_all hv _ X1.base S s (Nat.lt_succ_self _) hg.flat hg.sim ⟨hg.inv, fun p => ?_, hz⟩ ?_
    · have e1 := hg.sim.count_le p
      have e3 := Src.ArcNest.pending_le hg.flat hg.sim
      have e4 := hg.flat.mentions cfg p
      have e5 : (Src.ArcNest.mentions cfg X1.base).count p ≤ (Src.ArcNest.mentions cfg X1.base).length := List.count_le_length
      have e6 : Src.ArcNest.running X1.base = 1 := by
        have := Src.ArcHeld.flat_alone (fun cs : List (Running V) => cs) rfl ha.this ha.others
        have := congrArg List.length this
        rwa [List.length_flatMap] at this
      simp only [Arc.A]
      omega
    · intro cs hcs d hd
      obtain ⟨u, hu⟩ := List.mem_iff_getElem?.mp hcs
      by_cases hut : u = t
      · subst hut; rw [ha.this] at hu; cases hu; cases hd
      · rw [ha.others u cs hu hut] at hd; cases hd
  have hh : X1.held = [] := (Src.ArcHeld.quiet_held hv hnd.reach hq : X.held = [])
  obtain ⟨X2, X3, a, c', g1, g2, g3, g4, g5, g6, g7, g8, g9, g10, g11, g12, g13, g14⟩ := Src.ArcHeld.Alone.through hv hm rfl hnd1 hh ha
    (by intro f hf; rcases List.mem_singleton.mp hf with rfl; rfl) (Nat.le_of_eq hbal) (by omega) (by omega)
  have hres := Src.ArcHeld.drop_result hv g3.reach g4 (g5.trans rfl) g8 g10
  refine ⟨X1, X2, X3, ⟨hi, e, hf1⟩, g1, ⟨_, g8, g9⟩, hres, g11, g10, g13, g12, ?_⟩
  rw [hres, g2, hlen]
  omega

end Client
