import Verif.Client.CopySim
import Verif.Client.PoolAble
import Verif.Client.NewAble
/-
The converse of C96 (C97): whatever a program can do with trees, it can also do with handles that are `Copy`.
-/
namespace Client.Copy
open Arc (Tree)
open Client.Term (label kids same same_iff)

/-- Every call can be carried through. `calm`: nothing is in the way. -/
def News {V P : Type} (I : Interner V P) (calm : I.State → Prop) : Prop := ∀ {n : P → Nat} {s : I.State} {t : Tid} {v : V}, I.Reach s → calm s →
  I.Owns s n → I.idle s t → ∃ s1 s2 p s3, I.Calls s t v s1 ∧ I.Owns s1 n ∧ Path I t True n s1 s2 ∧ I.Returns s2 t p s3 ∧ calm s3

/-! ### The interners -/

section
open Pool (Ptr)
variable {K V : Type} [DecidableEq K] [BEq V] [Hashable V]

theorem pool_path {cfg : Pool.Cfg K V} {k : K} {t : Tid} {n : Ptr → Nat} {S S' : Src.PoolCode.State K V} (h : Src.PoolCode.Goes cfg t S S')
    (ho : (pool cfg k).Owns S n) : Path (pool cfg k) t True n S S' ∧ (pool cfg k).Owns S' n := by
  induction h with
  | refl => exact ⟨.refl, ho⟩
  | @step S1 S2 a _ h1 h2 h3 h4 h5 ih =>
    obtain ⟨g1, g2⟩ := ih
    have ho2 : (pool cfg k).Owns S2 n := by
      refine ⟨by rw [h3]; exact g2.1, fun p hp => ?_⟩
      obtain ⟨j, q, v, k2⟩ := g2.2 p hp
      exact ⟨j, q, v, by rw [Src.PoolCode.Returned, h2]; exact k2⟩
    refine ⟨.step g1 ⟨.run t a, trivial, h1⟩ (fun u hu => ?_) (fun _ => h5) ho2, ho2⟩
    show _ = _ ↔ _ = _
    rw [h4 u hu]

theorem new_path {cfg : Src.NewCode.Cfg K V} {k : K} {t : Tid} {n : Ptr → Nat} {S S' : Src.NewCode.State K V} (h : Src.NewCode.Goes cfg t S S')
    (ho : (newIntern cfg k).Owns S n) : Path (newIntern cfg k) t True n S S' ∧ (newIntern cfg k).Owns S' n := by
  induction h with
  | refl => exact ⟨.refl, ho⟩
  | @step S1 S2 a _ h1 h2 h4 h5 ih =>
    obtain ⟨g1, g2⟩ := ih
    have ho2 : (newIntern cfg k).Owns S2 n := by
      intro p hp
      obtain ⟨j, q, v, k2⟩ := g2 p hp
      exact ⟨j, q, v, by rw [Src.NewCode.Returned, h2]; exact k2⟩
    refine ⟨.step g1 ⟨.run t a, trivial, h1⟩ (fun u hu => ?_) (fun _ => h5) ho2, ho2⟩
    show _ = _ ↔ _ = _
    rw [h4 u hu]

variable [EquivBEq V] [LawfulHashable V]

theorem pool_news {cfg : Pool.Cfg K V} (lay : cfg.Layout) {k : K} : News (pool cfg k) Src.PoolCode.Quiet := by
  intro n S t v hr hq ho hi
  obtain ⟨S0, S1, S2, a, c, p, g1, g2, g3, g4, g5, g6, g7, g8, g9⟩ := hq.call lay hr hi ho.1 v
  have ho0 : (pool cfg k).Owns S0 n := by
    refine ⟨by rw [g2]; exact ho.1, fun p hp => ?_⟩
    obtain ⟨j, q, v, k2⟩ := ho.2 p hp
    exact ⟨j, q, v, g3 _ k2⟩
  exact ⟨S0, S1, p, S2, ⟨hi, _, _, Pool.lawful_new k v, g1⟩, ho0, (pool_path g4 ho0).1, ⟨c, a, _, _, g5, g6, g7, g9⟩, g8⟩

theorem new_news {cfg : Src.NewCode.Cfg K V} (lay : cfg.Layout) {k : K} :
    News (newIntern cfg k) fun S => Src.NewCode.Quiet S ∧ ¬ Src.NewCode.Poisoned cfg S k := by
  intro n S t v hr hq ho hi
  obtain ⟨S0, S1, S2, a, c, p, g1, g3, g4, g5, g6, g7, g8, g8', g9⟩ :=
    hq.1.call lay hr (ks := (· = k)) (fun _ h => h ▸ hq.2) hi rfl v
  have ho0 : (newIntern cfg k).Owns S0 n := by
    intro p hp
    obtain ⟨j, q, v, k2⟩ := ho p hp
    exact ⟨j, q, v, g3 _ k2⟩
  exact ⟨S0, S1, p, S2, ⟨hi, _, _, _, Pool.lawful_new k v, g1⟩, ho0, (new_path g4 ho0).1, ⟨c, a, _, _, g5, g6, g7, g9⟩, g8, g8' k rfl⟩

end

/-! ### Programs -/

section
variable {L P : Type} {d : P → Option (Node L P)}

theorem standsAll_back : ∀ {ps : List P} {ts : List (Tree L)}, StandsAll d ps ts → ∀ {n : Nat} {t : Tree L}, ts[n]? = some t →
    ∃ p, ps[n]? = some p ∧ Stands d p t
  | _, _, .nil, n, p, e => by simp at e
  | _, _, .cons h _, 0, p, e => by
    simp only [List.getElem?_cons_zero, Option.some.injEq] at e
    subst e; exact ⟨_, by simp, h⟩
  | _, _, .cons _ a, n + 1, p, e => by simpa using standsAll_back a (by simpa using e)

theorem pick_back : ∀ {is : List Nat} {l : List P} {m : List (Tree L)} {ts : List (Tree L)}, Pairs (Stands d) l m → pick is m = some ts →
    ∃ ps, pick is l = some ps
  | [], l, m, ps, _, e => ⟨[], rfl⟩
  | i :: is, l, m, ps, h, e => by
    simp only [pick] at e
    split at e
    · rename_i p ps' h1 h2
      obtain ⟨t, h3, _⟩ := h.back h1
      obtain ⟨ts, h5⟩ := pick_back h h2
      exact ⟨t :: ts, by simp only [pick, h3, h5]⟩
    · cases e

end

section
variable {L R P : Type} [DecidableEq P] [BEq L] [LawfulBEq L] {I : Interner (Node L P) P} {running : I.State → Tid → Node L P → Prop}

omit [BEq L] [LawfulBEq L] in
theorem WRun.trans {w w' w'' : World I R} (h : WRun w w') (h' : WRun w' w'') : WRun w w'' := by
  induction h' with
  | refl => exact h
  | step _ e ih => exact .step ih e

/-- Between two calls. -/
structure Ready (running : I.State → Tid → Node L P → Prop) (calm : I.State → Prop) (w : World I R) (c : Conf L R (Tree L)) : Prop where
  inv : Inv running w c
  rest : ∀ (t : Nat) (th : Thread L R P), w.conf.threads[t]? = some th → th.busy = false
  calm : calm w.state

theorem Inv.step (W : Laws I running) (hC : Copies I) {w w' : World I R} {c c' : Conf L R (Tree L)} (h : Inv running w c) (e : WStep w w')
    (hs : Same w' c') : Inv running w' c' := by
  obtain ⟨_, _, h'⟩ := inv_step W hC h e
  exact { h' with same := hs }

/-- The steps of a call are steps of the world. -/
theorem path_run (W : Laws I running) (hC : Copies I) {t : Tid} {n : P → Nat} {s s' : I.State} {cf : Conf L R P} {c : Conf L R (Tree L)}
    (hn : n = fun p => cf.all.count p) (h : Path I t True n s s') (hi : Inv running ⟨s, cf⟩ c) (hb : ¬ I.idle s t) :
    WRun (⟨s, cf⟩ : World I R) ⟨s', cf⟩ ∧ Inv running (⟨s', cf⟩ : World I R) c ∧ ¬ I.idle s' t := by
  subst hn
  induction h with
  | refl => exact ⟨.refl, hi, hb⟩
  | @step s1 s2 _ e h1 h2 h3 ih =>
    obtain ⟨r, i, b⟩ := ih
    have hw : WStep (⟨s1, cf⟩ : World I R) ⟨s2, cf⟩ := by
      refine .inside (w := ⟨s1, cf⟩) e (fun u _ => ?_) h3
      by_cases hut : u = t
      · subst hut
        exact ⟨fun hh => (b hh).elim, fun hh => (h2 trivial hh).elim⟩
      · exact h1 u hut
    exact ⟨.step r hw, i.step W hC hw (i.same.stay i.closed fun p hp => W.stable i.reach e i.owns h3 (owned_pos hp)), h2 trivial⟩

omit [DecidableEq P] [BEq L] [LawfulBEq L] in
theorem all_busy {cf : Conf L R P} {t : Nat} {th : Thread L R P} (ht : cf.threads[t]? = some th) (b : Bool) :
    ({ cf with threads := cf.threads.set t { th with busy := b } } : Conf L R P).all = cf.all := by
  have key : ∀ {l : List (Thread L R P)} {t : Nat}, l[t]? = some th → (l.set t { th with busy := b }).flatMap (·.locals) = l.flatMap (·.locals) := by
    intro l
    induction l with
    | nil => intro t h; cases h
    | cons a l ih =>
      intro t h
      cases t with
      | zero => simp only [List.getElem?_cons_zero, Option.some.injEq] at h; subst h; rfl
      | succ t => simp only [List.set_cons_succ, List.flatMap_cons, ih (by simpa using h)]
  simp only [Conf.all, key ht]

theorem able_step (W : Laws I running) (hC : Copies I) {calm : I.State → Prop} (A : News I calm) {w : World I R} {c c' : Conf L R (Tree L)}
    (h : Ready running calm w c) (e : VStep c c') : ∃ w', WRun w w' ∧ Ready running calm w' c' := by
  have rest : ∀ {t : Nat} {th : Thread L R P} {qs : List (List P)}, th.busy = false → ∀ (u : Nat) (tu : Thread L R P),
      ({ threads := w.conf.threads.set t th, queues := qs } : Conf L R P).threads[u]? = some tu → tu.busy = false := by
    intro t th qs hp u tu hu
    rcases get_set hu with ⟨rfl, rfl⟩ | ⟨_, hu⟩
    · exact hp
    · exact h.rest u tu hu
  have same_ := h.inv.same
  cases e with
  | @look t vt vt' vqs hvt hl =>
    obtain ⟨th, ht, hs⟩ := same_.threads.back hvt
    have hb := h.rest t th ht
    have done : ∀ {th' : Thread L R P} {qs : List (List P)}, Look (handles I w.state) th w.conf.queues th' qs →
        Same (⟨w.state, { threads := w.conf.threads.set t th', queues := qs }⟩ : World I R) { threads := c.threads.set t vt', queues := vqs } →
        ∃ w', WRun w w' ∧ Ready running calm w' { threads := c.threads.set t vt', queues := vqs } := by
      intro th' qs hk hsm
      have hw : WStep w ⟨w.state, { threads := w.conf.threads.set t th', queues := qs }⟩ := .look ht hb hk
      exact ⟨_, .step .refl hw, h.inv.step W hC hw hsm, rest (by cases hk <;> exact hb), h.calm⟩
    cases hl with
    | @eq i j k x y b e hi hj hb =>
      obtain ⟨p, h1, h2⟩ := hs.locals.back hi
      obtain ⟨q, h3, h4⟩ := hs.locals.back hj
      have hb : b = same x y := hb
      have hpq : Traits.eq p q = b := by
        rw [hb, Bool.eq_iff_iff, same_iff, ← h.inv.equal W (all_local ht (List.mem_of_getElem? h1)) (all_local ht (List.mem_of_getElem? h3)) h2 h4]
        simp [Traits.eq]
      exact done (.eq (hs.prog.trans e) h1 h3 hpq.symm)
        ⟨same_.threads.set (a := { th with prog := k b }) (b := { vt with prog := k b }) ⟨rfl, hs.locals⟩ t, same_.queues⟩
    | @node i k x l n e hi hb =>
      obtain ⟨p, h1, h2⟩ := hs.locals.back hi
      obtain ⟨rfl, rfl⟩ := hb
      cases h2 with
      | @node _ l ks ts hd a =>
        exact done (.node (hs.prog.trans e) h1 ⟨ks, hd, (standsAll_length a).symm⟩)
          ⟨same_.threads.set (a := { th with prog := k l ts.length }) (b := { vt with prog := k l ts.length }) ⟨rfl, hs.locals⟩ t, same_.queues⟩
    | @kid i n k x y e hi hb =>
      obtain ⟨p, h1, h2⟩ := hs.locals.back hi
      cases h2 with
      | @node _ l ks ts hd a =>
        obtain ⟨q, h3, h4⟩ := standsAll_back a hb
        exact done (.kid (hs.prog.trans e) h1 ⟨l, ks, hd, h3⟩) ⟨same_.threads.set ⟨rfl, hs.locals.snoc h4⟩ t, same_.queues⟩
    | @give q i k x l e hi hq =>
      obtain ⟨p, h1, h2⟩ := hs.locals.back hi
      obtain ⟨l', h3, h4⟩ := same_.queues.back hq
      exact done (.give (hs.prog.trans e) h1 h3)
        ⟨same_.threads.set (a := { th with prog := k }) (b := { vt with prog := k }) ⟨rfl, hs.locals⟩ t, same_.queues.set (h4.snoc h2) q⟩
    | @take q k x l e hq =>
      obtain ⟨l', h3, h4⟩ := same_.queues.back hq
      cases h4 with
      | @cons p _ _ _ h5 h6 =>
        exact done (.take (hs.prog.trans e) h3) ⟨same_.threads.set ⟨rfl, hs.locals.snoc h5⟩ t, same_.queues.set h6 q⟩
  | @build t vt l is k ts hvt hg hts =>
    obtain ⟨th, ht, hs⟩ := same_.threads.back hvt
    have hb := h.rest t th ht
    obtain ⟨ps, hps⟩ := pick_back hs.locals hts
    obtain ⟨s1, s2, p, s3, h1, h2, h3, h4, h5⟩ := A (v := ⟨l, ps⟩) h.inv.reach h.calm h.inv.owns (h.inv.own t th ht hb)
    have hw1 : WStep w ⟨s1, { w.conf with threads := w.conf.threads.set t { th with busy := true } }⟩ := .call ht hb (hs.prog.trans hg) hps h1 h2
    obtain ⟨hst, _, hni, _⟩ := W.calls h.inv.reach h1
    have hsm1 := h.inv.same.stay h.inv.closed fun p hp => W.stable h.inv.reach hst h.inv.owns h2 (owned_pos hp)
    have hsame1 : Same (⟨s1, { w.conf with threads := w.conf.threads.set t { th with busy := true } }⟩ : World I R) c := by
      refine ⟨?_, hsm1.queues⟩
      obtain ⟨th1, ht1, hs1⟩ := hsm1.threads.back hvt
      rw [ht] at ht1; cases ht1
      have h2 := hsm1.threads.set (a := { th with busy := true }) (b := vt) ⟨hs1.prog, hs1.locals⟩ t
      obtain ⟨hlt, hvt⟩ := List.getElem?_eq_some_iff.mp hvt
      rw [← hvt, List.set_getElem_self] at h2
      exact h2
    have i1 := h.inv.step W hC hw1 hsame1
    have ht1 := set_get { th with busy := true } ht
    obtain ⟨hr2, i2, _⟩ := path_run W hC (cf := { w.conf with threads := w.conf.threads.set t { th with busy := true } })
      (by rw [all_busy ht]) h3 i1 hni
    have hw3 := WStep.ret (w := ⟨s2, { w.conf with threads := w.conf.threads.set t { th with busy := true } }⟩) ht1 rfl (hs.prog.trans hg) h4
    obtain ⟨hst2, _, _⟩ := W.returns i2.reach h4
    obtain ⟨_, l', is', k', ps', hg', hpk, hrun⟩ := i2.calling t _ ht1 rfl
    rw [show (Thread.prog { th with busy := true } : Prog L R) = .build l is k from hs.prog.trans hg] at hg'
    cases hg'
    have hpk : pick is th.locals = some ps' := hpk
    rw [hps] at hpk; cases hpk
    obtain ⟨x, hx, hxv⟩ := W.result i2.reach i2.owns hrun h4
    have hxv := eq_of_beq hxv
    subst hxv
    have ho3 := W.less (W.owns_returns i2.reach h4 i2.owns) fun p => Nat.le_add_right _ _
    have hsm := i2.same.stay i2.closed fun q hq => W.stable i2.reach hst2 i2.owns ho3 (owned_pos hq)
    have hs3 : SameThread (I.deref s3) { th with busy := true } vt := by
      obtain ⟨a, ha, hb⟩ := hsm.threads.back hvt
      rw [ht1] at ha; cases ha
      exact hb
    obtain ⟨ts', hts', hst⟩ := pick_pairs hs3.locals hps
    rw [hts] at hts'; cases hts'
    have hsm3 := hsm.threads.set (a := { prog := k, locals := th.locals ++ [p], busy := false })
      (b := { vt with prog := k, locals := vt.locals ++ [.node l ts] }) ⟨rfl, hs3.locals.snoc (.node hx hst)⟩ t
    have i3 := i2.step W hC hw3 (c' := { c with threads := c.threads.set t { vt with prog := k, locals := vt.locals ++ [.node l ts] } }) ⟨hsm3, hsm.queues⟩
    have hrun3 := (WRun.step WRun.refl hw1).trans (hr2.step hw3)
    simp only [List.set_set] at hrun3 i3
    exact ⟨_, hrun3, i3, rest rfl, h5⟩

/-- Every execution with trees can be done with handles. -/
theorem achieves (W : Laws I running) (hC : Copies I) {calm : I.State → Prop} (A : News I calm) {ps : List (Prog L R)} {n : Nat} {w : World I R}
    (h : Starts ps n w) (hc : calm w.state) {c : Conf L R (Tree L)} (hr : VRun (start ps n) c) :
    ∃ w', WRun w w' ∧ w'.conf.progs = c.progs ∧ Same w' c := by
  have : ∃ w', WRun w w' ∧ Ready running calm w' c := by
    induction hr with
    | refl =>
      refine ⟨w, .refl, inv_start h, fun t th ht => ?_, hc⟩
      rw [h.conf] at ht
      have h1 : (ps.map fun p => ({ prog := p, locals := [], busy := false } : Thread L R P))[t]? = some th := ht
      obtain ⟨g, _, h3⟩ := List.mem_map.mp (List.mem_of_getElem? h1)
      subst h3; rfl
    | step _ e ih =>
      obtain ⟨w1, h1, h2⟩ := ih
      obtain ⟨w2, h3, h4⟩ := able_step W hC A h2 e
      exact ⟨w2, h1.trans h3, h4⟩
  obtain ⟨w', h1, h2⟩ := this
  exact ⟨w', h1, h2.inv.same.progs.symm, h2.inv.same⟩

/-! ### One thread -/

omit [DecidableEq P] [LawfulBEq L] in
theorem VRun.trans {c c' c'' : Conf L R (Tree L)} (h : VRun c c') (h' : VRun c' c'') : VRun c c'' := by
  induction h' with
  | refl => exact h
  | step _ e ih => exact .step ih e

omit [DecidableEq P] [LawfulBEq L] in
/-- The result that a thread has if it works alone can be reached. -/
theorem eval_reached {t : Nat} {r : R} : ∀ (g : Prog L R) {c : Conf L R (Tree L)} {th : Thread L R (Tree L)}, c.threads[t]? = some th → th.prog = g →
    g.eval th.locals = some r → ∃ c', VRun c c' ∧ c'.progs[t]? = some (.done r) := by
  have go : ∀ {c : Conf L R (Tree L)} {th th' : Thread L R (Tree L)} {g : Prog L R}, c.threads[t]? = some th →
      VStep c { c with threads := c.threads.set t th' } → th'.prog = g → g.eval th'.locals = some r →
      (∀ {c : Conf L R (Tree L)} {th : Thread L R (Tree L)}, c.threads[t]? = some th → th.prog = g → g.eval th.locals = some r →
        ∃ c', VRun c c' ∧ c'.progs[t]? = some (.done r)) → ∃ c', VRun c c' ∧ c'.progs[t]? = some (.done r) := by
    intro c th th' g ht e hg he ih
    obtain ⟨c', h1, h2⟩ := ih (c := { c with threads := c.threads.set t th' }) (set_get th' ht) hg he
    exact ⟨c', (VRun.step .refl e).trans h1, h2⟩
  intro g
  induction g with
  | done r' =>
    intro c th ht hg he
    cases he
    exact ⟨c, .refl, by simp only [Conf.progs, List.getElem?_map, ht, Option.map_some, hg]⟩
  | build l is k ih =>
    intro c th ht hg he
    simp only [Prog.eval] at he
    split at he
    · rename_i ts hts
      exact go ht (.build ht hg hts) rfl he ih
    · cases he
  | kid i n k ih =>
    intro c th ht hg he
    simp only [Prog.eval] at he
    split at he
    · rename_i x hx
      split at he
      · rename_i y hy
        exact go ht (.look ht (.kid hg hx hy)) rfl he ih
      · cases he
    · cases he
  | eq i j k ih =>
    intro c th ht hg he
    simp only [Prog.eval] at he
    split at he
    · rename_i x y hx hy
      exact go (th' := { th with prog := k (same x y) }) ht (.look ht (.eq hg hx hy rfl)) rfl he (ih _)
    · cases he
  | node i k ih =>
    intro c th ht hg he
    simp only [Prog.eval] at he
    split at he
    · rename_i x hx
      exact go (th' := { th with prog := k (label x) (kids x).length }) ht (.look ht (.node hg hx ⟨rfl, rfl⟩)) rfl he (ih _ _)
    · cases he
  | give => intro c th ht hg he; cases he
  | take => intro c th ht hg he; cases he

theorem achieves_result (W : Laws I running) (hC : Copies I) {calm : I.State → Prop} (A : News I calm) {ps : List (Prog L R)} {n : Nat}
    {w : World I R} (h : Starts ps n w) (hc : calm w.state) {t : Nat} {g : Prog L R} (hg : ps[t]? = some g) {r : R} (he : g.eval [] = some r) :
    ∃ w', WRun w w' ∧ w'.conf.progs[t]? = some (.done r) := by
  have h0 : (start ps n : Conf L R (Tree L)).threads[t]? = some { prog := g, locals := [], busy := false } := by
    show (ps.map _)[t]? = _
    rw [List.getElem?_map, hg]; rfl
  obtain ⟨c, h1, h2⟩ := eval_reached g h0 rfl he
  obtain ⟨w', h3, h4, _⟩ := achieves W hC A h hc h1
  exact ⟨w', h3, h4 ▸ h2⟩

end
end Client.Copy
