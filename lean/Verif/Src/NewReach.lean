import Verif.Src.NewGlobal
/-
Every execution of the first program is one of the second.
-/
namespace Src.NewCode
open Arc (Res)
open Pool (Tid Ptr Query Ret Obj Entry)

variable {K V : Type} [DecidableEq K] [BEq V] [Hashable V] {cfg : Cfg K V} {N N' : State K V} {S : PoolCode.State K V}

omit [DecidableEq K] [BEq V] [Hashable V] in
theorem set_id {α : Type} {l : List α} {i : Nat} {x : α} (h : l[i]? = some x) : l.set i x = l := by
  apply List.ext_getElem?
  intro j
  by_cases h' : i = j
  · subst h'
    rw [List.getElem?_set_self (List.getElem?_eq_some_iff.mp h).1, h]
  · rw [List.getElem?_set_ne h']

/-- A function of the second program that goes on after its body is on its way out. -/
theorem not_close {pcfg : Pool.Cfg K V} {id : Nat} {done : List (Entry K V)} {o : Pool.Op K V} {byRef : Bool} {f : PoolCode.Fr K V} {pc : Pool.Pc K V}
    (h : PoolCode.Rel pcfg id done (.op o byRef) f pc) (he : f.exiting = false) : f.items ≠ [.close] := by
  cases h with
  | «at» hA =>
    intro e
    cases hA with
    | want h =>
      obtain ⟨y, x, l, rfl, _⟩ := PoolCode.start_head h
      simp at e
    | block _ => simp at e
    | closure _ => simp at e
    | look _ => simp at e
    | @hit _ _ _ own _ _ _ => cases own <;> simp [PoolCode.hitC] at e
    | hit2 _ => simp at e
    | @miss _ _ _ own byRef _ => cases own <;> cases byRef <;> simp [PoolCode.afterIt, PoolCode.make, PoolCode.tailC, PoolCode.arenaTail, PoolCode.internTail] at e
    | @«from» _ _ _ own _ => cases own <;> simp [PoolCode.afterIt, PoolCode.make] at e
    | mk _ => simp at e
    | @made _ _ _ own _ _ _ => cases own <;> simp [PoolCode.tailC, PoolCode.arenaTail, PoolCode.internTail] at e
    | ins _ => simp at e
    | ret _ => simp at e
    | qlook _ => simp at e
    | qret _ => simp at e
    | len _ => simp at e
  | unwind h _ _ => rw [h] at he; cases he
  | unwindBox _ h _ _ _ _ => rw [h] at he; cases he
  | leave h _ _ _ _ _ _ _ _ => rw [h] at he; cases he
  | done h _ _ _ _ _ => rw [h] at he; cases he

omit [DecidableEq K] [BEq V] [Hashable V] in
theorem toRet_rel {x : Option (Val K V)} {y : Option (PoolCode.Val K V)} (h : OR x y) : y.bind PoolCode.toRet = x.bind toRet := by
  cases h with
  | none => rfl
  | some h => cases h <;> rfl

omit [DecidableEq K] [BEq V] [Hashable V] in
theorem seen_cells (N : State K V) (cs : List (Running K V)) : (N.seen cs).cells = N.mem.cells := rfl

section
variable [EquivBEq V] [LawfulHashable V]

theorem pool_close (lay : cfg.Layout) (hr : PoolCode.Reach cfg.pool S) {t : Tid} {p : PoolCode.Running K V} {ps : List (PoolCode.Running K V)}
    (hp : S.threads[t]? = some (p :: ps)) {o : Pool.Op K V} {byRef : Bool} (hc : p.call = .op o byRef) : p.frame.exiting = false → p.frame.items ≠ [.close] := by
  obtain ⟨s, h1, h2⟩ := hr.sim lay.memory
  obtain ⟨pc, _, hR, _⟩ := h1.rel p (PoolCode.mem_calls hp List.mem_cons_self)
  rw [hc] at hR
  exact not_close hR

theorem ret_lt (lay : cfg.Layout) (hr : PoolCode.Reach cfg.pool S) {e : Entry K V} (he : PoolCode.Returned S e) : e.tid < S.next := by
  obtain ⟨s, h1, h2⟩ := hr.sim lay.memory
  have := h1.lin.calls _ _ (h1.lin.log e (h2.done_sub (h1.lin.rets _ he)))
  rw [h1.len] at this
  exact this

omit [DecidableEq K] [BEq V] [Hashable V] [EquivBEq V] [LawfulHashable V] in
theorem grows_of {m m' : Mem K V} (h : m'.cells = m.cells) : Grows m m' := .of_eq fun s => by simp only [tids, h]

theorem nsim_step (lay : cfg.Layout) {num : Nat → Nat} {Ls : List (List (K × V))} {D : List (K × V)} (h : NSim cfg N S num Ls D) (hi : Ids N)
    (hr : PoolCode.Reach cfg.pool S) {act : Act K V} (hl : act.Lawful) (hs : step cfg N act = .ok N') :
    ∃ S' num' Ls' D', NSim cfg N' S' num' Ls' D' ∧ PoolCode.Later cfg.pool S S' := by
  cases act with
  | spawn =>
    cases hs
    refine ⟨{ S with threads := S.threads ++ [[]] }, num, Ls ++ [[]], D, ?_, .step (act := .spawn) (.refl S) trivial rfl⟩
    refine ⟨h.mem, h.gone, by simp [h.len], by simp [h.lenL], ?_, by simpa using h.born, h.dead, h.fresh, h.inj, h.rets, h.calls, h.order⟩
    intro t cs ht
    rcases Nat.lt_or_ge t N.threads.length with hlt | hge
    · rw [List.getElem?_append_left hlt] at ht
      obtain ⟨ps, L, h1, h2, h3⟩ := h.stacks t cs ht
      exact ⟨ps, L, by rw [List.getElem?_append_left (by rw [h.len]; exact hlt)]; exact h1, by rw [List.getElem?_append_left (by rw [h.lenL]; exact hlt)]; exact h2, h3⟩
    · rw [List.getElem?_append_right hge] at ht
      have : t - N.threads.length = 0 ∧ cs = [] := by
        cases hx : t - N.threads.length with
        | zero => rw [hx] at ht; cases ht; exact ⟨rfl, rfl⟩
        | succ i => rw [hx] at ht; cases ht
      obtain ⟨e1, rfl⟩ := this
      refine ⟨[], [], ?_, ?_, .nil⟩
      · rw [List.getElem?_append_right (by rw [h.len]; exact hge), h.len, e1]; rfl
      · rw [List.getElem?_append_right (by rw [h.lenL]; exact hge), h.lenL, e1]; rfl
  | call t o byRef unw =>
    simp only [step] at hs
    split at hs
    · rename_i cs f ht hf
      split at hs
      · rename_i hcan
        cases hs
        obtain ⟨ps, L, hps, hL, hst⟩ := h.stacks t cs ht
        have hlt : t < S.threads.length := (List.getElem?_eq_some_iff.mp hps).1
        refine ⟨S, num, Ls.set t (taken o byRef ++ L), D, ?_, .refl S⟩
        refine h.change (le := [.call N.next o]) (le' := []) ht hps hL rfl (set_id hps).symm ?_ (grows_of rfl)
          (h.mem.of_eq rfl rfl rfl rfl rfl rfl rfl) rfl rfl rfl rfl (Nat.le_succ _) ?_ id ?_ ?_ ?_
        · refine .pre (pre_start hf _) hl (fun j hj => ?_) hcan (hst.mem (grows_of rfl))
          have := h.fresh j hj
          simp only; omega
        · intro r hp
          refine (hp.append_left (taken o byRef)).trans ?_
          have p1 : ∀ (A B C T : List (K × V)), (T ++ (A ++ (B ++ C))).Perm (A ++ (B ++ (T ++ C))) := by
            intro A B C T
            refine (List.perm_append_comm_assoc T A (B ++ C)).trans (List.Perm.append_left A ?_)
            exact List.perm_append_comm_assoc T B C
          rw [List.append_assoc]
          exact p1 _ _ _ _
        · intro e he; simp at he
        · intro j o' hj
          simp only [List.mem_singleton, Event.call.injEq] at hj
          rw [hj.1]; exact Nat.le_refl _
        · intro j o' hj; cases hj
      · cases hs
    · cases hs
  | panic t =>
    simp only [step] at hs
    split at hs
    · rename_i c cs ht
      split at hs
      · rename_i hu
        obtain ⟨ps, L, hps, hL, hst⟩ := h.stacks t _ ht
        cases hst with
        | pre h1 _ _ _ _ =>
          exfalso
          have := h1.user hu
          simp only [unwind, Lang.panic, List.any_cons, this, Bool.true_or, if_true] at hs
          cases hs
        | @post _ _ p ps _ pos h1 h2 h3 h4 h5 h6 h7 =>
          have hb := panic_post h2 hu (N.seen (c :: cs)) S.mem
          simp only [unwind] at hs
          generalize hX : (lang cfg).panic (N.seen (c :: cs)) [c.frame] = X at hs hb
          generalize hY : (PoolCode.lang cfg.pool).panic S.mem [p.frame] = Y at hb
          cases hb with
          | blocked => cases hs
          | ub => cases hs
          | ok hb =>
            obtain ⟨f', p', rfl, rfl, _, hp⟩ := hb
            cases hs
            refine ⟨{ S with threads := S.threads.set t ({ p with frame := p' } :: ps) }, num, Ls.set t L, D, ?_, .step (act := .panic t) (.refl S) trivial ?_⟩
            · exact h.change (le := []) (le' := []) ht hps hL rfl rfl (.post (p := { p with frame := p' }) h1 hp h3 h4 h5 h6 h7) (.refl _) h.mem rfl rfl rfl rfl
                (Nat.le_refl _) (fun r hp => hp) id (fun e he => by cases he) (fun _ _ he => by cases he) (fun _ _ he => by cases he)
            · simp only [PoolCode.step, hps, hY]
      · cases hs
    · cases hs
  | run t a =>
    simp only [step] at hs
    split at hs
    · rename_i c cs ht
      obtain ⟨ps, L, hps, hL, hst⟩ := h.stacks t _ ht
      cases hst with
      | @pre _ _ _ l L h1 h2 h3 h4 h5 =>
        have quiet : ∀ {f' : Fr K V} {N' : State K V}, Pre cfg N'.mem c.op c.byRef l f' → N'.threads = N.threads.set t ({ c with frame := f' } :: cs) →
            Grows N.mem N'.mem → MR cfg N'.mem S.mem → N'.hist = N.hist → N'.next = N.next → N'.mem.born = N.mem.born → N'.mem.dead = N.mem.dead →
            ∃ S' num' Ls' D', NSim cfg N' S' num' Ls' D' ∧ PoolCode.Later cfg.pool S S' := by
          intro f' N' hp e1 e2 e3 e4 e5 e6 e7
          refine ⟨S, num, Ls.set t (l ++ L), D, ?_, .refl S⟩
          refine h.change (le := []) (le' := []) ht hps hL e1 (set_id hps).symm (.pre hp h2 h3 h4 (h5.mem e2)) e2 e3 rfl rfl (by rw [e4]; rfl) rfl
            (by omega) (fun r hp => by rw [e6]; exact hp) (fun hp => by rw [e7]; exact hp) (fun e he => by cases he) (fun _ _ he => by cases he) (fun _ _ he => by cases he)
        split at hs
        · rename_i hrf
          obtain ⟨f', e1, e2⟩ := panic_pre h1 hrf (m' := N.seen (c :: cs)) rfl
          simp only [unwind, e1] at hs
          cases hs
          exact quiet e2 rfl (.refl _) h.mem rfl rfl rfl rfl
        · have hm : MR cfg (N.seen (c :: cs)) S.mem := h.mem.of_eq rfl rfl rfl rfl rfl rfl rfl
          have hout := run_pre (h1.grows (m' := N.seen (c :: cs)) (grows_of rfl)) t a
          generalize (lang cfg).run (N.seen (c :: cs)) t a [c.frame] = X at hs hout
          cases hout with
          | go hp _ => cases hs; exact quiet hp rfl (grows_of rfl) hm rfl rfl rfl rfl
          | push hp _ => cases hs; exact quiet hp rfl (tids_push _ _ _) (hm.push _ _) rfl rfl rfl rfl
          | view => cases hs
          | @die f' x l' hl hp _ =>
            cases hs
            subst hl
            refine ⟨S, num, Ls.set t (l' ++ L), x :: D, ?_, .refl S⟩
            refine h.change (le := []) (le' := []) ht hps hL rfl (set_id hps).symm (.pre (hp.grows (grows_of rfl)) h2 h3 h4 (h5.mem (grows_of rfl)))
              (grows_of rfl) (hm.of_eq rfl rfl rfl rfl rfl rfl rfl) rfl rfl rfl rfl (Nat.le_refl _) (fun r hp => hp.trans ?_) (fun hp => (hp.cons x).trans ?_)
              (fun e he => by cases he) (fun _ _ he => by cases he) (fun _ _ he => by cases he)
            · refine List.Perm.append_left _ ?_
              simp only [List.cons_append]
              exact List.perm_middle
            · exact List.perm_middle.symm
          | pop hl hpn =>
            cases hs
            subst hl
            refine ⟨S, num, Ls.set t L, D, ?_, .refl S⟩
            refine h.change (le := ends c c.frame.ret) (le' := []) ht hps hL rfl (set_id hps).symm (h5.mem (grows_of rfl))
              (grows_of rfl) hm rfl rfl rfl rfl (Nat.le_refl _) (fun r hp => hp) id
              (fun e he => by simp [ends, hpn] at he) (fun _ _ he => absurd he mem_ends) (fun _ _ he => by cases he)
          | @lock f' pos cell hl hf hc ho hpo _ _ hp =>
            cases hs
            subst hl
            -- the second program makes the call, and takes the lock
            have hcalls : c ∈ N.calls := List.mem_flatten.mpr ⟨_, List.mem_of_getElem? ht, List.mem_cons_self⟩
            have hlt : t < S.threads.length := (List.getElem?_eq_some_iff.mp hps).1
            have hm1 : MR cfg (N.seen (c :: cs)) { S.mem with born := taken c.op c.byRef ++ S.mem.born } := h.mem.of_eq rfl rfl rfl rfl rfl rfl rfl
            generalize hM : ({ S.mem with born := taken c.op c.byRef ++ S.mem.born } : PoolCode.Mem K V) = M at hm1
            obtain ⟨p0, p', e1, e2, e3⟩ := hp _ hm1
            let S1 : PoolCode.State K V := { S with
              gone := []
              mem := M
              threads := S.threads.set t ({ id := S.next, call := .op c.op c.byRef, frame := p0 } :: ps)
              next := S.next + 1
              hist := .call S.next c.op :: S.hist }
            have s1 : PoolCode.step cfg.pool S (.call t c.op c.byRef) = .ok S1 := by
              have : (PoolCode.taken c.op c.byRef : List (K × V)) = taken c.op c.byRef := by cases c.op <;> cases c.byRef <;> rfl
              simp only [PoolCode.step, hps, e1, h5.canCall h4, h.gone, this, hM, List.not_mem_nil, decide_false, Bool.not_false, Bool.and_true, if_true]
              rfl
            let S2 : PoolCode.State K V := { S1 with
              mem := { M with lock := fun j => if j = cfg.typeId c.op.pool then some t else M.lock j }
              threads := S1.threads.set t ({ id := S.next, call := .op c.op c.byRef, frame := p' } :: ps) }
            have s2 : PoolCode.step cfg.pool S1 (.run t a) = .ok S2 := by
              have : S1.threads[t]? = some ({ id := S.next, call := .op c.op c.byRef, frame := p0 } :: ps) := List.getElem?_set_self hlt
              have e2 : (PoolCode.lang cfg.pool).run S1.mem t a [p0] = _ := e2
              simp only [PoolCode.step, this, e2]
              rfl
            let num' : Nat → Nat := fun j => if j = S.next then c.id else num j
            have hn : ∀ j, j < S.next → num' j = num j := fun j hj => if_neg (by omega)
            have hnew : num' S.next = c.id := if_pos rfl
            have hg : Grows N.mem ((N.seen (c :: cs)).setCell (cfg.shard c.op.pool) pos { cell with owner := some t }) :=
              .of_eq fun s => (tids_setCell (m := N.seen (c :: cs)) hc (by rfl) s).trans rfl
            have hid : c.id < N.next := hi.lt _ _ (hi.called c hcalls)
            have other : ∀ (u : Nat) us, (N.threads.set t cs)[u]? = some us → ∀ d ∈ us, ∀ j, S.next ≤ j → j < S.next + 1 → num' j ≠ d.id := by
              intro u us hu d hd j hj1 hj2 e
              have : j = S.next := by omega
              subst this
              rw [hnew] at e
              obtain ⟨x, y, g1, g2⟩ := PoolCode.flatten_set ht
              have hnd := hi.nodup
              have hd' : d ∈ x ++ (cs ++ y) := by rw [← g2]; exact List.mem_flatten.mpr ⟨us, List.mem_of_getElem? hu, hd⟩
              have ep : N.calls.Perm (c :: (x ++ (cs ++ y))) := by rw [State.calls, g1]; exact List.perm_middle
              rw [(ep.map _).nodup_iff, List.map_cons, List.nodup_cons] at hnd
              exact hnd.1 (List.mem_map.mpr ⟨d, hd', e.symm⟩)
            have hlt' : t < N.threads.length := (List.getElem?_eq_some_iff.mp ht).1
            refine ⟨S2, num', Ls.set t L, D, ?_, .step (act := .run t a) (.step (act := .call t c.op c.byRef) (.refl S) h2 s1) trivial s2⟩
            obtain ⟨cc, k1, k2, k3⟩ := hf.cell
            rw [hc] at k1; cases k1
            refine ⟨?_, rfl, by simp [S2, S1, h.len], by simp [h.lenL], ?_, ?_, by subst hM; exact h.dead, ?_, ?_, ?_, ?_, ?_⟩
            · have := hm1.owner lay hf k3 (some t) cell.poisoned
              exact this
            · intro u us hu
              simp only at hu
              by_cases e : u = t
              · subst e
                rw [List.getElem?_set_self hlt'] at hu
                cases hu
                refine ⟨{ id := S.next, call := .op c.op c.byRef, frame := p' } :: ps, L, ?_, List.getElem?_set_self (by rw [h.lenL]; exact hlt'), ?_⟩
                · exact List.getElem?_set_self (by simpa [S1] using hlt)
                · refine .post (pos := pos) (hf.grows hg) ?_ (Nat.lt_succ_self _) hnew rfl h4 ?_
                  · have : (N.seen (c :: cs)).panicking = (c.unw || unwinding cs) := by
                      simp only [State.seen, unwinding, List.any_cons]
                      rename_i hfp _
                      rw [hfp, Bool.or_false]
                    rw [this] at e3
                    exact e3
                  · exact h5.mono hg (Nat.le_succ _) hn (other u cs (List.getElem?_set_self hlt'))
              · rw [List.getElem?_set_ne (Ne.symm e)] at hu
                obtain ⟨qs, M, g1, g2, g3⟩ := h.stacks u us hu
                refine ⟨qs, M, ?_, by rw [List.getElem?_set_ne (Ne.symm e)]; exact g2, ?_⟩
                · simp only [S2, S1, List.set_set]
                  rw [List.getElem?_set_ne (Ne.symm e)]; exact g1
                · exact g3.mono hg (Nat.le_succ _) hn (other u us (by rw [List.getElem?_set_ne (Ne.symm e)]; exact hu))
            · obtain ⟨x, y, g1, g2⟩ := PoolCode.flatten_set hL
              have := h.born
              rw [g1] at this
              rw [g2]
              refine this.trans ?_
              subst hM
              show (S.mem.born ++ (D ++ (x ++ (taken c.op c.byRef ++ L ++ y)))).Perm ((taken c.op c.byRef ++ S.mem.born) ++ (D ++ (x ++ (L ++ y))))
              rw [List.append_assoc (taken c.op c.byRef) L y, List.append_assoc (taken c.op c.byRef) S.mem.born]
              have p1 : ∀ (A B C E T : List (K × V)), (A ++ (B ++ (C ++ (T ++ E)))).Perm (T ++ (A ++ (B ++ (C ++ E)))) := by
                intro A B C E T
                refine .trans ?_ (List.perm_append_comm_assoc A T _)
                refine List.Perm.append_left A (.trans ?_ (List.perm_append_comm_assoc B T _))
                exact List.Perm.append_left B (List.perm_append_comm_assoc C T E)
              exact p1 _ _ _ _ _
            · intro j hj
              have hj : j < S.next + 1 := hj
              by_cases e : j = S.next
              · subst e; rw [hnew]; exact hid
              · rw [hn j (by omega)]; exact h.fresh j (by omega)
            · intro i j hi' hj' e
              have hi' : i < S.next + 1 := hi'
              have hj' : j < S.next + 1 := hj'
              by_cases e1 : i = S.next <;> by_cases e2 : j = S.next
              · omega
              · exfalso
                rw [e1, hnew, hn j (by omega)] at e
                exact h3 j (by omega) e.symm
              · exfalso
                rw [e2, hnew, hn i (by omega)] at e
                exact h3 i (by omega) e
              · rw [hn i (by omega), hn j (by omega)] at e
                exact h.inj i j (by omega) (by omega) e
            · intro e he
              obtain ⟨e', g1, g2⟩ := h.rets e he
              have hlt := (ret_lt lay hr g1)
              exact ⟨e', List.mem_cons_of_mem _ g1, by rw [hn _ hlt]; exact g2⟩
            · intro j o' hj
              rcases List.mem_cons.mp hj with e | hj
              · cases e
                exact ⟨Nat.lt_succ_self _, by rw [hnew]; exact hi.called c hcalls⟩
              · obtain ⟨g1, g2⟩ := h.calls j o' hj
                exact ⟨Nat.lt_succ_of_lt g1, by rw [hn j g1]; exact g2⟩
            · intro e j hj hb
              have hj : j < S.next + 1 := hj
              by_cases ej : j = S.next
              · subst ej
                obtain ⟨later, o', earlier, g1, g2⟩ := hb
                obtain ⟨e', g3, g4⟩ := h.rets e (by rw [show N.hist = _ from g1]; simp [g2])
                have hlt := (ret_lt lay hr g3)
                exact ⟨e', ⟨[], c.op, S.hist, rfl, g3⟩, by rw [hn _ hlt]; exact g4⟩
              · rw [hn j (by omega)] at hb
                obtain ⟨e', g1, g2⟩ := h.order e j (by omega) hb
                have g3 := g1
                obtain ⟨_, _, _, g4, g5⟩ := g3
                have hlt := (ret_lt lay hr (e := e') (by rw [PoolCode.Returned, g4]; simp [g5]))
                exact ⟨e', ret_old (l := [.call S.next c.op]) rfl g1, by rw [hn _ hlt]; exact g2⟩
      | @post _ _ p ps _ pos h1 h2 h3 h4 h5 h6 h7 =>
        rw [h2.refused] at hs
        simp only [Bool.false_eq_true, if_false] at hs
        have hm : MR cfg (N.seen (c :: cs)) S.mem := h.mem.of_eq rfl rfl rfl rfl rfl rfl rfl
        have hout := run_post lay hm (h1.grows (grows_of rfl)) h2 (pool_close lay hr hps h5) t a
        generalize hX : (lang cfg).run (N.seen (c :: cs)) t a [c.frame] = X at hs hout
        generalize hY : (PoolCode.lang cfg.pool).run S.mem t a [p.frame] = Y at hout
        cases hout with
        | blocked => cases hs
        | ub => cases hs
        | skip _ hp =>
          cases hs
          refine ⟨S, num, Ls.set t L, D, ?_, .refl S⟩
          exact h.change (le := []) (le' := []) ht hps hL rfl (set_id hps).symm (.post (h1.grows (grows_of rfl)) hp h3 h4 h5 h6 (h7.mem (grows_of rfl))) (grows_of rfl) hm rfl rfl rfl rfl
            (Nat.le_refl _) (fun r hp => hp) id (fun e he => by cases he) (fun _ _ he => by cases he) (fun _ _ he => by cases he)
        | @both m' n' f' p' hmv _ hp =>
          cases hs
          have hg : Grows N.mem m' := .of_eq fun s => (hmv.cells.tids s).trans rfl
          obtain ⟨b, d, g1, g2, g3, g4⟩ := hmv.ledger
          refine ⟨{ S with mem := n', threads := S.threads.set t ({ p with frame := p' } :: ps) }, num, Ls.set t L, D, ?_, .step (act := .run t a) (.refl S) trivial ?_⟩
          · refine h.change (le := []) (le' := []) ht hps hL rfl rfl (.post (p := { p with frame := p' }) (h1.grows hg) hp h3 h4 h5 h6 (h7.mem hg)) hg hmv.mem rfl rfl rfl rfl
              (Nat.le_refl _) (fun r hp => ?_) (fun hp => ?_) (fun e he => by cases he) (fun _ _ he => by cases he) (fun _ _ he => by cases he)
            · simp only [g1, g2]
              rw [List.append_assoc]
              exact hp.append_left b
            · simp only [g3, g4]
              rw [List.append_assoc]
              exact hp.append_left d
          · simp only [PoolCode.step, hps, hY]
        | pop hor =>
          cases hs
          refine ⟨{ S with threads := S.threads.set t ps, hist := PoolCode.ends p p.frame.ret ++ S.hist }, num, Ls.set t L, D, ?_, .step (act := .run t a) (.refl S) trivial ?_⟩
          · refine h.change (le := ends c c.frame.ret) (le' := PoolCode.ends p p.frame.ret) ht hps hL rfl rfl (h7.mem (grows_of rfl)) (grows_of rfl) hm rfl rfl rfl rfl
              (Nat.le_refl _) (fun r hp => hp) id ?_ (fun _ _ he => absurd he mem_ends) ?_
            · intro e he
              simp only [ends] at he
              simp only [PoolCode.ends, ← h2.flags.1, h5, toRet_rel hor]
              split at he
              · simp at he
              · rename_i hpn
                rw [if_neg hpn]
                obtain ⟨r, hr1, hr2⟩ := List.mem_map.mp he
                cases hr2
                exact ⟨_, List.mem_map.mpr ⟨r, hr1, rfl⟩, by simp only [h4]⟩
            · intro j o' hj
              simp only [PoolCode.ends, h5] at hj
              split at hj
              · cases hj
              · obtain ⟨_, _, e⟩ := List.mem_map.mp hj
                cases e
          · simp only [PoolCode.step, hps, hY]
    · cases hs

end
end Src.NewCode
