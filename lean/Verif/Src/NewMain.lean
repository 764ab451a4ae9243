import Verif.Src.NewProgress
import Verif.Props.PoolSource
/-
What the theorems about `Intern` and `Arena` as they are written say about `NewIntern`.
-/
namespace Src.NewCode
open Arc (Res)
open Pool (Tid Ptr Query Ret Obj Entry)

variable {K V : Type} [DecidableEq K] [BEq V] [Hashable V] {cfg : Cfg K V} {N N' : State K V}

omit [Hashable V] in
/-- Right answers do not depend on the numbers of calls. -/
theorem interned_renumber (num : Nat → Nat) (l : List (Entry K V)) (k : K) :
    Pool.interned (l.map fun e => ⟨num e.tid, e.op, e.ret⟩) k = Pool.interned l k := by
  induction l with
  | nil => rfl
  | cons e l ih => simp only [List.map_cons, Pool.interned, ih]

omit [Hashable V] in
theorem _root_.Pool.Sequential.renumber {l : List (Entry K V)} (h : Pool.Sequential l) (num : Nat → Nat) :
    Pool.Sequential (l.map fun e => ⟨num e.tid, e.op, e.ret⟩) := by
  induction l with
  | nil => trivial
  | cons e l ih =>
    refine ⟨?_, ih h.2⟩
    have := h.1
    simp only [Pool.Correct, interned_renumber] at this ⊢
    exact this

theorem ranked_run {rank : K → Nat} (hk : Ranked rank N) {t : Tid} {a : Nat} (hs : step cfg N (.run t a) = .ok N') : Ranked rank N' := by
  have key : ∀ {t : Tid} {c : Running K V} {cs : List (Running K V)} {l : List (Running K V)}, N.threads[t]? = some (c :: cs) →
      N'.threads = N.threads.set t l → (l = cs ∨ ∃ f, l = { c with frame := f } :: cs) → Ranked rank N' := by
    intro t c cs l ht e hl ds hds
    rw [e] at hds
    rcases List.mem_or_eq_of_mem_set hds with hds | rfl
    · exact hk ds hds
    · have hp := List.pairwise_cons.mp (hk _ (List.mem_of_getElem? ht))
      rcases hl with rfl | ⟨f, rfl⟩
      · exact hp.2
      · exact List.pairwise_cons.mpr ⟨hp.1, hp.2⟩
  simp only [step] at hs
  split at hs
  · rename_i c cs ht
    split at hs
    · simp only [unwind] at hs
      split at hs <;> cases hs
      exact key ht rfl (.inr ⟨_, rfl⟩)
    · split at hs <;> cases hs
      · exact key ht rfl (.inl rfl)
      · exact key ht rfl (.inr ⟨_, rfl⟩)
  · cases hs

omit [DecidableEq K] [BEq V] [Hashable V] in
theorem ranked_of {rank : K → Nat} (h : ∀ cs ∈ N.threads, cs.Pairwise fun c c' => rank c'.op.pool < rank c.op.pool) : Ranked rank N :=
  fun cs hcs => (h cs hcs).imp (S := fun (c c' : Running K V) => locksOf c'.frame ≠ [] → rank c'.op.pool < rank c.op.pool) fun h _ => h

theorem NSim.quiet {S : PoolCode.State K V} {num : Nat → Nat} {Ls : List (List (K × V))} {D : List (K × V)} (h : NSim cfg N S num Ls D) (hq : Quiet N) :
    PoolCode.Quiet S := by
  intro ps hps
  obtain ⟨t, ht⟩ := List.mem_iff_getElem?.mp hps
  have hlt : t < N.threads.length := by rw [← h.len]; exact (List.getElem?_eq_some_iff.mp ht).1
  obtain ⟨ps', L, e1, e2, hst⟩ := h.stacks t _ (List.getElem?_eq_getElem hlt)
  rw [ht] at e1; cases e1
  rw [hq _ (List.getElem_mem hlt)] at hst
  cases hst; rfl

theorem NSim.quiet_values {S : PoolCode.State K V} {num : Nat → Nat} {Ls : List (List (K × V))} {D : List (K × V)} (h : NSim cfg N S num Ls D) (hq : Quiet N) :
    Ls.flatten = [] := by
  rw [List.flatten_eq_nil_iff]
  intro L hL
  obtain ⟨t, ht⟩ := List.mem_iff_getElem?.mp hL
  have hlt : t < N.threads.length := by rw [← h.lenL]; exact (List.getElem?_eq_some_iff.mp ht).1
  obtain ⟨ps', L', e1, e2, hst⟩ := h.stacks t _ (List.getElem?_eq_getElem hlt)
  rw [ht] at e2; cases e2
  rw [hq _ (List.getElem_mem hlt)] at hst
  cases hst; rfl

section
variable [EquivBEq V] [LawfulHashable V]

theorem Reach.values (lay : cfg.Layout) (h : Reach cfg N) : ∃ busy : List (K × V),
    N.mem.born.Perm (N.mem.dead ++ (busy ++ N.mem.heap.map fun o => (o.pool, o.val))) ∧ (Quiet N → busy = []) := by
  obtain ⟨S, num, Ls, D, h1, h2⟩ := h.nsim lay
  obtain ⟨busy, g1, g2⟩ := PoolCode.C81_values_conserved lay.memory h2
  refine ⟨busy ++ Ls.flatten, ?_, fun hq => by rw [g2 (h1.quiet hq), h1.quiet_values hq]; rfl⟩
  rw [h1.mem.heap] at g1
  refine h1.born.trans ?_
  refine (g1.append_right _).trans ?_
  refine List.Perm.trans ?_ (h1.dead.symm.append_right _)
  generalize (N.mem.heap.map fun o => (o.pool, o.val)) = H
  generalize Ls.flatten = L
  generalize S.mem.dead = A
  -- A ++ (busy ++ H) ++ (D ++ L) ~ A ++ D ++ (busy ++ L ++ H)
  simp only [List.append_assoc]
  refine List.Perm.append_left _ ?_
  have e1 : (busy ++ (H ++ (D ++ L))).Perm ((D ++ L) ++ (busy ++ H)) := by
    rw [← List.append_assoc busy H]; exact List.perm_append_comm
  refine e1.trans ?_
  rw [List.append_assoc]
  refine List.Perm.append_left _ ?_
  rw [← List.append_assoc, ← List.append_assoc]
  exact List.perm_append_comm.append_right _

omit [EquivBEq V] [LawfulHashable V] in
/-- A number that has been used belongs to a call. -/
theorem Reach.called_of (h : Reach cfg N) {j : Nat} (hj : j < N.next) : ∃ o, Called N j o := by
  induction h with
  | init => exact absurd hj (Nat.not_lt_zero _)
  | step hr _ hs ih =>
    cases step_shape hs with
    | spawn _ e1 e2 => rw [e2] at hj; obtain ⟨o, ho⟩ := ih hj; exact ⟨o, by rw [Called, e1]; exact ho⟩
    | call _ e3 _ _ e1 e2 =>
      rw [e2] at hj
      rcases Nat.lt_succ_iff_lt_or_eq.mp hj with hj | rfl
      · obtain ⟨o, ho⟩ := ih hj; exact ⟨o, by rw [Called, e1]; exact List.mem_cons_of_mem _ ho⟩
      · exact ⟨_, by rw [Called, e1, e3]; exact List.mem_cons_self⟩
    | frame _ _ e1 e2 => rw [e2] at hj; obtain ⟨o, ho⟩ := ih hj; exact ⟨o, by rw [Called, e1]; exact ho⟩
    | pop _ _ e1 e2 => rw [e2] at hj; obtain ⟨o, ho⟩ := ih hj; exact ⟨o, by rw [Called, e1]; exact List.mem_append_right _ ho⟩

theorem Reach.returns (lay : cfg.Layout) (h : Reach cfg N) {t : Tid} {a : Nat} {c : Running K V} {cs : List (Running K V)}
    (ht : N.threads[t]? = some (c :: cs)) (hs : NewCode.step cfg N (.run t a) = .ok N') (he : N'.threads[t]? = some cs)
    (hp : c.frame.panicking = false) : ∃ r, N'.hist = .ret ⟨c.id, c.op, r⟩ :: N.hist := by
  obtain ⟨S, num, Ls, D, h1, h2⟩ := h.nsim lay
  obtain ⟨ps, L, hps, hL, hst⟩ := h1.stacks t _ ht
  have keep : ∀ {f : Fr K V}, (N.threads.set t ({ c with frame := f } :: cs))[t]? ≠ some cs := by
    intro f e
    rw [Pool.getElem?_set_self' ht] at e
    have := congrArg (Option.map List.length) e
    simp at this
  simp only [NewCode.step, ht] at hs
  cases hst with
  | @pre _ _ _ l L g1 g2 g3 g4 g5 =>
    exfalso
    split at hs
    · simp only [unwind] at hs
      split at hs <;> cases hs
      exact keep he
    · have hout := run_pre (g1.grows (m' := N.seen (c :: cs)) (grows_of rfl)) t a
      generalize (lang cfg).run (N.seen (c :: cs)) t a [c.frame] = X at hs hout
      cases hout with
      | go _ _ => cases hs; exact keep he
      | push _ _ => cases hs; exact keep he
      | die _ _ _ => cases hs; exact keep he
      | lock _ _ _ _ _ _ _ => cases hs; exact keep he
      | pop _ e => rw [hp] at e; cases e
      | view => cases hs
  | @post _ _ p ps _ pos g1 g2 g3 g4 g5 g6 g7 =>
    rw [if_neg (by rw [g2.refused]; simp)] at hs
    have hm : MR cfg (N.seen (c :: cs)) S.mem := h1.mem.of_eq rfl rfl rfl rfl rfl rfl rfl
    have hout := run_post lay hm (g1.grows (grows_of rfl)) g2 (pool_close lay h2 hps g5) t a
    generalize (lang cfg).run (N.seen (c :: cs)) t a [c.frame] = X at hs hout
    generalize hY : (PoolCode.lang cfg.pool).run S.mem t a [p.frame] = Y at hout
    cases hout with
    | both _ _ _ => cases hs; exact absurd he keep
    | skip _ _ => cases hs; exact absurd he keep
    | blocked => cases hs
    | ub => cases hs
    | pop hr =>
      cases hs
      obtain ⟨r, k1⟩ := PoolCode.C81_returns (S' := { S with threads := S.threads.set t ps, hist := PoolCode.ends p p.frame.ret ++ S.hist })
        lay.memory h2 hps (a := a) (by simp only [PoolCode.step, hps, hY]) (Pool.getElem?_set_self' hps) g5 (by rw [← g2.flags.1]; exact hp)
      refine ⟨r, ?_⟩
      simp only [PoolCode.ends, ← g2.flags.1, hp, g5] at k1
      simp only [ends, hp]
      rw [← toRet_rel hr]
      generalize p.frame.ret.bind PoolCode.toRet = R at k1
      cases R with
      | none => simp at k1
      | some r' =>
        simp only [Option.toList_some, List.map_cons, List.map_nil, Bool.false_eq_true, if_false, List.cons_append, List.nil_append, List.cons.injEq, and_true, PoolCode.Event.ret.injEq,
          Entry.mk.injEq, true_and] at k1 ⊢
        rw [k1]

end
end Src.NewCode
