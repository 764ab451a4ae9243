import Verif.Arc.Effects
import Verif.Arc.Demo
/-!
C09: every supplied value is stored or destroyed exactly once. Vocabulary (`valuesIn`, `supplies`, `destroys`,
`Ledger`) in `Verif/Arc/Spec.lean`.
-/
namespace Arc

section
variable {α : Type}
theorem perm_of_countP {l l' : List α} (h : ∀ f : α → Bool, l.countP f = l'.countP f) : l.Perm l' := by
  classical
  exact List.perm_iff_count.mpr fun a => h (· == a)

theorem countP_flatMap_set {β : Type} (g : β → List α) (f : α → Bool) :
    ∀ (l : List β) (t : Nat) (x y : β), l[t]? = some x →
    ((l.set t y).flatMap g).countP f + (g x).countP f = (l.flatMap g).countP f + (g y).countP f
  | [], t, x, y, h => by simp at h
  | z :: l, 0, x, y, h => by
    simp only [List.getElem?_cons_zero, Option.some.injEq] at h
    subst h; simp only [List.set_cons_zero, List.flatMap_cons, List.countP_append]; omega
  | z :: l, t + 1, x, y, h => by
    simp only [List.getElem?_cons_succ] at h
    have := countP_flatMap_set g f l t x y h
    simp only [List.set_cons_succ, List.flatMap_cons, List.countP_append]; omega
end

variable {V : Type}

theorem data_setCount (h : List (Addr × Cell V)) (a : Addr) (n : Nat) :
    (setCount h a n).map (·.2.data) = h.map (·.2.data) := by
  unfold setCount
  rw [List.map_map]
  apply List.map_congr_left
  intro e _
  simp only [Function.comp_apply]
  split <;> rfl

theorem data_free (f : V → Bool) : ∀ (h : List (Addr × Cell V)) (a : Addr) (x : Cell V), get h a = some x →
    (∀ b, (keys h).count b ≤ 1) →
    (h.map (·.2.data)).countP f = ((free h a).map (·.2.data)).countP f + [x.data].countP f
  | [], a, x, hx, _ => by simp [get] at hx
  | (b, c) :: h, a, x, hx, hnd => by
    simp only [get] at hx
    by_cases hb : b = a
    · rw [if_pos hb] at hx; cases hx
      have hna : a ∉ keys h := by
        have := hnd a
        simp only [keys, List.map_cons, hb, List.count_cons_self] at this
        exact List.count_eq_zero.mp (by simp only [keys]; omega)
      have : free ((b, c) :: h) a = free h a := by simp [free, hb]
      rw [this, free_eq_self hna]
      simp only [List.map_cons, List.countP_cons, List.countP_nil]; omega
    · rw [if_neg hb] at hx
      have hnd' : ∀ q, (keys h).count q ≤ 1 := by
        intro q
        have := hnd q
        simp only [keys, List.map_cons, List.count_cons] at this ⊢; omega
      have := data_free f h a x hx hnd'
      have e : free ((b, c) :: h) a = (b, c) :: free h a := by simp [free, hb]
      rw [e]
      simp only [List.map_cons, List.countP_cons] at this ⊢; omega

variable [BEq V] [Hashable V]

theorem step_ledger {cfg : Cfg V} {s s' : State V} (hI : Inv cfg s) {act : Act V} (hsane : act.Sane)
    (h : step cfg s act = .ok s') (f : V → Bool) :
    (valuesIn s').countP f + (destroys s act).countP f = (valuesIn s).countP f + (supplies s act).countP f := by
  have hR := step_R h
  have set : ∀ {t : Tid} {th th' : Thread V}, s.threads[t]? = some th →
      ((s.threads.set t th').flatMap (fun th => th.pc.vals)).countP f + th.pc.vals.countP f =
      (s.threads.flatMap (fun th => th.pc.vals)).countP f + th'.pc.vals.countP f :=
    fun ht => countP_flatMap_set _ f _ _ _ _ ht
  have idle : ∀ {th : Thread V}, th.isIdle = true → th.pc.vals = [] := by
    intro th h; rw [(isIdle_iff.mp h).1]; rfl
  cases hR with
  | spawn => simp [valuesIn, supplies, destroys, Pc.vals]
  | new t v dst th ht hid =>
    have := set (th' := { pc := .newLoop { val := v, dst := dst, conv := none }, arg := some v }) ht
    rw [idle hid] at this
    simp only [valuesIn, supplies, destroys, State.setThread, List.countP_append, Pc.vals, List.countP_nil] at this ⊢
    omega
  | clone t path th p x ht hid hp hx =>
    simp [valuesIn, supplies, destroys, data_setCount]
  | read => simp [supplies, destroys]
  | drop t p th ht hid =>
    have := set (th' := { pc := .dropSub p }) ht
    rw [idle hid] at this
    simp only [valuesIn, supplies, destroys, State.setThread, List.countP_append, Pc.vals, List.countP_nil] at this ⊢
    omega
  | len t lo up th ht hid =>
    have := set (th' := { pc := .lenScan lo up 0 }) ht
    rw [idle hid] at this
    simp only [valuesIn, supplies, destroys, State.setThread, List.countP_append, Pc.vals, List.countP_nil] at this ⊢
    omega
  | shrink t lo up th ht hid =>
    have := set (th' := { pc := .shrinkScan lo up }) ht
    rw [idle hid] at this
    simp only [valuesIn, supplies, destroys, State.setThread, List.countP_append, Pc.vals, List.countP_nil] at this ⊢
    omega
  | panicLoop t th c ht hpc =>
    have := set (th' := unwindCall cfg c none none) ht
    have hu : (unwindCall cfg c none none).pc.vals = [] := by unfold unwindCall; cases c.conv <;> rfl
    rw [hu, hpc] at this
    simp only [valuesIn, supplies, destroys, ht, hpc, State.setThread, List.countP_append, Pc.vals, List.countP_nil] at this ⊢
    omega
  | panicEntry t th c b ht hpc =>
    have := set (th' := { pc := .dropFree b }) ht
    simp only [valuesIn, supplies, destroys, ht, hpc, State.setThread, List.countP_append, Pc.vals, List.countP_nil] at this ⊢
    omega
  | panicRemove t th b ht hpc =>
    have := set (th' := { th with pc := .idle }) ht
    simp only [valuesIn, supplies, destroys, ht, hpc, State.setThread, List.countP_append, Pc.vals, List.countP_nil] at this ⊢
    omega
  | panicShrink t th i m ht hpc hi hl =>
    have := set (th' := { th with pc := .idle }) ht
    simp only [valuesIn, supplies, destroys, ht, hpc, State.setThread, List.countP_append, Pc.vals, List.countP_nil] at this ⊢
    omega
  | panicInsert t => exact hsane.elim
  | run t a th _ ht hr =>
    have hth := hI.th t th ht
    have hpi := hth.pc
    cases hr with
    | hitRet c sh b hpc =>
      have := set (th' := unwindCall cfg c (some b) th.arg) ht
      have hu : (unwindCall cfg c (some b) th.arg).pc.vals = [] := by unfold unwindCall; cases c.conv <;> rfl
      rw [hu, hpc] at this
      simp only [valuesIn, supplies, destroys, ht, hpc, State.setThread, State.unlock, List.countP_append, Pc.vals, List.countP_nil] at this ⊢
      omega
    | cached c b hpc hl hf hc =>
      have := set (th' := { th with pc := .newEntry { c with conv := none } b }) ht
      rw [hpc] at hpi
      have hd : c.dst = true := by
        cases hd : c.dst with
        | true => rfl
        | false => have := hpi.2.1 hd; rw [hc] at this; cases this
      simp only [valuesIn, supplies, destroys, ht, hpc, hd, State.setThread, List.countP_append, Pc.vals, List.countP_nil, if_true] at this ⊢
      omega
    | alloc c hpc h0 hk =>
      have := set (th' := { th with pc := .newEntry c a }) ht
      cases hd : c.dst <;>
      simp only [valuesIn, supplies, destroys, ht, hpc, hd, State.setThread, List.countP_append, Pc.vals, List.countP_nil,
        List.map_cons, List.countP_cons, if_true, if_false, Bool.false_eq_true] at this ⊢ <;>
      omega
    | cache c sh b hpc hd =>
      have := set (th' := { th with pc := .newLoop { c with conv := some b } }) ht
      simp only [valuesIn, supplies, destroys, ht, hpc, hd, State.setThread, State.unlock, List.countP_append, Pc.vals, List.countP_nil, if_true] at this ⊢
      omega
    | unbox c b x hpc hx =>
      have := set (th' := { th with pc := .newLoop { c with val := x.data } }) ht
      have h2 := data_free f s.heap b x hx hI.nd
      rw [hpc] at hpi
      simp only [valuesIn, supplies, destroys, ht, hpc, hpi.2.2.1, State.setThread, List.countP_append, Pc.vals, List.countP_nil,
        Bool.false_eq_true, if_false] at this ⊢
      omega
    | free b x hpc hx =>
      have := set (th' := { th with pc := .idle, todo := cfg.kids x.data ++ th.todo }) ht
      have h2 := data_free f s.heap b x hx hI.nd
      simp only [valuesIn, supplies, destroys, ht, hpc, deref, hx, Option.map_some, Option.toList, State.setThread, List.countP_append, Pc.vals, List.countP_nil] at this ⊢
      omega
    | todo p ps hpc htodo =>
      have := set (th' := { th with pc := .dropSub p, todo := ps }) ht
      simp only [valuesIn, supplies, destroys, ht, hpc, State.setThread, List.countP_append, Pc.vals, List.countP_nil] at this ⊢
      omega
    | ret b hpc =>
      have := set (th' := ({} : Thread V)) ht
      simp only [valuesIn, supplies, destroys, ht, hpc, State.setThread, List.countP_append, Pc.vals, List.countP_nil] at this ⊢
      omega
    | found c b hpc hl hf =>
      have := set (th' := { th with pc := .newFound c (cfg.shardOf c.val) b }) ht
      simp only [valuesIn, supplies, destroys, ht, hpc, State.setThread, State.lock, List.countP_append, Pc.vals, List.countP_nil] at this ⊢
      omega
    | missing c hpc hl hf hc =>
      have := set (th' := { th with pc := .newAlloc c }) ht
      simp only [valuesIn, supplies, destroys, ht, hpc, State.setThread, List.countP_append, Pc.vals, List.countP_nil] at this ⊢
      omega
    | hit c sh b x hpc hx hc =>
      have := set (th' := { th with pc := .newHit c sh b }) ht
      simp only [valuesIn, supplies, destroys, ht, hpc, State.setThread, data_setCount, List.countP_append, Pc.vals, List.countP_nil] at this ⊢
      omega
    | dying c sh b x hpc hx hc =>
      have := set (th' := { th with pc := .newUndo c sh b }) ht
      simp only [valuesIn, supplies, destroys, ht, hpc, State.setThread, data_setCount, List.countP_append, Pc.vals, List.countP_nil] at this ⊢
      omega
    | undo c sh b x hpc hx =>
      have := set (th' := { th with pc := .newRelease c sh }) ht
      simp only [valuesIn, supplies, destroys, ht, hpc, State.setThread, data_setCount, List.countP_append, Pc.vals, List.countP_nil] at this ⊢
      omega
    | release c sh hpc =>
      have := set (th' := { th with pc := .newLoop c }) ht
      simp only [valuesIn, supplies, destroys, ht, hpc, State.setThread, State.unlock, List.countP_append, Pc.vals, List.countP_nil] at this ⊢
      omega
    | vacant c b x hpc hx hl hf =>
      have := set (th' := { th with pc := .newVacant c (cfg.shardOf x.data) b }) ht
      simp only [valuesIn, supplies, destroys, ht, hpc, State.setThread, State.lock, List.countP_append, Pc.vals, List.countP_nil] at this ⊢
      omega
    | occupied c b q x hpc hx hl hf =>
      have := set (th' := { th with pc := .newOccupied c (cfg.shardOf x.data) b }) ht
      simp only [valuesIn, supplies, destroys, ht, hpc, State.setThread, State.lock, List.countP_append, Pc.vals, List.countP_nil] at this ⊢
      omega
    | insert c sh b hpc =>
      have := set (th' := { th with pc := .newInserted c sh b }) ht
      simp only [valuesIn, supplies, destroys, ht, hpc, State.setThread, List.countP_append, Pc.vals, List.countP_nil] at this ⊢
      omega
    | inserted c sh b hpc =>
      have := set (th' := { pc := .idle, todo := [], ret := some b, arg := th.arg }) ht
      simp only [valuesIn, supplies, destroys, ht, hpc, State.setThread, State.unlock, List.countP_append, Pc.vals, List.countP_nil] at this ⊢
      omega
    | intoKey c sh b hpc hd =>
      have := set (th' := { th with pc := .newUnbox c b }) ht
      simp only [valuesIn, supplies, destroys, ht, hpc, State.setThread, State.unlock, List.countP_append, Pc.vals, List.countP_nil] at this ⊢
      omega
    | subLast b x hpc hx hc =>
      have := set (th' := { th with pc := .dropRemove b }) ht
      simp only [valuesIn, supplies, destroys, ht, hpc, State.setThread, data_setCount, List.countP_append, Pc.vals, List.countP_nil] at this ⊢
      omega
    | sub b x hpc hx hc =>
      have := set (th' := { th with pc := .idle }) ht
      simp only [valuesIn, supplies, destroys, ht, hpc, State.setThread, data_setCount, List.countP_append, Pc.vals, List.countP_nil] at this ⊢
      omega
    | remove b q x hpc hx hl hf =>
      have := set (th' := { th with pc := .dropFree q }) ht
      simp only [valuesIn, supplies, destroys, ht, hpc, State.setThread, List.countP_append, Pc.vals, List.countP_nil] at this ⊢
      omega
    | removeNone b x hpc hx hl hf =>
      have := set (th' := { th with pc := .idle }) ht
      simp only [valuesIn, supplies, destroys, ht, hpc, State.setThread, List.countP_append, Pc.vals, List.countP_nil] at this ⊢
      omega
    | lenScan i m acc hpc hi hl =>
      have := set (th' := { th with pc := .lenScan (i + 1) m (acc + shardLen cfg s i) }) ht
      simp only [valuesIn, supplies, destroys, ht, hpc, State.setThread, List.countP_append, Pc.vals, List.countP_nil] at this ⊢
      omega
    | lenEnd i m acc hpc hi =>
      have := set (th' := { th with pc := .lenDone acc }) ht
      simp only [valuesIn, supplies, destroys, ht, hpc, State.setThread, List.countP_append, Pc.vals, List.countP_nil] at this ⊢
      omega
    | lenDone n hpc =>
      have := set (th' := { th with pc := .idle }) ht
      simp only [valuesIn, supplies, destroys, ht, hpc, State.setThread, List.countP_append, Pc.vals, List.countP_nil] at this ⊢
      omega
    | shrink i m hpc hi hl =>
      have := set (th' := { th with pc := .shrinkScan (i + 1) m }) ht
      simp only [valuesIn, supplies, destroys, ht, hpc, State.setThread, List.countP_append, Pc.vals, List.countP_nil] at this ⊢
      omega
    | shrinkEnd i m hpc hi =>
      have := set (th' := { th with pc := .idle }) ht
      simp only [valuesIn, supplies, destroys, ht, hpc, State.setThread, List.countP_append, Pc.vals, List.countP_nil] at this ⊢
      omega

theorem Ledger.reach {cfg : Cfg V} {s : State V} {sup des : List V} (h : Ledger cfg s sup des) : Reach cfg s := by
  induction h with
  | init => exact .init
  | step _ h1 h2 h3 ih => exact .step ih h1 h2 h3

variable [EquivBEq V] [LawfulHashable V]

/-- C09 (a). In every execution the values supplied so far are, as a multiset, the values destroyed so far plus the
values still inside the interner: nothing is lost, nothing is destroyed twice. -/
theorem C09_values_conserved {cfg : Cfg V} (hv : cfg.Valid) {s : State V} {sup des : List V}
    (h : Ledger cfg s sup des) : sup.Perm (des ++ valuesIn s) := by
  apply perm_of_countP
  intro f
  induction h with
  | init => simp [valuesIn, init]
  | step h1 h2 h3 h4 ih =>
    have := step_ledger (reach_inv hv h1.reach) h2 h3 f
    simp only [List.countP_append] at ih ⊢
    omega

/-- C09 (b). When nothing is in progress, the values still inside are exactly the values of the registered objects. -/
theorem C09_quiescent_values {cfg : Cfg V} (hv : cfg.Valid) {s : State V} {sup des : List V}
    (h : Ledger cfg s sup des) (hq : Quiescent s) : sup.Perm (des ++ s.table.filterMap (deref s)) := by
  have hI := reach_inv hv h.reach
  refine (C09_values_conserved hv h).trans (List.Perm.append_left _ ?_)
  have h1 : s.threads.flatMap (fun th => th.pc.vals) = [] := by
    rw [List.flatMap_eq_nil_iff]
    intro th hth
    rw [(isIdle_iff.mp (hq th hth)).1]; rfl
  rw [valuesIn, h1, List.nil_append]
  have h2 : (keys s.heap).Perm s.table := by
    rw [List.perm_iff_count]
    intro b
    have := hI.split b
    rw [(quiescent_counts (cfg := cfg) hq b).2.1] at this
    exact this
  have h3 : ∀ l : List (Addr × Cell V), (∀ e ∈ l, e ∈ s.heap) → l.map (·.2.data) = (keys l).filterMap (deref s) := by
    intro l
    induction l with
    | nil => intro _; rfl
    | cons e l ih =>
      intro hl
      have : deref s e.1 = some e.2.data := by
        rw [deref, get_of_mem_nodup (hl e (by simp)) hI.nd]; rfl
      simp only [keys, List.map_cons, List.filterMap_cons, this] at ih ⊢
      rw [ih (fun e he => hl e (by simp [he]))]
  rw [h3 _ (fun _ h => h)]
  exact h2.filterMap _

/-- C09 (c). Every allocated box is registered in the table, or owned by exactly one running call, and never both. -/
theorem C09_boxes_owned_once {cfg : Cfg V} (hv : cfg.Valid) {s : State V} (h : Reach cfg s) (b : Addr) :
    (keys s.heap).count b = s.table.count b + (s.threads.flatMap (fun th => th.pc.priv)).count b ∧
    (keys s.heap).count b ≤ 1 :=
  ⟨(reach_inv hv h).split b, (reach_inv hv h).nd b⟩

/-- Run actions, collecting the ledger. -/
def checkedLedger (cfg : Cfg V) (s : State V) (sup des : List V) : List (Act V) → Option (State V × List V × List V)
  | [] => some (s, sup, des)
  | a :: as => match step cfg s a with
    | .ok s' => if a.sane && decide ((allHandles cfg s').length < cfg.W) then
        checkedLedger cfg s' (supplies s a ++ sup) (destroys s a ++ des) as else none
    | _ => none

omit [EquivBEq V] [LawfulHashable V] in
theorem checkedLedger_ok {cfg : Cfg V} (as : List (Act V)) : ∀ {s s' : State V} {sup des sup' des' : List V},
    Ledger cfg s sup des → checkedLedger cfg s sup des as = some (s', sup', des') → Ledger cfg s' sup' des' := by
  induction as with
  | nil =>
    intro s s' sup des sup' des' h e
    simp only [checkedLedger, Option.some.injEq, Prod.mk.injEq] at e
    obtain ⟨rfl, rfl, rfl⟩ := e; exact h
  | cons a as ih =>
    intro s s' sup des sup' des' h e
    simp only [checkedLedger] at e
    cases hs : step cfg s a with
    | ok s1 =>
      simp only [hs] at e
      split at e
      · rename_i hc
        simp only [Bool.and_eq_true, decide_eq_true_eq] at hc
        refine ih (.step h ?_ hs (small_of_length hc.2)) e
        cases a <;> simp_all [Act.Sane, Act.sane]
      · cases e
    | blocked => simp [hs] at e
    | ub => simp [hs] at e

/-- The race: two values supplied; the loser's is destroyed, the winner's is stored. -/
example : ∃ s, Ledger demoCfg s [⟨5, 2, []⟩, ⟨5, 1, []⟩] [⟨5, 2, []⟩] ∧ Quiescent s ∧ s.table.filterMap (deref s) = [⟨5, 1, []⟩] := by
  have : ∃ s, checkedLedger demoCfg init [] [] raceTrace = some (s, [⟨5, 2, []⟩, ⟨5, 1, []⟩], [⟨5, 2, []⟩]) ∧
      (∀ th ∈ s.threads, th.isIdle = true) ∧ s.table.filterMap (deref s) = [⟨5, 1, []⟩] := by
    refine ⟨demo raceTrace, ?_, by decide, by decide⟩
    rfl
  obtain ⟨s, h1, h2, h3⟩ := this
  exact ⟨s, checkedLedger_ok _ .init h1, h2, h3⟩

end Arc
