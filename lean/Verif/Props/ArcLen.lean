import Verif.Props.ArcCalls
/-!
C13: `num_objects_interned()` under concurrency.
-/
namespace Arc
variable {V : Type} [BEq V] [Hashable V]

omit [BEq V] in
theorem shardLen_eq (cfg : Cfg V) (s : State V) (i : Nat) :
    shardLen cfg s i = (s.table.filter fun b => (deref s b).any fun v => cfg.shardOf v == i).length := by
  rw [shardLen, List.countP_eq_length_filter]
  congr 2
  funext b
  cases h : get s.heap b <;> simp [deref, h]

/-- What a scan of the shards `lo`, …, `up - 1` satisfies while in progress. -/
def LenOk (cfg : Cfg V) (lo up : Nat) (L : List Addr) (S : Addr → V → Prop) (s : State V) (pc : Pc V) : Prop :=
  match pc with
  | .lenScan i m acc => m = up ∧ lo ≤ i ∧
    (L.filter fun p => (deref s p).any fun v => cfg.shardOf v < i).length ≤ acc ∧
    ∃ objs : List (Addr × V), objs.length = acc ∧
      objs.Pairwise (fun a b => a.1 ≠ b.1 ∨ (a.2 == b.2) = false) ∧
      ∀ o ∈ objs, S o.1 o.2 ∧ lo ≤ cfg.shardOf o.2 ∧ cfg.shardOf o.2 < i ∧ cfg.shardOf o.2 < up
  | .lenDone n => L.length ≤ n ∧ ∃ objs : List (Addr × V), objs.length = n ∧
      objs.Pairwise (fun a b => a.1 ≠ b.1 ∨ (a.2 == b.2) = false) ∧
      ∀ o ∈ objs, S o.1 o.2 ∧ lo ≤ cfg.shardOf o.2 ∧ cfg.shardOf o.2 < up
  | _ => False

theorem length_le_of_sub {α : Type} [BEq α] [LawfulBEq α] : ∀ {l m : List α}, l.Nodup → (∀ x ∈ l, x ∈ m) → l.length ≤ m.length
  | [], _, _, _ => Nat.zero_le _
  | a :: l, m, hn, h => by
    rw [List.nodup_cons] at hn
    have ha := h a (by simp)
    have := length_le_of_sub (l := l) (m := m.erase a) hn.2 (by
      intro x hx
      have hne : x ≠ a := fun e => hn.1 (e ▸ hx)
      exact (List.mem_erase_of_ne hne).mpr (h x (by simp [hx])))
    rw [List.length_erase_of_mem ha] at this
    have := List.length_pos_of_mem ha
    simp only [List.length_cons]; omega

omit [BEq V] in
theorem split_shard (cfg : Cfg V) (s : State V) (i : Nat) : ∀ L : List Addr, (∀ p ∈ L, ∃ v, deref s p = some v) →
    (L.filter fun p => (deref s p).any fun v => decide (cfg.shardOf v < i + 1)).length =
      (L.filter fun p => (deref s p).any fun v => decide (cfg.shardOf v < i)).length +
      (L.filter fun p => (deref s p).any fun v => cfg.shardOf v == i).length
  | [], _ => rfl
  | p :: L, h => by
    obtain ⟨v, hv⟩ := h p (by simp)
    have ih := split_shard cfg s i L (fun q hq => h q (by simp [hq]))
    simp only [List.filter_cons, hv, Option.any_some, decide_eq_true_eq, beq_iff_eq]
    rcases Nat.lt_trichotomy (cfg.shardOf v) i with h | h | h
    · rw [if_pos (by omega), if_pos h, if_neg (by omega)]; simp only [List.length_cons]; omega
    · rw [if_pos (by omega), if_neg (by omega), if_pos h]; simp only [List.length_cons]; omega
    · rw [if_neg (by omega), if_neg (by omega), if_neg (by omega)]; exact ih

variable [EquivBEq V] [LawfulHashable V]

/-- `p` is registered in one of the shards `lo`, …, `up - 1`. -/
def Listed (cfg : Cfg V) (lo up : Nat) (u : State V) (p : Addr) : Prop :=
  p ∈ u.table ∧ ∃ v, deref u p = some v ∧ lo ≤ cfg.shardOf v ∧ cfg.shardOf v < up

/-- C13 for the shards `lo`, …, `up - 1` only. Let thread `t` count them and be about to return `n`. If the (distinct)
objects `L` are registered in these shards throughout the call then `L.length ≤ n`. If every object registered at some
instant of the call (address and value) is in `S`, then `n` is the length of a list of pairwise different objects of
`S` that all belong to these shards. -/
theorem C13_range_bounds {cfg : Cfg V} (hv : cfg.Valid) {s0 s1 s2 : State V} (h : Reach cfg s0) {t : Tid} {lo up : Nat}
    (hcall : step cfg s0 (.len t lo up) = .ok s1) (hs1 : Small cfg s1)
    {L : List Addr} (hL : L.Nodup) {S : Addr → V → Prop} {os : List (Op V)}
    (hrun : RunOps cfg (fun u => InCall t u ∧ (∀ p ∈ L, Listed cfg lo up u p) ∧
      ∀ p v, p ∈ u.table → deref u p = some v → S p v) s1 os s2)
    {th : Thread V} {n : Nat} (ht : s2.threads[t]? = some th) (hpc : th.pc = .lenDone n) :
    L.length ≤ n ∧ ∃ objs : List (Addr × V), objs.length = n ∧
      objs.Pairwise (fun a b => a.1 ≠ b.1 ∨ (a.2 == b.2) = false) ∧
      ∀ o ∈ objs, S o.1 o.2 ∧ lo ≤ cfg.shardOf o.2 ∧ cfg.shardOf o.2 < up := by
  have hr1 : Reach cfg s1 := .step h (by simp [Act.Sane]) hcall hs1
  have main : ∃ th, s2.threads[t]? = some th ∧ LenOk cfg lo up L S s2 th.pc := by
    clear ht hpc
    induction hrun with
    | refl hP =>
      have hR := step_R hcall
      cases hR with
      | len _ _ _ th0 ht0 =>
        refine ⟨{ pc := Pc.lenScan lo up 0 }, ?_, ?_⟩
        · show (s0.threads.set t _)[t]? = _
          rw [set_getElem? _ _ _ _ _ ht0, if_pos rfl]
        refine ⟨rfl, Nat.le_refl _, ?_, [], rfl, .nil, by simp⟩
        have : ∀ u : State V, (∀ p ∈ L, Listed cfg lo up u p) →
            (L.filter fun p => (deref u p).any fun v => decide (cfg.shardOf v < lo)) = [] := by
          intro u hu
          rw [List.filter_eq_nil_iff]
          intro p hp
          obtain ⟨v, hd, h1, _⟩ := (hu p hp).2
          simp only [hd, Option.any_some, decide_eq_true_eq]; omega
        rw [this _ hP.2.1]; exact Nat.zero_le _
    | @step s' s'' os a e hsane hst hsm hP ih =>
      obtain ⟨th, ht, hok⟩ := ih
      obtain ⟨⟨th', ht', hid'⟩, hL', hS'⟩ := hP
      have hre := RunOps.reach hr1 e
      have hI := reach_inv hv hre
      have hPs : (InCall t s' ∧ (∀ p ∈ L, Listed cfg lo up s' p) ∧ ∀ p v, p ∈ s'.table → deref s' p = some v → S p v) := by
        cases e <;> assumption
      have hdata : ∀ p ∈ L, deref s'' p = deref s' p := fun p hp => step_data hI hsane hst (hPs.2.1 p hp).1
      have hfil : ∀ f : V → Bool, (L.filter fun p => (deref s'' p).any f) = (L.filter fun p => (deref s' p).any f) :=
        fun f => List.filter_congr fun p hp => by rw [hdata p hp]
      refine ⟨th', ht', ?_⟩
      by_cases htid : a.tid = some t
      · have hnew : ∀ {x : Thread V}, (s'.threads.set t x)[t]? = some th' → x = th' := by
          intro x h2
          rw [set_getElem? _ _ _ _ _ ht, if_pos rfl] at h2; cases h2; rfl
        have hnidle : th.isIdle = false := by
          obtain ⟨⟨thx, htx, hidx⟩, _⟩ := hPs
          rw [ht] at htx; cases htx; exact hidx
        have hR := step_R hst
        cases hR with
        | run u a' th0 _ hu hr =>
          cases htid
          rw [ht] at hu; cases hu
          cases hr with
          | lenScan i m acc hpc hi hl =>
            have := hnew ht'; subst this
            rw [hpc] at hok
            obtain ⟨rfl, hlo, h1, objs, h2, h3, h4⟩ := hok
            have hnd : s'.table.Nodup := by
              rw [List.nodup_iff_count]
              intro a
              have h1 := hI.split a
              have h2 := hI.nd a
              simp only [T] at h1; omega
            have hsl := shardLen_eq cfg s' i
            have hder : ∀ b ∈ s'.table, ∃ v, deref s' b = some v := by
              intro b hb
              obtain ⟨x, hx⟩ := exists_get (hI.mem_keys hb)
              exact ⟨x.data, by simp [deref, hx]⟩
            refine ⟨rfl, Nat.le_succ_of_le hlo, ?_, ?_⟩
            · show _ ≤ acc + shardLen cfg s' i
              rw [hfil]
              have hsplit := split_shard cfg s' i L (fun p hp => hder p (hPs.2.1 p hp).1)
              rw [hsplit, hsl]
              have hsub : (L.filter fun p => (deref s' p).any fun v => cfg.shardOf v == i).length ≤
                  (s'.table.filter fun p => (deref s' p).any fun v => cfg.shardOf v == i).length := by
                apply length_le_of_sub (hL.filter _)
                intro p hp
                rw [List.mem_filter] at hp ⊢
                exact ⟨(hPs.2.1 p hp.1).1, hp.2⟩
              omega
            · -- the objects counted in shard i
              let new := (s'.table.filter fun b => (deref s' b).any fun v => cfg.shardOf v == i).filterMap
                fun b => (deref s' b).map fun v => (b, v)
              have hlen : new.length = shardLen cfg s' i := by
                rw [hsl]
                have : ∀ l : List Addr, (∀ b ∈ l, b ∈ s'.table) →
                    (l.filterMap fun b => (deref s' b).map fun v => (b, v)).length = l.length := by
                  intro l
                  induction l with
                  | nil => intro _; rfl
                  | cons b l ih =>
                    intro hl
                    obtain ⟨v, hv'⟩ := hder b (hl b (by simp))
                    rw [List.filterMap_cons, hv']
                    simp [ih (fun q hq => hl q (by simp [hq]))]
                exact this _ (fun b hb => (List.mem_filter.mp hb).1)
              have hmem : ∀ o ∈ new, o.1 ∈ s'.table ∧ deref s' o.1 = some o.2 ∧ cfg.shardOf o.2 = i := by
                intro o ho
                obtain ⟨b, hb, hbo⟩ := List.mem_filterMap.mp ho
                obtain ⟨hb1, hb2⟩ := List.mem_filter.mp hb
                obtain ⟨v, hv'⟩ := hder b hb1
                rw [hv'] at hbo hb2
                simp only [Option.map_some, Option.some.injEq] at hbo
                subst hbo
                exact ⟨hb1, hv', by simpa using hb2⟩
              refine ⟨objs ++ new, by simp [hlen, h2], ?_, ?_⟩
              · rw [List.pairwise_append]
                refine ⟨h3, ?_, ?_⟩
                · rw [List.pairwise_filterMap]
                  refine List.Pairwise.imp_of_mem ?_ (List.nodup_iff_pairwise_ne.mp (hnd.filter _))
                  intro p q hp hq hne x hx y hy
                  left
                  obtain ⟨v, hv', rfl⟩ := Option.map_eq_some_iff.mp hx
                  obtain ⟨w, hw', rfl⟩ := Option.map_eq_some_iff.mp hy
                  exact hne
                · intro o ho o' ho'
                  right
                  have h5 := (h4 o ho).2.2.1
                  have h6 := (hmem o' ho').2.2
                  cases hc : (o.2 == o'.2)
                  · rfl
                  · have := shardOf_congr (cfg := cfg) hc; omega
              · intro o ho
                rcases List.mem_append.mp ho with ho | ho
                · exact ⟨(h4 o ho).1, (h4 o ho).2.1, Nat.lt_succ_of_lt (h4 o ho).2.2.1, (h4 o ho).2.2.2⟩
                · obtain ⟨m1, m2, m3⟩ := hmem o ho
                  exact ⟨hPs.2.2 _ _ m1 m2, by omega, by omega, by omega⟩
          | lenEnd i m acc hpc hi =>
            have := hnew ht'; subst this
            rw [hpc] at hok
            obtain ⟨rfl, hlo, h1, objs, h2, h3, h4⟩ := hok
            refine ⟨?_, objs, h2, h3, fun o ho => ⟨(h4 o ho).1, (h4 o ho).2.1, (h4 o ho).2.2.2⟩⟩
            have : (L.filter fun p => (deref s' p).any fun v => decide (cfg.shardOf v < i)) = L := by
              rw [List.filter_eq_self]
              intro p hp
              obtain ⟨v, hd, _, hup⟩ := (hPs.2.1 p hp).2
              rw [hd]
              exact decide_eq_true (Nat.lt_of_lt_of_le hup (Nat.le_of_not_lt hi))
            rw [this] at h1; exact h1
          | lenDone m hpc =>
            have := hnew ht'; subst this
            have hnr := (hI.th t th ht).empty (by rw [hpc]; rfl)
            simp [Thread.isIdle, hnr] at hid'
          | _ => simp_all [LenOk]
        | panicLoop u th0 c hu hpc => cases htid; rw [ht] at hu; cases hu; rw [hpc] at hok; exact hok.elim
        | panicEntry u th0 c b hu hpc => cases htid; rw [ht] at hu; cases hu; rw [hpc] at hok; exact hok.elim
        | panicShrink u th0 i m hu hpc => cases htid; rw [ht] at hu; cases hu; rw [hpc] at hok; exact hok.elim
        | panicRemove u th0 b hu hpc => cases htid; rw [ht] at hu; cases hu; rw [hpc] at hok; exact hok.elim
        | panicInsert u th0 c sh b hu hpc => cases htid; rw [ht] at hu; cases hu; rw [hpc] at hok; exact hok.elim
        | spawn => cases htid
        | new u v dst th0 hu hi => cases htid; rw [ht] at hu; cases hu; rw [hnidle] at hi; cases hi
        | clone u _ th0 _ _ hu hi => cases htid; rw [ht] at hu; cases hu; rw [hnidle] at hi; cases hi
        | read u _ th0 _ hu hi => cases htid; rw [ht] at hu; cases hu; rw [hnidle] at hi; cases hi
        | drop u _ th0 hu hi => cases htid; rw [ht] at hu; cases hu; rw [hnidle] at hi; cases hi
        | len u lo up th0 hu hi => cases htid; rw [ht] at hu; cases hu; rw [hnidle] at hi; cases hi
        | shrink u lo up th0 hu hi => cases htid; rw [ht] at hu; cases hu; rw [hnidle] at hi; cases hi
      · have := step_other hst htid ht
        rw [ht'] at this; cases this
        revert hok
        cases th.pc <;> simp only [LenOk] <;> try exact id
        rw [hfil]; exact id
  obtain ⟨th', ht', hok⟩ := main
  rw [ht] at ht'; cases ht'
  rw [hpc] at hok; exact hok

/-- C13. Let thread `t` call `num_objects_interned()` and be about to return `n`. If the (distinct) objects `L` are
registered throughout the call then `L.length ≤ n`. If every object registered at some instant of the call (address and value) is
in `S`, then `n` is the length of a list of pairwise different objects of `S`. -/
theorem C13_len_bounds {cfg : Cfg V} (hv : cfg.Valid) {s0 s1 s2 : State V} (h : Reach cfg s0) {t : Tid}
    (hcall : step cfg s0 (.len t 0 cfg.shards) = .ok s1) (hs1 : Small cfg s1)
    {L : List Addr} (hL : L.Nodup) {S : Addr → V → Prop} {os : List (Op V)}
    (hrun : RunOps cfg (fun u => InCall t u ∧ (∀ p ∈ L, p ∈ u.table) ∧
      ∀ p v, p ∈ u.table → deref u p = some v → S p v) s1 os s2)
    {th : Thread V} {n : Nat} (ht : s2.threads[t]? = some th) (hpc : th.pc = .lenDone n) :
    L.length ≤ n ∧ ∃ objs : List (Addr × V), objs.length = n ∧
      objs.Pairwise (fun a b => a.1 ≠ b.1 ∨ (a.2 == b.2) = false) ∧ ∀ o ∈ objs, S o.1 o.2 := by
  have hr1 : Reach cfg s1 := .step h (by simp [Act.Sane]) hcall hs1
  have conv : ∀ {os u}, RunOps cfg (fun u => InCall t u ∧ (∀ p ∈ L, p ∈ u.table) ∧
      ∀ p v, p ∈ u.table → deref u p = some v → S p v) s1 os u →
      RunOps cfg (fun u => InCall t u ∧ (∀ p ∈ L, Listed cfg 0 cfg.shards u p) ∧
        ∀ p v, p ∈ u.table → deref u p = some v → S p v) s1 os u := by
    have listed : ∀ {u : State V}, Reach cfg u → ∀ p, p ∈ u.table → Listed cfg 0 cfg.shards u p := by
      intro u hu p hp
      obtain ⟨x, hx⟩ := exists_get ((reach_inv hv hu).mem_keys hp)
      exact ⟨hp, x.data, by simp [deref, hx], Nat.zero_le _, hv.pick_lt _⟩
    intro os u hr
    induction hr with
    | refl hP => exact .refl ⟨hP.1, fun p hp => listed hr1 p (hP.2.1 p hp), hP.2.2⟩
    | step e hsane hst hsm hP ih =>
      have hre : Reach cfg _ := .step (RunOps.reach hr1 e) hsane hst hsm
      exact .step ih hsane hst hsm ⟨hP.1, fun p hp => listed hre p (hP.2.1 p hp), hP.2.2⟩
  obtain ⟨h1, objs, h2, h3, h4⟩ := C13_range_bounds hv h hcall hs1 hL (conv hrun) ht hpc
  exact ⟨h1, objs, h2, h3, fun o ho => (h4 o ho).1⟩

/-! Example: object 10 is registered throughout a call of `num_objects_interned` by thread 0, and thread 1 registers
object 21 during the call, after its shard was counted: the call returns 1. In the second example thread 1 is
quicker and the call returns 2. -/

/-- The condition of the theorem as a decidable check. -/
def lenCheck (t : Tid) (L : List Addr) (S : List (Addr × Val)) (u : State Val) : Bool :=
  busy t u && L.all (fun p => decide (p ∈ u.table)) &&
    u.table.all fun p => match deref u p with
      | some v => S.any fun e => decide (e.1 = p ∧ e.2 = v)
      | none => true

def checkedLen (t : Tid) (L : List Addr) (S : List (Addr × Val)) (s : State Val) : List (Act Val) → Option (State Val)
  | [] => some s
  | a :: as => match step demoCfg s a with
    | .ok s' => if a.sane && decide ((allHandles demoCfg s').length < demoCfg.W) && lenCheck t L S s' then
        checkedLen t L S s' as else none
    | _ => none

theorem lenCheck_ok {t : Tid} {L : List Addr} {S : List (Addr × Val)} {u : State Val} (h : lenCheck t L S u = true) :
    InCall t u ∧ (∀ p ∈ L, p ∈ u.table) ∧ ∀ p v, p ∈ u.table → deref u p = some v → (p, v) ∈ S := by
  simp only [lenCheck, Bool.and_eq_true, List.all_eq_true, decide_eq_true_eq] at h
  refine ⟨busy_iff.mp h.1.1, h.1.2, fun p v hp hd => ?_⟩
  have := h.2 p hp
  simp only [hd, List.any_eq_true, decide_eq_true_eq] at this
  obtain ⟨⟨q, w⟩, he, rfl, rfl⟩ := this
  exact he

theorem checkedLen_ok {t : Tid} {L : List Addr} {S : List (Addr × Val)} {s0 : State Val} (as : List (Act Val)) :
    ∀ {s s' : State Val} {os : List (Op Val)},
    RunOps demoCfg (fun u => InCall t u ∧ (∀ p ∈ L, p ∈ u.table) ∧
      ∀ p v, p ∈ u.table → deref u p = some v → (p, v) ∈ S) s0 os s →
    checkedLen t L S s as = some s' →
    ∃ os', RunOps demoCfg (fun u => InCall t u ∧ (∀ p ∈ L, p ∈ u.table) ∧
      ∀ p v, p ∈ u.table → deref u p = some v → (p, v) ∈ S) s0 os' s' := by
  induction as with
  | nil => intro s s' os h e; simp only [checkedLen, Option.some.injEq] at e; subst e; exact ⟨os, h⟩
  | cons a as ih =>
    intro s s' os h e
    simp only [checkedLen] at e
    cases hs : step demoCfg s a with
    | ok s1 =>
      simp only [hs] at e
      split at e
      · rename_i hc
        simp only [Bool.and_eq_true, decide_eq_true_eq] at hc
        refine ih (.step h ?_ hs (small_of_length hc.1.2) (lenCheck_ok hc.2)) e
        cases a <;> simp_all [Act.Sane, Act.sane]
      · cases e
    | blocked => simp [hs] at e
    | ub => simp [hs] at e

theorem checkedLen_start {t : Tid} {L : List Addr} {S : List (Addr × Val)} {s0 s' : State Val} {as : List (Act Val)}
    (h0 : lenCheck t L S s0 = true) (h : checkedLen t L S s0 as = some s') :
    ∃ os', RunOps demoCfg (fun u => InCall t u ∧ (∀ p ∈ L, p ∈ u.table) ∧
      ∀ p v, p ∈ u.table → deref u p = some v → (p, v) ∈ S) s0 os' s' :=
  checkedLen_ok as (.refl (lenCheck_ok h0)) h

def lenTrace : List (Act Val) := [.spawn, .spawn, .new 0 ⟨5, 1, []⟩ false, r 0, r 0 10, r 0, r 0, r 0, r 0]
/-- Shard 0 is counted before thread 1 inserts `6` there; then shard 1 (with `5`) is counted. -/
def lateTrace : List (Act Val) := [r 0, .new 1 ⟨6, 2, []⟩ false, r 1, r 1 21, r 1, r 1, r 1, r 0, r 0]
def earlyTrace : List (Act Val) := [.new 1 ⟨6, 2, []⟩ false, r 1, r 1 21, r 1, r 1, r 1, r 0, r 0, r 0]

example : ∃ s0 s1 s2 os, Reach demoCfg s0 ∧ step demoCfg s0 (.len 0 0 2) = .ok s1 ∧ Small demoCfg s1 ∧ [10].Nodup ∧
    RunOps demoCfg (fun u => InCall 0 u ∧ (∀ p ∈ [10], p ∈ u.table) ∧
      ∀ p v, p ∈ u.table → deref u p = some v → (p, v) ∈ [(10, ⟨5, 1, []⟩), (21, ⟨6, 2, []⟩)]) s1 os s2 ∧
    ∃ th, s2.threads[0]? = some th ∧ th.pc = .lenDone 1 := by
  obtain ⟨os, hos⟩ := checkedLen_ok (s0 := demo (lenTrace ++ [.len 0 0 2])) (s' := demo (lenTrace ++ [.len 0 0 2] ++ lateTrace))
    (t := 0) (L := [10]) (S := [(10, ⟨5, 1, []⟩), (21, ⟨6, 2, []⟩)]) lateTrace
    (.refl (lenCheck_ok (by decide))) rfl
  exact ⟨demo lenTrace, _, _, os, demo_reach (by decide), rfl, small_of_length (by decide), by decide, hos, _, rfl, rfl⟩

example : ∃ s0 s1 s2 os, Reach demoCfg s0 ∧ step demoCfg s0 (.len 0 0 2) = .ok s1 ∧ Small demoCfg s1 ∧ [10].Nodup ∧
    RunOps demoCfg (fun u => InCall 0 u ∧ (∀ p ∈ [10], p ∈ u.table) ∧
      ∀ p v, p ∈ u.table → deref u p = some v → (p, v) ∈ [(10, ⟨5, 1, []⟩), (21, ⟨6, 2, []⟩)]) s1 os s2 ∧
    ∃ th, s2.threads[0]? = some th ∧ th.pc = .lenDone 2 := by
  have hsome : (checkedLen 0 [10] [(10, ⟨5, 1, []⟩), (21, ⟨6, 2, []⟩)] (demo (lenTrace ++ [.len 0 0 2])) earlyTrace).isSome = true := by
    decide
  obtain ⟨s2, hs2⟩ := Option.isSome_iff_exists.mp hsome
  have hpc : ((checkedLen 0 [10] [(10, ⟨5, 1, []⟩), (21, ⟨6, 2, []⟩)] (demo (lenTrace ++ [.len 0 0 2])) earlyTrace).getD init).threads[0]? =
      some { pc := .lenDone 2 } := rfl
  rw [hs2] at hpc
  obtain ⟨os, hos⟩ := checkedLen_start (by decide) hs2
  exact ⟨demo lenTrace, _, s2, os, demo_reach (by decide), rfl, small_of_length (by decide), by decide, hos, _, hpc, rfl⟩

end Arc
