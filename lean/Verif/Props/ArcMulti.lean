import Verif.Arc.Multi
import Verif.Props.ArcLen
import Verif.Props.ArcProgress
import Verif.Props.ArcSafety
/-!
C59: `ArcIntern` in a program that interns several types, whose values may contain handles of other interned types.

`Verif/Arc/Multi.lean` describes such a program (`Program`, `Value`, `Reach`). By `cfg_valid` every theorem about
`ArcIntern` (C01–C13, C16–C20, C54, C56, C58) holds for it; the theorems below say what is special about several types.
-/
namespace Arc.Multi
variable {P : Program}

/-- C59 (a). A handle always points to an object of its own type: in every reachable state of a well-typed program,
a handle stored in a value in a field declared with type `σ` points to an existing object of type `σ`. -/
theorem C59_typed {s : State (Value P)} (h : Reach P s) {p : Addr} {τ : Fin P.n} {v : (P.ty τ).T}
    (hp : deref s p = some ⟨τ, v⟩) {σ : Fin P.n} {q : Addr} (hq : (σ, q) ∈ (P.ty τ).fields v) :
    ∃ w : (P.ty σ).T, deref s q = some ⟨σ, w⟩ := by
  obtain ⟨x, hx, hd⟩ := deref_get hp
  have := h.tinv.heap _ (mem_of_get hx)
  rw [show ((p, x) : Addr × Cell (Value P)).2.data = ⟨τ, v⟩ from hd] at this
  have := this (σ, q) hq
  simp only [tyAt, Option.map_eq_some_iff] at this
  obtain ⟨⟨ρ, w⟩, h1, h2⟩ := this
  cases h2
  exact ⟨w, h1⟩

/-- C59 (b). Two handles are equal exactly if they have the same type and point to values that are equal in that type. -/
theorem C59_canonical {s : State (Value P)} (h : Arc.Reach P.cfg s) {a b : Addr} (ha : a ∈ allHandles P.cfg s)
    (hb : b ∈ allHandles P.cfg s) :
    ∃ x y : Value P, deref s a = some x ∧ deref s b = some y ∧
      (handleEq a b = true ↔ ∃ e : x.ty = y.ty, ((e ▸ x.val) == y.val) = true) := by
  obtain ⟨x, y, h1, h2, h3⟩ := C01_canonical (cfg_valid P) h ha hb
  exact ⟨x, y, h1, h2, h3.trans (beq_iff x y)⟩

/-- C59 (c). A lookup for a value of type `τ` sees the objects of type `τ` only, and compares them with `τ`'s `==`. -/
theorem C59_lookup (s : State (Value P)) (τ : Fin P.n) (v : (P.ty τ).T) :
    find s ⟨τ, v⟩ = (s.table.filter fun b => tyAt s b == some τ).find? fun b =>
      match deref s b with
      | some x => if e : x.ty = τ then (e ▸ x.val) == v else false
      | none => false := by
  rw [find, List.find?_filter]
  congr 1
  funext b
  cases hg : get s.heap b with
  | none => simp [tyAt, deref, hg]
  | some c =>
    have hk : keyEq c.data (⟨τ, v⟩ : Value P) = (c.data == ⟨τ, v⟩) := by
      unfold keyEq
      cases hc : (c.data == (⟨τ, v⟩ : Value P))
      · rw [Bool.and_false]
      · rw [LawfulHashable.hash_eq _ _ hc]; simp
    simp only [hk, tyAt, deref, hg, Option.map_some]
    show (if h : c.data.ty = τ then (h ▸ c.data.val) == v else false) = _
    by_cases e : c.data.ty = τ
    · rw [dif_pos e]; simp [e]
    · rw [dif_neg e]; simp [e]

theorem blocked_wants {V : Type} [BEq V] [Hashable V] [EquivBEq V] [LawfulHashable V] {cfg : Cfg V} (hv : cfg.Valid)
    {s : State V} (h : Arc.Reach cfg s) {t : Tid} {th : Thread V} (ht : s.threads[t]? = some th) (hid : th.isIdle = false)
    {a : Addr} (ha : a ≠ 0 ∧ a ∉ keys s.heap) (hb : step cfg s (.run t a) = .blocked) :
    ∃ i u, th.pc.wants cfg s = some i ∧ s.locks i = some u := by
  have hI := reach_inv hv h
  by_cases hw : ∀ i, th.pc.wants cfg s = some i → s.locks i = none
  · obtain ⟨s', hs'⟩ := run_enabled hv hI ht hid (Or.inl ha) hw
    rw [hs'] at hb; cases hb
  · rw [Classical.not_forall] at hw
    obtain ⟨i, hw⟩ := hw
    rw [Classical.not_imp] at hw
    obtain ⟨hw, hl⟩ := hw
    cases hi : s.locks i with
    | none => exact absurd hi hl
    | some u => exact ⟨i, u, hw, hi⟩

theorem val_eq {w : Value P} {τ : Fin P.n} (e : w.ty = τ) : ∃ v : (P.ty τ).T, w = ⟨τ, v⟩ := by
  obtain ⟨σ, v⟩ := w
  cases e
  exact ⟨v, rfl⟩

/-- Thread `th` is about to use the container of type `τ`. -/
def Uses (s : State (Value P)) (th : Thread (Value P)) (τ : Fin P.n) : Prop :=
  match th.pc with
  | .newLoop _ | .newEntry _ _ => ∃ v : (P.ty τ).T, th.arg = some ⟨τ, v⟩
  | .dropRemove b => tyAt s b = some τ
  | .lenScan i m _ | .shrinkScan i m => P.lo τ ≤ i ∧ m = P.hi τ
  | _ => False

/-- C59 (d). Operations on different types never wait for each other: a call that cannot step (although memory is
available) is about to use the container of some type `τ`, and waits for a thread that is interning a value of that same
type `τ`. -/
theorem C59_waits_for_own_type {s : State (Value P)} (h : Reach P s) {t : Tid} {th : Thread (Value P)}
    (ht : s.threads[t]? = some th) (hid : th.isIdle = false) {a : Addr} (ha : a ≠ 0 ∧ a ∉ keys s.heap)
    (hb : step P.cfg s (.run t a) = .blocked) :
    ∃ (τ : Fin P.n) (u : Tid) (thu : Thread (Value P)) (v : (P.ty τ).T), Uses s th τ ∧ u ≠ t ∧
      s.threads[u]? = some thu ∧ thu.arg = some ⟨τ, v⟩ := by
  have hI := reach_inv (cfg_valid P) h.reach
  obtain ⟨i, u, hw, hl⟩ := blocked_wants (cfg_valid P) h.reach ht hid ha hb
  obtain ⟨thu, hu, hh⟩ := (hI.lk i u).mp hl
  have hne : u ≠ t := by
    rintro rfl
    rw [ht] at hu; cases hu
    rw [(holds_wants (cfg := P.cfg) (s := s) hh).1] at hw; cases hw
  have hold : ∃ v : Value P, thu.arg = some v ∧ i = shard v := by
    have hpi := (hI.th u thu hu).pc
    cases hpc : thu.pc with
    | newFound c sh b =>
      rw [hpc] at hpi hh; cases hh
      exact ⟨c.val, hpi.1.1, by rw [hpi.2.1, shardOf_eq]⟩
    | newUndo c sh b =>
      rw [hpc] at hpi hh; cases hh
      exact ⟨c.val, hpi.1.1, by rw [hpi.2.1, shardOf_eq]⟩
    | newHit c sh b =>
      rw [hpc] at hpi hh; cases hh
      exact ⟨c.val, hpi.1.1, by rw [hpi.2.1, shardOf_eq]⟩
    | newRelease c sh =>
      rw [hpc] at hpi hh; cases hh
      exact ⟨c.val, hpi.1.1, by rw [hpi.2, shardOf_eq]⟩
    | newVacant c sh b =>
      rw [hpc] at hpi hh; cases hh
      exact ⟨c.val, hpi.1.1, by rw [hpi.2.2.2.1, shardOf_eq]⟩
    | newInserted c sh b =>
      rw [hpc] at hpi hh; cases hh
      exact ⟨c.val, hpi.1.1, by rw [hpi.2.2.1, shardOf_eq]⟩
    | newOccupied c sh b =>
      rw [hpc] at hpi hh; cases hh
      exact ⟨c.val, hpi.1.1, by rw [hpi.2.2.2, shardOf_eq]⟩
    | _ => rw [hpc] at hh; cases hh
  obtain ⟨⟨τ, v⟩, harg, hi⟩ := hold
  have hr := shard_range (P := P) ⟨τ, v⟩
  rw [← hi] at hr
  refine ⟨τ, u, thu, v, ?_, hne, hu, harg⟩
  have hpi := (hI.th t th ht).pc
  have val : ∀ w : Value P, shard w = i → w.ty = τ := fun w e => ty_of_range (e ▸ shard_range w) hr
  cases hpc : th.pc with
  | newLoop c =>
    rw [hpc] at hpi hw
    simp only [Pc.wants, Option.some.injEq, shardOf_eq] at hw
    have e := val _ hw
    unfold Uses; simp only [hpc]
    obtain ⟨w, hc⟩ := val_eq e
    exact ⟨w, by rw [hpi.1, hc]⟩
  | newEntry c b =>
    rw [hpc] at hpi hw
    simp only [Pc.wants, deref, hpi.2.2, Option.map_some, Option.some.injEq, shardOf_eq] at hw
    have e := val _ hw
    unfold Uses; simp only [hpc]
    obtain ⟨w, hc⟩ := val_eq e
    exact ⟨w, by rw [hpi.1.1, hc]⟩
  | dropRemove b =>
    rw [hpc] at hw
    simp only [Pc.wants, Option.map_eq_some_iff, shardOf_eq] at hw
    obtain ⟨w, hd, e⟩ := hw
    unfold Uses; simp only [hpc, tyAt, hd, Option.map_some, val w e]
  | lenScan j m acc =>
    have hs := h.tinv.scan t th ht
    rw [hpc] at hw hs
    simp only [Pc.wants] at hw
    split at hw
    · rename_i hlt
      cases hw
      obtain ⟨σ, h1, h2⟩ := hs
      obtain rfl := ty_of_range (τ := σ) ⟨h1, h2 ▸ hlt⟩ hr
      unfold Uses; simp only [hpc]; exact ⟨h1, h2⟩
    · cases hw
  | shrinkScan j m =>
    have hs := h.tinv.scan t th ht
    rw [hpc] at hw hs
    simp only [Pc.wants] at hw
    split at hw
    · rename_i hlt
      cases hw
      obtain ⟨σ, h1, h2⟩ := hs
      obtain rfl := ty_of_range (τ := σ) ⟨h1, h2 ▸ hlt⟩ hr
      unfold Uses; simp only [hpc]; exact ⟨h1, h2⟩
    · cases hw
  | _ => rw [hpc] at hw; cases hw

theorem range_iff (a : Value P) (τ : Fin P.n) : (P.lo τ ≤ P.cfg.shardOf a ∧ P.cfg.shardOf a < P.hi τ) ↔ a.ty = τ := by
  rw [shardOf_eq]
  constructor
  · exact fun h => ty_of_range (shard_range a) h
  · rintro rfl; exact shard_range a

/-- C59 (e). `num_objects_interned()` of type `τ` counts objects of type `τ` only, whatever other threads do with any type:
if the distinct objects `L` of type `τ` are registered throughout the call, and every object of type `τ` registered at
some instant of the call is in `S`, then the result `n` is at least `L.length`, and it is the length of a list of
pairwise different objects of `S`. -/
theorem C59_len_own_type {s0 s1 s2 : State (Value P)} (h : Arc.Reach P.cfg s0) {t : Tid} {τ : Fin P.n}
    (hcall : step P.cfg s0 (.len t (P.lo τ) (P.hi τ)) = .ok s1) (hs1 : Small P.cfg s1)
    {L : List Addr} (hL : L.Nodup) {S : Addr → (P.ty τ).T → Prop} {os : List (Op (Value P))}
    (hrun : RunOps P.cfg (fun u => InCall t u ∧ (∀ p ∈ L, p ∈ u.table ∧ tyAt u p = some τ) ∧
      ∀ p v, p ∈ u.table → deref u p = some ⟨τ, v⟩ → S p v) s1 os s2)
    {th : Thread (Value P)} {n : Nat} (ht : s2.threads[t]? = some th) (hpc : th.pc = .lenDone n) :
    L.length ≤ n ∧ ∃ objs : List (Addr × (P.ty τ).T), objs.length = n ∧
      objs.Pairwise (fun a b => a.1 ≠ b.1 ∨ (a.2 == b.2) = false) ∧ ∀ o ∈ objs, S o.1 o.2 := by
  let S' : Addr → Value P → Prop := fun p x => ∀ e : x.ty = τ, S p (e ▸ x.val)
  have conv : ∀ {os u}, RunOps P.cfg (fun u => InCall t u ∧ (∀ p ∈ L, p ∈ u.table ∧ tyAt u p = some τ) ∧
      ∀ p v, p ∈ u.table → deref u p = some ⟨τ, v⟩ → S p v) s1 os u →
      RunOps P.cfg (fun u => InCall t u ∧ (∀ p ∈ L, Listed P.cfg (P.lo τ) (P.hi τ) u p) ∧
        ∀ p v, p ∈ u.table → deref u p = some v → S' p v) s1 os u := by
    have one : ∀ {u : State (Value P)}, (InCall t u ∧ (∀ p ∈ L, p ∈ u.table ∧ tyAt u p = some τ) ∧
        ∀ p v, p ∈ u.table → deref u p = some ⟨τ, v⟩ → S p v) → (InCall t u ∧ (∀ p ∈ L, Listed P.cfg (P.lo τ) (P.hi τ) u p) ∧
        ∀ p v, p ∈ u.table → deref u p = some v → S' p v) := by
      intro u ⟨h1, h2, h3⟩
      refine ⟨h1, fun p hp => ?_, fun p x hp hd e => ?_⟩
      · obtain ⟨h4, h5⟩ := h2 p hp
        simp only [tyAt, Option.map_eq_some_iff] at h5
        obtain ⟨x, h5, h6⟩ := h5
        exact ⟨h4, x, h5, (range_iff x τ).mpr h6⟩
      · obtain ⟨σ, x⟩ := x
        cases e
        exact h3 p x hp hd
    intro os u hr
    induction hr with
    | refl hP => exact .refl (one hP)
    | step e hsane hst hsm hP ih => exact .step ih hsane hst hsm (one hP)
  obtain ⟨h1, objs, h2, h3, h4⟩ := C13_range_bounds (cfg_valid P) h hcall hs1 hL (conv hrun) ht hpc
  have cast : ∀ l : List (Addr × Value P), (∀ o ∈ l, o.2.ty = τ) →
      ∃ l' : List (Addr × (P.ty τ).T), l = l'.map fun o => (o.1, ⟨τ, o.2⟩) := by
    intro l
    induction l with
    | nil => exact fun _ => ⟨[], rfl⟩
    | cons o l ih =>
      intro hl
      obtain ⟨l', rfl⟩ := ih (fun o ho => hl o (by simp [ho]))
      obtain ⟨p, σ, x⟩ := o
      have := hl (p, ⟨σ, x⟩) (by simp)
      cases this
      exact ⟨(p, x) :: l', rfl⟩
  obtain ⟨l', rfl⟩ := cast objs fun o ho => (range_iff o.2 τ).mp (h4 o ho).2
  refine ⟨h1, l', by simpa using h2, ?_, ?_⟩
  · rw [List.pairwise_map] at h3
    exact h3.imp fun h => by simpa only [beq_mk] using h
  · intro o ho
    exact (h4 (o.1, ⟨τ, o.2⟩) (List.mem_map.mpr ⟨o, ho, rfl⟩)).1 rfl

/-- C59 (f). `ArcIntern::<τ>::new(v)` returns a handle to an object of type `τ` that is equal to `v` in `τ`. -/
theorem C59_new_own_type {s0 s1 s2 s3 : State (Value P)} (h : Arc.Reach P.cfg s0) {t : Tid} {τ : Fin P.n} {v : (P.ty τ).T}
    {dst : Bool} (hcall : step P.cfg s0 (.new t ⟨τ, v⟩ dst) = .ok s1) (hs1 : Small P.cfg s1) (hrun : CallRun P.cfg t s1 s2)
    {act : Act (Value P)} (hsane : act.Sane) (hnp : act ≠ .panic t) (hlast : step P.cfg s2 act = .ok s3)
    (hs3 : Small P.cfg s3) (hend : ¬ InCall t s3) :
    ∃ p, s3.handles = p :: s2.handles ∧ ∃ x : (P.ty τ).T, deref s3 p = some ⟨τ, x⟩ ∧ (x == v) = true := by
  obtain ⟨p, h1, ⟨⟨σ, x⟩, h2, h3⟩, _⟩ := C06_new_returns (cfg_valid P) h hcall hs1 hrun hsane hnp hlast hs3 hend
  cases show σ = τ from ty_of_beq h3
  rw [beq_mk] at h3
  exact ⟨p, h1, x, h2, h3⟩

section
variable {V : Type} [BEq V] [Hashable V]

/-- Number of registered objects in the shards before `i`. -/
def before (cfg : Cfg V) (s : State V) (i : Nat) : Nat :=
  (s.table.filter fun p => (deref s p).any fun v => decide (cfg.shardOf v < i)).length

theorem solo_scan {cfg : Cfg V} {s : State V} (hd : ∀ p ∈ s.table, ∃ v, deref s p = some v) (hl : ∀ i, s.locks i = none)
    {t : Tid} {th0 : Thread V} (ht : s.threads[t]? = some th0) (m : Nat) : ∀ (k i acc : Nat), i + k = m →
    ∃ acc', exec cfg (s.setThread t { pc := .lenScan i m acc }) (List.replicate (k + 1) (.run t 0)) =
      .ok (s.setThread t { pc := .lenDone acc' }) ∧ acc' + before cfg s i = acc + before cfg s m := by
  have hget : ∀ x : Thread V, (s.setThread t x).threads[t]? = some x := by
    intro x
    show (s.threads.set t x)[t]? = _
    rw [set_getElem? _ _ _ _ _ ht, if_pos rfl]
  have hset : ∀ x y : Thread V, (s.setThread t x).setThread t y = s.setThread t y := by
    intro x y
    simp only [State.setThread, List.set_set]
  intro k
  induction k with
  | zero =>
    intro i acc hm
    obtain rfl : i = m := hm
    refine ⟨acc, ?_, rfl⟩
    simp only [List.replicate, exec, step, hget, run, Nat.lt_irrefl, if_false, hset]
  | succ k ih =>
    intro i acc hm
    have hlt : i < m := by omega
    have hsl : shardLen cfg (s.setThread t { pc := .lenScan i m acc }) i = shardLen cfg s i := rfl
    obtain ⟨acc', h1, h2⟩ := ih (i + 1) (acc + shardLen cfg s i) (by omega)
    have hsp := split_shard cfg s i s.table hd
    rw [shardLen_eq] at h2
    refine ⟨acc', ?_, ?_⟩
    · rw [List.replicate_succ, exec]
      have : step cfg (s.setThread t { pc := .lenScan i m acc }) (.run t 0) =
          .ok (s.setThread t { pc := .lenScan (i + 1) m (acc + shardLen cfg s i) }) := by
        have hlk : (s.setThread t { pc := .lenScan i m acc }).locks i = none := hl i
        simp only [step, hget, run, if_pos hlt, hlk, Option.isSome_none, Bool.false_eq_true, if_false, hset, hsl]
      rw [this]; exact h1
    · simp only [before] at h2 ⊢; omega
end

/-- C59 (g). When nothing is in progress, `num_objects_interned()` of type `τ` terminates and returns the number of distinct values
of type `τ` that have a handle (in the hands of the client, or in a value of whatever type). -/
theorem C59_len_quiescent {s : State (Value P)} (h : ReachND P.cfg s) (hq : Quiescent s) {t : Tid} {th : Thread (Value P)}
    (ht : s.threads[t]? = some th) (τ : Fin P.n) :
    ∃ n s2, exec P.cfg s (.len t (P.lo τ) (P.hi τ) :: List.replicate ((P.ty τ).shards + 1) (.run t 0)) = .ok s2 ∧
      s2.threads[t]? = some { pc := .lenDone n } ∧
      ∃ vals : List (P.ty τ).T, vals.length = n ∧ vals.Pairwise (fun x y => (x == y) = false) ∧
        (∀ v ∈ vals, ∃ p ∈ allHandles P.cfg s, deref s p = some ⟨τ, v⟩) ∧
        (∀ p ∈ allHandles P.cfg s, ∀ v, deref s p = some ⟨τ, v⟩ → v ∈ vals) := by
  have hv := cfg_valid P
  have hI := reach_inv hv h.reach
  have hd : ∀ p ∈ s.table, ∃ v, deref s p = some v := by
    intro p hp
    obtain ⟨x, hx⟩ := exists_get (hI.mem_keys hp)
    exact ⟨x.data, by simp [deref, hx]⟩
  obtain ⟨n, h1, h2⟩ := solo_scan (cfg := P.cfg) hd (quiescent_locks hI hq) ht (P.hi τ) (P.ty τ).shards (P.lo τ) 0 (hi_eq P τ).symm
  refine ⟨n, s.setThread t { pc := .lenDone n }, ?_, ?_, ?_⟩
  · have : step P.cfg s (.len t (P.lo τ) (P.hi τ)) = .ok (s.setThread t { pc := .lenScan (P.lo τ) (P.hi τ) 0 }) := by
      have hid : th.isIdle = true := hq th (mem_of_getElem? ht)
      simp only [step, ht, hid, if_true]
    rw [exec, this]; exact h1
  · show (s.threads.set t _)[t]? = _
    rw [set_getElem? _ _ _ _ _ ht, if_pos rfl]
  · -- the values of type τ in the table
    obtain ⟨vals, g1, g2, g3, g4⟩ := C05_quiescent_size hv h hq
    have hcount : ∀ l : List Addr, (∀ p ∈ l, ∃ v, deref s p = some v) →
        (l.filter fun p => (deref s p).any fun v => decide (P.cfg.shardOf v < P.lo τ)).length +
          (l.filterMap fun p => (deref s p).bind fun x => if e : x.ty = τ then some (e ▸ x.val) else none).length =
        (l.filter fun p => (deref s p).any fun v => decide (P.cfg.shardOf v < P.hi τ)).length := by
      intro l
      induction l with
      | nil => intro _; rfl
      | cons p l ih =>
        intro hl
        have ih := ih fun q hq => hl q (by simp [hq])
        obtain ⟨x, hx⟩ := hl p (by simp)
        have hr := range_iff x τ
        have hlh : P.lo τ ≤ P.hi τ := by rw [hi_eq]; omega
        simp only [List.filter_cons, List.filterMap_cons, hx, Option.any_some, Option.bind_some, decide_eq_true_eq]
        by_cases e : x.ty = τ
        · obtain ⟨e1, e2⟩ := hr.mpr e
          rw [dif_pos e, if_neg (by omega), if_pos e2]
          simp only [List.length_cons]; omega
        · have : ¬ (P.lo τ ≤ P.cfg.shardOf x ∧ P.cfg.shardOf x < P.hi τ) := fun h => e (hr.mp h)
          rw [dif_neg e]
          by_cases e1 : P.cfg.shardOf x < P.lo τ
          · rw [if_pos e1, if_pos (by omega)]; simp only [List.length_cons]; omega
          · rw [if_neg e1, if_neg (by omega)]; exact ih
    have hnd : s.table.Nodup := by
      rw [List.nodup_iff_count]
      intro a
      have h1 := hI.split a
      have h2 := hI.nd a
      simp only [T] at h1; omega
    have hmem : ∀ {p : Addr} {v : (P.ty τ).T},
        ((deref s p).bind fun x => if e : x.ty = τ then some (e ▸ x.val) else none) = some v ↔ deref s p = some ⟨τ, v⟩ := by
      intro p v
      rw [Option.bind_eq_some_iff]
      constructor
      · rintro ⟨⟨σ, x⟩, k1, h2⟩
        split at h2
        · rename_i e
          cases e; cases h2; exact k1
        · cases h2
      · intro h1; exact ⟨_, h1, by simp⟩
    refine ⟨s.table.filterMap fun p => (deref s p).bind fun x => if e : x.ty = τ then some (e ▸ x.val) else none, ?_, ?_, ?_, ?_⟩
    · have := hcount s.table hd
      simp only [before] at h2
      omega
    · rw [List.pairwise_filterMap]
      refine List.Pairwise.imp_of_mem ?_ (List.nodup_iff_pairwise_ne.mp hnd)
      intro p q hp hq hne x hx y hy
      obtain ⟨cx, k1, k2⟩ := deref_get (hmem.mp hx)
      obtain ⟨cy, k3, k4⟩ := deref_get (hmem.mp hy)
      cases hc : (x == y)
      · rfl
      · exact absurd (hI.uniq p q cx cy hp hq k1 k3 (by rw [k2, k4, beq_mk]; exact hc)) hne
    · intro v hv'
      obtain ⟨p, hp, hd⟩ := List.mem_filterMap.mp hv'
      exact ⟨p, (C05_table_exact hv h hq p).mp hp, hmem.mp hd⟩
    · intro p hp v hd
      exact List.mem_filterMap.mpr ⟨p, hI.in_table hp, hmem.mpr hd⟩

/-! ### Example

Two types: type 0 is `u32`-like (no handles inside; compared modulo 10), type 1 has a label and a list of handles of both
types. Type 0 has two shards and type 1 has one. -/

structure Leaf where
  n : Nat
  deriving DecidableEq
instance : BEq Leaf := ⟨fun a b => a.n % 10 == b.n % 10⟩
instance : Hashable Leaf := ⟨fun a => UInt64.ofNat (a.n % 10)⟩
theorem Leaf.beq_iff (a b : Leaf) : (a == b) = true ↔ a.n % 10 = b.n % 10 := by
  show (a.n % 10 == b.n % 10) = true ↔ _
  exact beq_iff_eq
instance : EquivBEq Leaf where
  rfl := by intro a; rw [Leaf.beq_iff]
  symm := by intro a b h; rw [Leaf.beq_iff] at *; exact h.symm
  trans := by intro a b c h1 h2; rw [Leaf.beq_iff] at *; exact h1.trans h2
instance : LawfulHashable Leaf where
  hash_eq := by
    intro a b h
    show UInt64.ofNat (a.n % 10) = UInt64.ofNat (b.n % 10)
    rw [(Leaf.beq_iff a b).mp h]

structure Tree where
  label : Nat
  sub : List (Fin 2 × Addr)
  deriving DecidableEq
instance : Hashable Tree := ⟨fun a => UInt64.ofNat a.label⟩
instance : LawfulHashable Tree where
  hash_eq := by intro a b h; rw [beq_iff_eq.mp h]

def demoTy : Fin 2 → Ty 2
  | 0 => { T := Leaf, fields := fun _ => [], shards := 2, pick := fun h => h.toNat % 2, pick_lt := fun h => Nat.mod_lt _ (by decide) }
  | 1 => { T := Tree, fields := Tree.sub, shards := 1, pick := fun _ => 0, pick_lt := fun h => by decide }

def demoP : Program := { n := 2, ty := demoTy, W := 2 ^ 64, W_ge := by decide, fits := by decide }

def leaf (n : Nat) : Value demoP := ⟨(0 : Fin 2), (⟨n⟩ : Leaf)⟩
def tree (n : Nat) (l : List (Fin 2 × Addr)) : Value demoP := ⟨(1 : Fin 2), (⟨n, l⟩ : Tree)⟩

/-- Is this action allowed by the type system? -/
def allowed (s : State (Value demoP)) : Act (Value demoP) → Bool
  | .new _ v _ => ((demoP.ty v.ty).fields v.val).all fun f => tyAt s f.2 == some f.1
  | .len _ lo up | .shrink _ lo up => (lo == 0 && up == 2) || (lo == 2 && up == 3)
  | _ => true

theorem allowed_ok {s : State (Value demoP)} {a : Act (Value demoP)} (h : allowed s a = true) : Allowed s a := by
  cases a with
  | new t v d =>
    intro f hf
    simp only [allowed, List.all_eq_true] at h
    simpa using h f hf
  | len t lo up =>
    simp only [allowed, Bool.or_eq_true, Bool.and_eq_true, beq_iff_eq] at h
    rcases h with ⟨rfl, rfl⟩ | ⟨rfl, rfl⟩
    · exact ⟨(0 : Fin 2), rfl, rfl⟩
    · exact ⟨(1 : Fin 2), rfl, rfl⟩
  | shrink t lo up =>
    simp only [allowed, Bool.or_eq_true, Bool.and_eq_true, beq_iff_eq] at h
    rcases h with ⟨rfl, rfl⟩ | ⟨rfl, rfl⟩
    · exact ⟨(0 : Fin 2), rfl, rfl⟩
    · exact ⟨(1 : Fin 2), rfl, rfl⟩
  | _ => trivial

def typedRun (s : State (Value demoP)) : List (Act (Value demoP)) → Option (State (Value demoP))
  | [] => some s
  | a :: as => if allowed s a && a.sane then match step demoP.cfg s a with
      | .ok s' => if (allHandles demoP.cfg s').length < demoP.W then typedRun s' as else none
      | _ => none
    else none

theorem typedRun_reach (as : List (Act (Value demoP))) : ∀ {s s'}, Reach demoP s → typedRun s as = some s' → Reach demoP s' := by
  induction as with
  | nil => intro s s' h e; simp only [typedRun, Option.some.injEq] at e; exact e ▸ h
  | cons a as ih =>
    intro s s' h e
    simp only [typedRun] at e
    split at e
    · rename_i hc
      simp only [Bool.and_eq_true] at hc
      cases hs : step demoP.cfg s a with
      | ok s1 =>
        simp only [hs] at e
        split at e
        · rename_i hsm
          refine ih (.step h ?_ (allowed_ok hc.1) hs (small_of_length hsm)) e
          cases a <;> simp_all [Act.Sane, Act.sane]
        · cases e
      | blocked => simp [hs] at e
      | ub => simp [hs] at e
    · cases e

def typedDemo (as : List (Act (Value demoP))) : State (Value demoP) := (typedRun init as).getD init

theorem typedDemo_reach {as : List (Act (Value demoP))} (h : (typedRun init as).isSome = true) : Reach demoP (typedDemo as) := by
  obtain ⟨s, hs⟩ := Option.isSome_iff_exists.mp h
  have : typedDemo as = s := by simp [typedDemo, hs]
  rw [this]; exact typedRun_reach as .init hs

abbrev rr (t : Tid) (a : Addr := 0) : Act (Value demoP) := .run t a

/-- Thread 0 interns the leaf 5 (object 10), clones it, interns a tree with that leaf in it (object 20) and a tree with
the first tree and the leaf in it (object 30). -/
def buildTrace : List (Act (Value demoP)) :=
  [.spawn, .spawn, .new 0 (leaf 5) false, rr 0, rr 0 10, rr 0, rr 0, rr 0, rr 0, .clone 0 [10], .clone 0 [10],
   .new 0 (tree 5 [(0, 10)]) false, rr 0, rr 0 20, rr 0, rr 0, rr 0, rr 0,
   .new 0 (tree 5 [(1, 20), (0, 10)]) false, rr 0, rr 0 30, rr 0, rr 0, rr 0, rr 0]

/-- A non-trivial case of (a), (b): two trees and a leaf exist, the second tree contains handles of both types. -/
example : Reach demoP (typedDemo buildTrace) ∧ (typedDemo buildTrace).handles = [30, 10] ∧
    (typedDemo buildTrace).table = [30, 20, 10] ∧
    (typedDemo buildTrace).heap.map (fun e => (e.1, e.2.data.ty.1, e.2.count)) = [(30, 1, 1), (20, 1, 1), (10, 0, 3)] ∧
    demoP.cfg.kids (tree 5 [(1, 20), (0, 10)]) = [20, 10] :=
  ⟨typedDemo_reach (by decide), by decide, by decide, by decide, by decide⟩

/-- A non-trivial case of (d): thread 0 is looking at the leaf it found (and holds that shard's lock); thread 1 interns an equal
leaf and has to wait for it. -/
def waitTrace : List (Act (Value demoP)) := buildTrace ++ [.new 0 (leaf 15) false, rr 0, .new 1 (leaf 25) false]

example : Reach demoP (typedDemo waitTrace) ∧ step demoP.cfg (typedDemo waitTrace) (.run 1 99) = .blocked ∧
    (99 ≠ 0 ∧ 99 ∉ keys (typedDemo waitTrace).heap) ∧ ((typedDemo waitTrace).threads[1]?.any fun th => !th.isIdle) = true :=
  ⟨typedDemo_reach (by decide), rfl, by decide, by decide⟩

/-- Whereas a thread that interns a tree, or counts the trees, is not disturbed. -/
example : (∃ s, step demoP.cfg (typedDemo (buildTrace ++ [.new 0 (leaf 15) false, rr 0, .new 1 (tree 8 []) false])) (.run 1 99) = .ok s) ∧
    (∃ s, step demoP.cfg (typedDemo (buildTrace ++ [.new 0 (leaf 15) false, rr 0, .len 1 2 3])) (.run 1 99) = .ok s) :=
  ⟨⟨_, rfl⟩, ⟨_, rfl⟩⟩

/-- A non-trivial case of (g): there is one leaf and there are two trees. -/
example : ∃ s, ReachND demoP.cfg s ∧ Quiescent s ∧ (s.threads[1]?.map fun th => th.isIdle) = some true ∧
    (∃ s2, exec demoP.cfg s (.len 1 0 2 :: List.replicate 3 (.run 1 0)) = .ok s2 ∧ s2.threads[1]? = some { pc := .lenDone 1 }) ∧
    (∃ s2, exec demoP.cfg s (.len 1 2 3 :: List.replicate 2 (.run 1 0)) = .ok s2 ∧ s2.threads[1]? = some { pc := .lenDone 2 }) := by
  have h : (checked Act.plain demoP.cfg init buildTrace).isSome = true := by decide
  obtain ⟨s, hs⟩ := Option.isSome_iff_exists.mp h
  have e : s = (checked Act.plain demoP.cfg init buildTrace).getD init := by rw [hs]; rfl
  refine ⟨s, checked_reachND _ .init hs, ?_, ?_, ?_, ?_⟩
  · rw [e]; unfold Quiescent; decide
  · rw [e]; decide
  · rw [e]; exact ⟨_, rfl, rfl⟩
  · rw [e]; exact ⟨_, rfl, rfl⟩

/-- Runs through states that pass a check. -/
def checkedIn (ok : State (Value demoP) → Bool) (s : State (Value demoP)) : List (Act (Value demoP)) → Option (State (Value demoP))
  | [] => some s
  | a :: as => match step demoP.cfg s a with
    | .ok s' => if a.sane && decide ((allHandles demoP.cfg s').length < demoP.W) && ok s' then checkedIn ok s' as else none
    | _ => none

theorem checkedIn_ok {ok : State (Value demoP) → Bool} {Q : State (Value demoP) → Prop} (hQ : ∀ u, ok u = true → Q u)
    {s0 : State (Value demoP)} (as : List (Act (Value demoP))) : ∀ {s s' : State (Value demoP)} {os},
    RunOps demoP.cfg Q s0 os s → checkedIn ok s as = some s' → ∃ os', RunOps demoP.cfg Q s0 os' s' := by
  induction as with
  | nil => intro s s' os h e; simp only [checkedIn, Option.some.injEq] at e; subst e; exact ⟨os, h⟩
  | cons a as ih =>
    intro s s' os h e
    simp only [checkedIn] at e
    cases hs : step demoP.cfg s a with
    | ok s1 =>
      simp only [hs] at e
      split at e
      · rename_i hc
        simp only [Bool.and_eq_true, decide_eq_true_eq] at hc
        refine ih (.step h ?_ hs (small_of_length hc.1.2) (hQ _ hc.2)) e
        cases a <;> simp_all [Act.Sane, Act.sane]
      · cases e
    | blocked => simp [hs] at e
    | ub => simp [hs] at e

/-- The type of trees. -/
def τ1 : Fin demoP.n := (1 : Fin 2)

/-- A non-trivial case of (e): thread 1 counts the trees (objects 20 and 30 throughout) while thread 0 interns a leaf. -/
example : ∃ s1 os s2, Arc.Reach demoP.cfg (typedDemo buildTrace) ∧
    step demoP.cfg (typedDemo buildTrace) (.len 1 (demoP.lo τ1) (demoP.hi τ1)) = .ok s1 ∧ Small demoP.cfg s1 ∧
    RunOps demoP.cfg (fun u => InCall 1 u ∧ (∀ p ∈ [20, 30], p ∈ u.table ∧ tyAt u p = some τ1) ∧
      ∀ p (v : (demoP.ty τ1).T), p ∈ u.table → deref u p = some ⟨τ1, v⟩ → p ∈ [20, 30]) s1 os s2 ∧
    ∃ th, s2.threads[1]? = some th ∧ th.pc = .lenDone 2 := by
  let ok : State (Value demoP) → Bool := fun u => busy 1 u && ([20, 30].all fun p => u.table.elem p && decide (tyAt u p = some τ1)) &&
    u.table.all fun p => !decide (tyAt u p = some τ1) || p == 20 || p == 30
  have hok : ∀ u, ok u = true → InCall 1 u ∧ (∀ p ∈ [20, 30], p ∈ u.table ∧ tyAt u p = some τ1) ∧
      ∀ p (v : (demoP.ty τ1).T), p ∈ u.table → deref u p = some ⟨τ1, v⟩ → p ∈ [20, 30] := by
    intro u hu
    simp only [ok, Bool.and_eq_true, List.all_eq_true] at hu
    refine ⟨busy_iff.mp hu.1.1, fun p hp => ?_, fun p v hp hd => ?_⟩
    · have := hu.1.2 p hp
      simpa using this
    · have h := hu.2 p hp
      have e : tyAt u p = some τ1 := by rw [tyAt, hd]; rfl
      rw [decide_eq_true e] at h
      simpa using h
  let s1 := typedDemo (buildTrace ++ [.len 1 2 3])
  let as : List (Act (Value demoP)) := [.new 0 (leaf 7) false, rr 0, rr 0 50, rr 1, rr 0, rr 0, rr 0, rr 1]
  have hsome : (checkedIn ok s1 as).isSome = true := by decide
  obtain ⟨s2, hs2⟩ := Option.isSome_iff_exists.mp hsome
  have hpc : (((checkedIn ok s1 as).getD init).threads[1]?.any fun th => match th.pc with
      | .lenDone n => n == 2
      | _ => false) = true := by decide
  rw [hs2] at hpc
  rw [Option.any_eq_true] at hpc
  obtain ⟨th, ht, hpc⟩ := hpc
  obtain ⟨os, hos⟩ := checkedIn_ok hok as (.refl (hok s1 (by decide))) hs2
  exact ⟨s1, os, s2, (typedDemo_reach (by decide)).reach, rfl, small_of_length (by decide), hos, th, ht, by
    split at hpc
    · rename_i n e; rw [e, beq_iff_eq.mp hpc]
    · cases hpc⟩

/-- A non-trivial case of (f): thread 0 interns the leaf 15, which is equal to the leaf 5 (object 10), and gets object 10. -/
def again (k : Nat) : List (Act (Value demoP)) := buildTrace ++ .new 0 (leaf 15) false :: List.replicate k (rr 0)

example : Arc.Reach demoP.cfg (typedDemo buildTrace) ∧
    step demoP.cfg (typedDemo buildTrace) (.new 0 (leaf 15) false) = .ok (typedDemo (again 0)) ∧
    Small demoP.cfg (typedDemo (again 0)) ∧ CallRun demoP.cfg 0 (typedDemo (again 0)) (typedDemo (again 3)) ∧
    step demoP.cfg (typedDemo (again 3)) (rr 0) = .ok (typedDemo (again 4)) ∧ Small demoP.cfg (typedDemo (again 4)) ∧
    ¬ InCall 0 (typedDemo (again 4)) ∧ (typedDemo (again 4)).handles = [10, 30, 10] := by
  have st : ∀ k, k ∈ [0, 1, 2] → CallRun demoP.cfg 0 (typedDemo (again 0)) (typedDemo (again k)) →
      CallRun demoP.cfg 0 (typedDemo (again 0)) (typedDemo (again (k + 1))) := by
    intro k hk h
    simp only [List.mem_cons, List.not_mem_nil, or_false] at hk
    rcases hk with rfl | rfl | rfl
    · exact .step h (a := rr 0) trivial (by simp) rfl (small_of_length (by decide)) (busy_iff.mp (by decide))
    · exact .step h (a := rr 0) trivial (by simp) rfl (small_of_length (by decide)) (busy_iff.mp (by decide))
    · exact .step h (a := rr 0) trivial (by simp) rfl (small_of_length (by decide)) (busy_iff.mp (by decide))
  refine ⟨(typedDemo_reach (by decide)).reach, rfl, small_of_length (by decide),
    st 2 (by simp) (st 1 (by simp) (st 0 (by simp) (.refl (busy_iff.mp (by decide))))), rfl, small_of_length (by decide), ?_, by decide⟩
  rw [← busy_iff]; decide

end Arc.Multi
