import Verif.DeepCtx
import Verif.Props.DeepSize
/-
Property C72: reported memory when interned values share allocations behind `Arc`s.
-/
namespace DeepSize

theorem mapM_perm {α β : Type} {f : α → Option β} {l l' : List α} (h : l.Perm l') {r : List β} (hr : l.mapM f = some r) :
    ∃ r', l'.mapM f = some r' ∧ r.Perm r' := by
  induction h generalizing r with
  | nil => exact ⟨r, hr, .refl _⟩
  | cons x _ ih =>
    rw [List.mapM_cons] at hr
    cases hx : f x with
    | none => rw [hx] at hr; cases hr
    | some y =>
      rw [hx] at hr
      simp only [Option.bind_eq_bind, Option.bind_some, Option.pure_def, Option.bind_eq_some_iff, Option.some.injEq] at hr
      obtain ⟨r1, h1, rfl⟩ := hr
      obtain ⟨r2, h2, hp⟩ := ih h1
      exact ⟨y :: r2, by rw [List.mapM_cons, hx, h2]; rfl, hp.cons _⟩
  | swap x y l =>
    simp only [List.mapM_cons, Option.bind_eq_bind, Option.pure_def, Option.bind_eq_some_iff, Option.some.injEq] at hr
    obtain ⟨b, hb, r1, ⟨a, ha, r2, h2, rfl⟩, rfl⟩ := hr
    exact ⟨a :: b :: r2, by simp only [List.mapM_cons, ha, hb, h2]; rfl, .swap _ _ _⟩
  | trans _ _ ih1 ih2 =>
    obtain ⟨r1, h1, p1⟩ := ih1 hr
    obtain ⟨r2, h2, p2⟩ := ih2 h1
    exact ⟨r2, h2, p1.trans p2⟩

section pool
variable {K V : Type} [DecidableEq K] [BEq V] [Hashable V] [EquivBEq V] [LawfulHashable V]

/-- **C72, `Intern` and `Arena`: shared allocations once.** In every reachable state, in whatever order the hash table gives its elements, the
reported size of an existing pool is: the set itself, its pointers, for each of the distinct interned values `vs` its own size and the memory it owns alone,
and each allocation that any of them keeps alive through `Arc`s (the list `shared`, without repetition) once. -/
theorem C72_shared_once {cfg : Pool.Cfg K V} (lay : cfg.Layout) {s : Pool.State K V} (r : Pool.Reach cfg s) {k : K}
    (hk : k ∉ s.gone) (D : Deep V) (H : Shared) (header capacity : Nat) {ord : List Pool.Ptr} (ho : ord.Perm (s.table k)) :
    ∃ (vs : List V) (shared : List Nat), Pool.DistinctValues s.log k vs ∧ shared.Nodup ∧ (∀ x, x ∈ shared ↔ ∃ v ∈ vs, D.Keeps H v x) ∧
      poolDeep D H header capacity s k ord = some (header + capacity * D.ptr +
        (vs.map fun v => D.own v + D.heap v).sum + (shared.map H.own).sum) := by
  have I := r.inv lay
  have h1 := mapM_table lay I hk
  obtain ⟨vs, h2, hp⟩ := mapM_perm ho.symm h1
  have hd := Pool.distinct_of_seq I.seq k
  obtain ⟨new, n1, n2, n3⟩ := elems_counts (H := H) D vs (c := []) List.nodup_nil full_nil
  simp only [List.append_nil, List.not_mem_nil, false_or] at n1 n3
  refine ⟨_, new, hd, n1, fun x => ?_, ?_⟩
  · rw [n3]
    exact ⟨fun ⟨v, hv, h⟩ => ⟨v, hp.mem_iff.mpr hv, h⟩, fun ⟨v, hv, h⟩ => ⟨v, hp.mem_iff.mp hv, h⟩⟩
  · have hs := ((hp.map fun v => D.heap v + D.own v).sum_nat).symm
    rw [poolDeep, h2, Option.map_some, n2, hs]
    simp only [Nat.add_comm (D.heap _) (D.own _)]
    congr 1
    omega

/-- C72: the reported size does not depend on the order in which the hash table gives its elements (although the `Context` is passed from one to the next). -/
theorem C72_order_irrelevant {cfg : Pool.Cfg K V} (lay : cfg.Layout) {s : Pool.State K V} (r : Pool.Reach cfg s) {k : K}
    (hk : k ∉ s.gone) (D : Deep V) (H : Shared) (header capacity : Nat) {ord ord' : List Pool.Ptr} (ho : ord.Perm (s.table k))
    (ho' : ord'.Perm (s.table k)) : poolDeep D H header capacity s k ord = poolDeep D H header capacity s k ord' := by
  have I := r.inv lay
  obtain ⟨vs, h2, hp⟩ := mapM_perm ho.symm (mapM_table lay I hk)
  obtain ⟨vs', h2', hp'⟩ := mapM_perm ho'.symm (mapM_table lay I hk)
  have hpp := hp.symm.trans hp'
  obtain ⟨new, n1, n2, n3⟩ := elems_counts (H := H) D vs (c := []) List.nodup_nil full_nil
  obtain ⟨new', n1', n2', n3'⟩ := elems_counts (H := H) D vs' (c := []) List.nodup_nil full_nil
  simp only [List.append_nil, List.not_mem_nil, false_or] at n1 n3 n1' n3'
  rw [poolDeep, poolDeep, h2, h2', Option.map_some, Option.map_some, n2, n2', (hpp.map _).sum_nat,
    sum_of_same n1 n1' (fun x => by rw [n3, n3']; exact ⟨fun ⟨v, hv, h⟩ => ⟨v, hpp.mem_iff.mp hv, h⟩, fun ⟨v, hv, h⟩ => ⟨v, hpp.mem_iff.mpr hv, h⟩⟩)]

/-- **C72, handles inside interned values.** `Intern` and `ArcIntern` handles inside interned values add nothing to what the values' own sizes already
contain; an `ArenaIntern` handle is counted a second time. -/
theorem C72_handles_inside {cfg : Pool.Cfg K V} (lay : cfg.Layout) {s : Pool.State K V} (r : Pool.Reach cfg s) {k : K}
    (hk : k ∉ s.gone) (D : Deep V) (H : Shared) (header capacity ptr : Nat) (n : V → Nat) {ord : List Pool.Ptr} (ho : ord.Perm (s.table k)) :
    poolDeep (D.withHandles n internChildren) H header capacity s k ord = poolDeep D H header capacity s k ord ∧
    ∃ vs, Pool.DistinctValues s.log k vs ∧ poolDeep (D.withHandles n (arenaInternChildren ptr)) H header capacity s k ord =
      (poolDeep D H header capacity s k ord).map (· + (vs.map n).sum * ptr) := by
  have I := r.inv lay
  have h1 := mapM_table lay I hk
  obtain ⟨vs, h2, hp⟩ := mapM_perm ho.symm h1
  have key : ∀ each (vs : List V) c, ((D.withHandles n each).elems H vs c).1 = (D.elems H vs c).1 + (vs.map n).sum * each ∧
      ((D.withHandles n each).elems H vs c).2 = (D.elems H vs c).2 := by
    intro each vs
    induction vs with
    | nil => intro c; exact ⟨by simp [Deep.elems], rfl⟩
    | cons v vs ih =>
      intro c
      have e1 : ((D.withHandles n each).children H v c).2 = (D.children H v c).2 := rfl
      have e2 : ((D.withHandles n each).children H v c).1 = (D.children H v c).1 + n v * each := by
        simp only [Deep.children, Deep.withHandles]; omega
      have e3 : (D.withHandles n each).own v = D.own v := rfl
      obtain ⟨i1, i2⟩ := ih (D.children H v c).2
      have e4 := Nat.add_mul (n v) (vs.map n).sum each
      simp only [Deep.elems, List.map_cons, List.sum_cons, e1, e2, e3, i1, i2]
      refine ⟨?_, trivial⟩
      omega
  refine ⟨?_, _, Pool.distinct_of_seq I.seq k, ?_⟩
  · rw [poolDeep, poolDeep, h2, Option.map_some, Option.map_some, (key internChildren vs []).1]; rfl
  · rw [poolDeep, poolDeep, h2, Option.map_some, Option.map_some, Option.map_some, (key _ vs []).1, (hp.map n).sum_nat]
    congr 1
    show header + (capacity * D.ptr + (_ + _ * ptr)) = _
    omega

/-- The sizes in the examples: values are 16 bytes; the values with tag > 0 have an `Arc` to allocation 1, of 50 bytes, which has an `Arc` to allocation 0,
of 26. -/
def demoShared : Shared where
  own a := if a = 1 then 50 else 26
  kids a := if a = 1 then [0] else []
  rank a := a
  down a b h := by
    by_cases e : a = 1
    · subst e; simp only [if_true, List.mem_singleton] at h; omega
    · rw [if_neg e] at h; cases h

/-- As intern.rs:652-708: three values with different hashes share one string (and one more has none); it is counted once. -/
example : ∃ s, Pool.Reach Pool.Demo.cfg s ∧ 2 ∉ s.gone ∧ (s.table 2).length = 4 ∧
    poolDeep ⟨fun v => if v = ⟨0, 0⟩ then 0 else 16, fun _ => 0, fun v => if v.tag = 0 then [] else [1, 0, 1], 8⟩ demoShared 32 7 s 2 (s.table 2).reverse =
      some (32 + 7 * 8 + (16 + 16 + 16) + (50 + 26)) := by
  obtain ⟨s, h, c⟩ := Pool.Demo.scripted (Pool.Demo.script ++ Pool.Demo.miss 0 2 ⟨7, 1⟩ 6000) (fun s => decide (2 ∉ s.gone ∧ (s.table 2).length = 4 ∧
    poolDeep ⟨fun v => if v = ⟨0, 0⟩ then 0 else 16, fun _ => 0, fun v => if v.tag = 0 then [] else [1, 0, 1], 8⟩ demoShared 32 7 s 2 (s.table 2).reverse =
      some (32 + 7 * 8 + (16 + 16 + 16) + (50 + 26)))) (by decide)
  exact ⟨s, h, of_decide_eq_true c⟩
end pool

section arc
variable {V : Type} [BEq V] [Hashable V] [EquivBEq V] [LawfulHashable V]

theorem sum_counts {α : Type} (f : Nat → Nat) (refs : α → List Nat) (shared : List Nat) (vs : List α) (hd : shared.Nodup) (hn : ∀ v ∈ vs, (refs v).Nodup)
    (hs : ∀ v ∈ vs, ∀ x ∈ refs v, x ∈ shared) :
    (vs.map fun v => ((refs v).map f).sum).sum = (shared.map fun a => f a * vs.countP fun v => decide (a ∈ refs v)).sum := by
  induction vs with
  | nil =>
    clear hd hs
    induction shared with
    | nil => rfl
    | cons a l ih => simp only [List.map_cons, List.sum_cons, List.countP_nil, Nat.mul_zero, Nat.zero_add] at ih ⊢; exact ih
  | cons v vs ih =>
    rw [List.map_cons, List.sum_cons, ih (fun w hw => hn w (List.mem_cons_of_mem _ hw)) (fun w hw => hs w (List.mem_cons_of_mem _ hw))]
    have e1 : ((refs v).map f).sum = (shared.map fun a => f a * if a ∈ refs v then 1 else 0).sum := by
      have hp : (refs v).Perm (shared.filter fun a => decide (a ∈ refs v)) :=
        (List.perm_ext_iff_of_nodup (hn v List.mem_cons_self) (hd.filter _)).mpr fun x => by
          rw [List.mem_filter, decide_eq_true_iff]
          exact ⟨fun h => ⟨hs v List.mem_cons_self x h, h⟩, fun h => h.2⟩
      rw [(hp.map f).sum_nat]
      clear hp ih hd hs
      induction shared with
      | nil => rfl
      | cons a l ih =>
        rw [List.filter_cons, List.map_cons, List.sum_cons]
        by_cases h : a ∈ refs v
        · simp only [h, decide_true, if_true, List.map_cons, List.sum_cons, Nat.mul_one, ih]
        · simp only [h, decide_false, if_false, Nat.mul_zero, Nat.zero_add, ih, Bool.false_eq_true]
    rw [e1]
    clear e1 ih hd hs
    induction shared with
    | nil => rfl
    | cons a l ih =>
      simp only [List.map_cons, List.sum_cons]
      rw [← ih, List.countP_cons]
      by_cases h : a ∈ refs v
      · have := Nat.mul_add (f a) (vs.countP fun v => decide (a ∈ refs v)) 1
        simp only [h, decide_true, if_true, Nat.mul_one] at this ⊢; omega
      · simp only [h, decide_false, if_false, Nat.mul_zero, Bool.false_eq_true, Nat.add_zero]; omega

/-- **C72, `ArcIntern`: shared allocations as often as they are shared.** When nothing is in progress, the reported size is the capacity part, for each distinct
value that has a handle a counter, its own size and the memory it owns alone, and each allocation that some value keeps alive through `Arc`s *times the
number of values that do* (`keeps v` lists the allocations kept alive by `v`). -/
theorem C72_arc_shared_per_value {cfg : Arc.Cfg V} (hv : cfg.Valid) {s : Arc.State V} (h : Arc.ReachND cfg s)
    (hq : Arc.Quiescent s) (D : Deep V) (H : Shared) (word capacity : Nat) {ord : List Arc.Addr} (ho : ord.Perm s.table) :
    ∃ (vals : List V) (keeps : V → List Nat), vals.Pairwise (fun x y => (x == y) = false) ∧
      (∀ v, v ∈ vals ↔ ∃ p ∈ Arc.allHandles cfg s, Arc.deref s p = some v) ∧
      (∀ v, (keeps v).Nodup ∧ ∀ x, x ∈ keeps v ↔ D.Keeps H v x) ∧
      ∀ shared : List Nat, shared.Nodup → (∀ x, x ∈ shared ↔ ∃ v ∈ vals, D.Keeps H v x) →
        arcDeep D H word capacity s ord = some (capacity * D.ptr + (vals.map fun v => word + D.own v + D.heap v).sum +
          (shared.map fun a => H.own a * vals.countP fun v => decide (a ∈ keeps v)).sum) := by
  have hI := Arc.reach_inv hv h.reach
  have hnd : ord.Nodup := by
    refine ho.nodup_iff.mpr (List.nodup_iff_count.mpr fun a => ?_)
    have h1 := hI.split a
    have h2 := hI.nd a
    simp only [Arc.T] at h1; omega
  have key : ∀ l : List Arc.Addr, (∀ p ∈ l, p ∈ s.table) → l.mapM (Arc.deref s) = some (l.filterMap (Arc.deref s)) := by
    intro l
    induction l with
    | nil => intro _; rfl
    | cons p l ih =>
      intro hl
      obtain ⟨x, hx⟩ := Arc.exists_get (hI.mem_keys (hl p (by simp)))
      have hd : Arc.deref s p = some x.data := by simp [Arc.deref, hx]
      rw [List.mapM_cons, hd, ih (fun q hq => hl q (by simp [hq])), List.filterMap_cons, hd]
      rfl
  have hk : ∀ v, ∃ l : List Nat, l.Nodup ∧ (∀ x, x ∈ l ↔ D.Keeps H v x) ∧ (D.children H v []).1 = D.heap v + (l.map H.own).sum := by
    intro v
    obtain ⟨new, e, d, hs, hm, _⟩ := children_counts (H := H) D v (c := []) List.nodup_nil full_nil
    rw [List.append_nil] at d
    exact ⟨new, d, fun x => by have := hm x; simpa using this, hs⟩
  obtain ⟨keeps, hk⟩ := Classical.skolem.mp hk
  refine ⟨ord.filterMap (Arc.deref s), keeps, ?_, ?_, ?_, ?_⟩
  · rw [List.pairwise_filterMap]
    refine List.Pairwise.imp_of_mem ?_ (List.nodup_iff_pairwise_ne.mp hnd)
    intro p q hp hq hne x hx y hy
    cases hc : (x == y)
    · rfl
    · exfalso
      obtain ⟨cx, h1, rfl⟩ := Arc.deref_get hx
      obtain ⟨cy, h2, rfl⟩ := Arc.deref_get hy
      exact hne (hI.uniq p q cx cy (ho.mem_iff.mp hp) (ho.mem_iff.mp hq) h1 h2 hc)
  · intro v
    constructor
    · intro hw
      obtain ⟨p, hp, hd⟩ := List.mem_filterMap.mp hw
      exact ⟨p, (Arc.C05_table_exact hv h hq p).mp (ho.mem_iff.mp hp), hd⟩
    · rintro ⟨p, hp, hd⟩
      exact List.mem_filterMap.mpr ⟨p, ho.mem_iff.mpr (hI.in_table hp), hd⟩
  · exact fun v => ⟨(hk v).1, (hk v).2.1⟩
  · intro shared hn hs
    rw [arcDeep, key ord (fun p hp => ho.mem_iff.mp hp), Option.map_some,
      ← sum_counts H.own keeps shared _ hn (fun v _ => (hk v).1)
        (fun v hv' x hx => (hs x).mpr ⟨v, hv', ((hk v).2.1 x).mp hx⟩)]
    congr 1
    rw [Nat.add_assoc]
    congr 1
    generalize ord.filterMap (Arc.deref s) = vs
    induction vs with
    | nil => rfl
    | cons v vs ih =>
      simp only [List.map_cons, List.sum_cons]
      rw [ih, (hk v).2.2]
      omega

/-- Two different values with an `Arc` to the same allocation. -/
def sharingTrace : List (Arc.Act Arc.Val) :=
  [.spawn, .new 0 ⟨5, 1, []⟩ false, Arc.r 0, Arc.r 0 10, Arc.r 0, Arc.r 0, Arc.r 0, Arc.r 0,
   .new 0 ⟨6, 1, []⟩ false, Arc.r 0, Arc.r 0 20, Arc.r 0, Arc.r 0, Arc.r 0, Arc.r 0]

/-- **C72, negative finding.** `deep_size_of_arc_interned` reports more memory than there is: here two interned values keep the same allocations alive (50 and
26 bytes), and both are counted twice. -/
theorem C72_arc_overcounts : ∃ (s : Arc.State Arc.Val) (D : Deep Arc.Val) (H : Shared) (vals : List Arc.Val) (shared : List Nat),
    Arc.ReachND Arc.demoCfg s ∧ Arc.Quiescent s ∧ vals = s.table.filterMap (Arc.deref s) ∧ shared.Nodup ∧
    (∀ x, x ∈ shared ↔ ∃ v ∈ vals, D.Keeps H v x) ∧
    arcDeep D H 8 0 s s.table = some ((vals.map fun v => 8 + D.own v + D.heap v).sum + 2 * (shared.map H.own).sum) ∧ (shared.map H.own).sum = 76 := by
  refine ⟨Arc.demoND sharingTrace, ⟨fun _ => 16, fun _ => 0, fun v => if v.tag = 0 then [] else [1], 8⟩, demoShared, [⟨6, 1, []⟩, ⟨5, 1, []⟩], [1, 0],
    Arc.demoND_reach (by decide), by unfold Arc.Quiescent; decide, by decide, by decide, fun x => ?_, by decide, by decide⟩
  have h10 : demoShared.Below 1 0 := .step .refl (by decide)
  constructor
  · intro hx
    refine ⟨⟨6, 1, []⟩, List.mem_cons_self, 1, by simp, ?_⟩
    rcases List.mem_cons.mp hx with rfl | hx
    · exact .refl
    · rw [List.mem_singleton.mp hx]; exact h10
  · rintro ⟨v, hv, a, ha, hb⟩
    have ha1 : a = 1 := by
      simp only at ha
      split at ha
      · cases ha
      · exact List.mem_singleton.mp ha
    subst ha1
    have := hb.rank
    have h2 : x ≤ 1 := this
    rcases Nat.le_one_iff_eq_zero_or_eq_one.mp h2 with rfl | rfl <;> simp

end arc
end DeepSize
