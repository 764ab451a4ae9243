import Verif.DeepSize
import Verif.Props.ArcSafety
import Verif.Props.Intern
import Verif.Pool.Demo
/-
Property C48.
-/
namespace DeepSize

section pool
variable {K V : Type} [DecidableEq K] [BEq V] [Hashable V] [EquivBEq V] [LawfulHashable V]

theorem mapM_table {cfg : Pool.Cfg K V} (lay : cfg.Layout) {s : Pool.State K V} (I : Pool.Inv cfg s) {k : K} (hk : k ∉ s.gone) :
    (s.table k).mapM (Pool.deref s k) = some ((Pool.interned s.log k).map (·.2)) := by
  rw [I.tab k hk]
  have hv := I.vals k hk
  revert hv
  generalize Pool.interned s.log k = l
  intro hv
  induction l with
  | nil => rfl
  | cons x l ih =>
    have h1 := (I.deref_iff lay k x.1 x.2).mpr (hv x List.mem_cons_self)
    simp only [List.map_cons, List.mapM_cons, h1, ih (fun y hy => hv y (List.mem_cons_of_mem _ hy))]
    rfl

/-- **C48, `Intern` and `Arena`: each distinct value once.** In every reachable state the reported size of an existing pool is the
capacity part plus the sum over a list `vs` of the distinct interned values, each of them once. -/
theorem C48_each_value_once {cfg : Pool.Cfg K V} (lay : cfg.Layout) {s : Pool.State K V} (r : Pool.Reach cfg s) {k : K}
    (hk : k ∉ s.gone) (S : Sizes V) (capacity : Nat) :
    ∃ vs, Pool.DistinctValues s.log k vs ∧
      poolSize S capacity s k = some (capacity * S.ptr + (vs.map fun v => S.children v + S.own v).sum) := by
  have I := r.inv lay
  exact ⟨_, Pool.distinct_of_seq I.seq k, by rw [poolSize, mapM_table lay I hk]; rfl⟩

theorem interned_dup {l : List (Pool.Entry K V)} {k : K} (newer : List (Pool.Entry K V)) (hs : Pool.Sequential (newer ++ l))
    (hd : ∀ t q v a, ⟨t, .intern k q v, a⟩ ∈ newer → ∃ t' q' v' a', ⟨t', .intern k q' v', a'⟩ ∈ l ∧ (v' == v) = true) :
    Pool.interned (newer ++ l) k = Pool.interned l k := by
  induction newer with
  | nil => rfl
  | cons e newer ih =>
    have ih' := ih hs.2 (fun t q v a h => hd t q v a (List.mem_cons_of_mem _ h))
    simp only [List.cons_append, Pool.interned]
    split
    · rename_i k' q v p ho hr
      split
      · rename_i h
        exfalso
        obtain ⟨rfl, h⟩ := h
        obtain ⟨t', q', v', a', hm, hv⟩ := hd e.tid q v (.ptr p) (by
          have : e = ⟨e.tid, .intern k' q v, .ptr p⟩ := by cases e; simp only at ho hr; rw [ho, hr]
          rw [← this]; exact List.mem_cons_self)
        have hl : Pool.Sequential l := Pool.Sequential.sub (l' := newer) hs.2
        obtain ⟨x, hx, _, ex⟩ := hl.kept hm
        rw [ih', List.any_eq_false] at h
        exact h x hx (BEq.trans ex hv)
      · exact ih'
    · exact ih'

/-- **C48, duplicates.** Between two states in which only values equal to ones interned before were interned in pool `k` (and whatever
else happened), the part of the reported size that is not the table's capacity is unchanged. -/
theorem C48_duplicates_free {cfg : Pool.Cfg K V} (lay : cfg.Layout) {s s' : Pool.State K V} (r : Pool.Reach cfg s)
    (st : Pool.Steps cfg s s') {k : K} (hk : k ∉ s'.gone) {newer : List (Pool.Entry K V)} (hl : s'.log = newer ++ s.log)
    (hd : ∀ t q v a, ⟨t, .intern k q v, a⟩ ∈ newer → ∃ t' q' v' a', ⟨t', .intern k q' v', a'⟩ ∈ s.log ∧ (v' == v) = true)
    (S : Sizes V) (capacity : Nat) : poolSize S capacity s' k = poolSize S capacity s k := by
  have I := r.inv lay
  have I' := (st.reach r).inv lay
  have hk0 : k ∉ s.gone := fun c => hk (st.log.2.2 k c)
  have hs := I'.seq
  rw [hl] at hs
  rw [poolSize, poolSize, mapM_table lay I' hk, mapM_table lay I hk0, hl, interned_dup newer hs hd]

/-- C48: a new value adds exactly its own size. -/
theorem C48_new_value_adds {cfg : Pool.Cfg K V} (lay : cfg.Layout) {s s' : Pool.State K V} (r : Pool.Reach cfg s)
    (st : Pool.Steps cfg s s') {k : K} (hk : k ∉ s'.gone) {t : Pool.Tid} {q : Pool.Query V} {v : V} {p : Pool.Ptr}
    (hl : s'.log = ⟨t, .intern k q v, .ptr p⟩ :: s.log)
    (hnew : ∀ t' q' v' a', ⟨t', .intern k q' v', a'⟩ ∈ s.log → (v' == v) = false)
    (S : Sizes V) (capacity : Nat) {n n' : Nat} (hn : poolSize S capacity s k = some n) (hn' : poolSize S capacity s' k = some n') :
    n' = n + (S.children v + S.own v) := by
  have I := r.inv lay
  have I' := (st.reach r).inv lay
  have hk0 : k ∉ s.gone := fun c => hk (st.log.2.2 k c)
  rw [poolSize, mapM_table lay I hk0] at hn
  rw [poolSize, mapM_table lay I' hk, hl] at hn'
  have hi : Pool.interned (⟨t, .intern k q v, .ptr p⟩ :: s.log) k = (p, v) :: Pool.interned s.log k := by
    have hany : (Pool.interned s.log k).any (fun x => x.2 == v) = false := by
      rw [List.any_eq_false]
      intro x hx hxv
      obtain ⟨t', q', r', hm⟩ := (Pool.distinct_of_seq I.seq k).interned x.2 (List.mem_map_of_mem hx)
      rw [hnew t' q' x.2 r' hm] at hxv
      cases hxv
    simp only [Pool.interned, hany, and_self, if_true]
  rw [hi] at hn'
  simp only [Option.map_some, Option.some.injEq, List.map_cons, List.sum_cons] at hn hn'
  omega
/-- The demo script: three distinct values (one of them interned twice, one zero-sized) in pool 0, three in arena 2. -/
example : ∃ s, Pool.Reach Pool.Demo.cfg s ∧ 0 ∉ s.gone ∧
    poolSize ⟨fun v => v.tag, fun v => if v = ⟨0, 0⟩ then 0 else 24, 8⟩ 7 s 0 = some (7 * 8 + (26 + 24 + 0)) ∧
    poolSize ⟨fun v => v.tag, fun v => if v = ⟨0, 0⟩ then 0 else 24, 8⟩ 3 s 2 = some (3 * 8 + (27 + 24 + 0)) := by
  obtain ⟨s, h, c⟩ := Pool.Demo.scripted Pool.Demo.script (fun s => decide (0 ∉ s.gone ∧
    poolSize ⟨fun v => v.tag, fun v => if v = ⟨0, 0⟩ then 0 else 24, 8⟩ 7 s 0 = some (7 * 8 + (26 + 24 + 0)) ∧
    poolSize ⟨fun v => v.tag, fun v => if v = ⟨0, 0⟩ then 0 else 24, 8⟩ 3 s 2 = some (3 * 8 + (27 + 24 + 0)))) (by decide)
  exact ⟨s, h, of_decide_eq_true c⟩
end pool

section arc
variable {V : Type} [BEq V] [Hashable V] [EquivBEq V] [LawfulHashable V]

/-- **C48, `ArcIntern`.** When nothing is in progress, the reported size is the capacity part plus the sum over the distinct values that have
a handle, each counted once however many handles it has. -/
theorem C48_arc_each_value_once {cfg : Arc.Cfg V} (hv : cfg.Valid) {s : Arc.State V} (h : Arc.ReachND cfg s)
    (hq : Arc.Quiescent s) (S : Sizes V) (word capacity : Nat) :
    ∃ vals : List V, vals.Pairwise (fun x y => (x == y) = false) ∧
      (∀ v ∈ vals, ∃ p ∈ Arc.allHandles cfg s, Arc.deref s p = some v) ∧
      (∀ p ∈ Arc.allHandles cfg s, ∃ v ∈ vals, Arc.deref s p = some v) ∧
      arcSize S word capacity s = some (capacity * S.ptr + (vals.map fun v => word + (S.children v + S.own v)).sum) := by
  have hI := Arc.reach_inv hv h.reach
  have hnd : s.table.Nodup := by
    rw [List.nodup_iff_count]
    intro a
    have h1 := hI.split a
    have h2 := hI.nd a
    simp only [Arc.T] at h1; omega
  have key : ∀ l : List Arc.Addr, (∀ p ∈ l, p ∈ s.table) → l.mapM (Arc.deref s) = some (l.filterMap (Arc.deref s)) := by
    intro l
    induction l with
    | nil => intro _; rfl
    | cons p l ih =>
      intro hl
      obtain ⟨x, hx⟩ := Arc.exists_get (hI.mem_keys (hl p (by simp)))
      have hd : Arc.deref s p = some x.data := by simp [Arc.deref, hx]
      rw [List.mapM_cons, hd, ih (fun q hq => hl q (by simp [hq])), List.filterMap_cons, hd]
      rfl
  refine ⟨s.table.filterMap (Arc.deref s), ?_, ?_, ?_, ?_⟩
  · rw [List.pairwise_filterMap]
    refine List.Pairwise.imp_of_mem ?_ (List.nodup_iff_pairwise_ne.mp hnd)
    intro p q hp hq hne x hx y hy
    cases hc : (x == y)
    · rfl
    · exfalso
      obtain ⟨cx, h1, rfl⟩ := Arc.deref_get hx
      obtain ⟨cy, h2, rfl⟩ := Arc.deref_get hy
      exact hne (hI.uniq p q cx cy hp hq h1 h2 hc)
  · intro v hv'
    rw [List.mem_filterMap] at hv'
    obtain ⟨p, hp, hd⟩ := hv'
    exact ⟨p, (Arc.C05_table_exact hv h hq p).mp hp, hd⟩
  · intro p hp
    obtain ⟨v, hd⟩ := hI.deref_some hp
    exact ⟨v, List.mem_filterMap.mpr ⟨p, hI.in_table hp, hd⟩, hd⟩
  · rw [arcSize, key s.table (fun _ h => h)]; rfl

/-- The nested example: two objects (one of them with two handles), each counted once. -/
example : arcSize ⟨fun v => v.tag, fun _ => 40, 8⟩ 8 3 (Arc.demoND Arc.nestedTrace) = some (3 * 8 + (48 + 48)) := by decide
end arc

end DeepSize
