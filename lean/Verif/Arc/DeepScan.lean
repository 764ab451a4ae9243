import Verif.Props.ArcLen
/-
`deep_size_of_arc_interned` (arc.rs:69-79) while other threads go on.

`x.iter()` visits the shards one after the other; it takes the read lock of a shard, visits the entries of that shard one by one and releases the
lock (DashMap's iterator keeps its guard as long as there are entries of the shard left). While `deep_size_of` runs for one entry, other threads go on with
everything that does not need the write lock of this shard.
-/
namespace Arc
variable {V : Type} [BEq V] [Hashable V]

/-- Where the call is: about to take the read lock of shard `i`; holding it, with the entries `todo` of the shard left to visit; or finished. -/
inductive ScanPc where
  | between (i : Nat)
  | inside (i : Nat) (todo : List Addr)
  | done

/-- The shard whose read lock the call holds. -/
def ScanPc.reads : ScanPc → Option Nat
  | .inside i _ => some i
  | _ => none

/-- The shard whose write lock a step takes: `get_mut` (arc.rs:227), `entry` (arc.rs:248), `remove` (arc.rs:322), `shrink_to_fit` (arc.rs:186). The other steps take
none, or release one, or (`num_objects_interned`) take a read lock. -/
def writeLocks (cfg : Cfg V) (s : State V) : Act V → Option Nat
  | .run t _ => match s.threads[t]? with
    | none => none
    | some th => match th.pc with
      | .newLoop c => some (cfg.shardOf c.val)
      | .newEntry _ b | .dropRemove b => (get s.heap b).map fun x => cfg.shardOf x.data
      | .shrinkScan i m => if i < m then some i else none
      | _ => none
  | _ => none

/-- The entries of shard `i`. -/
def shardEntries (cfg : Cfg V) (s : State V) (i : Nat) : List Addr :=
  s.table.filter fun b => (deref s b).any fun v => cfg.shardOf v == i

/-- A call of `deep_size_of_arc_interned` for the type with the shards `lo`, …, `up - 1`, begun in state `s0`, together with everything other threads do during the
call: `Scan … s0 s pc acc` says that the execution can reach state `s` with the call at `pc` and the sum so far being `acc`. All states of the call satisfy `P`. `word` is
`size_of::<usize>()`, `size v` is `v.deep_size_of()`. Other calls that only read (of this function or of `num_objects_interned`) may hold the same read lock; they
only keep writers away, so that they need not be represented. -/
inductive Scan (cfg : Cfg V) (word : Nat) (size : V → Nat) (lo up : Nat) (P : State V → Prop) (s0 : State V) :
    State V → ScanPc → Nat → Prop
  | start : P s0 → Scan cfg word size lo up P s0 s0 (.between lo) 0
  /-- the read lock of shard `i` is free: take it; the entries come in some order. -/
  | enter {s : State V} {i acc : Nat} {ord : List Addr} : Scan cfg word size lo up P s0 s (.between i) acc → i < up → s.locks i = none →
      ord.Perm (shardEntries cfg s i) → Scan cfg word size lo up P s0 s (.inside i ord) acc
  /-- arc.rs:76: `size_of::<usize>() + n.key().0.data.deep_size_of()`. -/
  | visit {s : State V} {i acc : Nat} {b : Addr} {todo : List Addr} {x : Cell V} : Scan cfg word size lo up P s0 s (.inside i (b :: todo)) acc →
      get s.heap b = some x → Scan cfg word size lo up P s0 s (.inside i todo) (acc + (word + size x.data))
  | leave {s : State V} {i acc : Nat} : Scan cfg word size lo up P s0 s (.inside i []) acc →
      Scan cfg word size lo up P s0 s (.between (i + 1)) acc
  | finish {s : State V} {i acc : Nat} : Scan cfg word size lo up P s0 s (.between i) acc → ¬ i < up →
      Scan cfg word size lo up P s0 s .done acc
  /-- another thread does something that does not need the write lock of the shard being read. -/
  | other {s s' : State V} {pc : ScanPc} {acc : Nat} {a : Act V} : Scan cfg word size lo up P s0 s pc acc → a.Sane →
      (∀ i, pc.reads = some i → writeLocks cfg s a ≠ some i) → step cfg s a = .ok s' → Small cfg s' → P s' →
      Scan cfg word size lo up P s0 s' pc acc

variable {cfg : Cfg V} {word : Nat} {size : V → Nat} {lo up : Nat} {P : State V → Prop} {s0 : State V}

theorem Scan.reach (h0 : Reach cfg s0) {s : State V} {pc : ScanPc} {acc : Nat} (h : Scan cfg word size lo up P s0 s pc acc) :
    Reach cfg s ∧ P s := by
  induction h with
  | start hP => exact ⟨h0, hP⟩
  | enter _ _ _ _ ih => exact ih
  | visit _ _ ih => exact ih
  | leave _ ih => exact ih
  | finish _ _ ih => exact ih
  | other _ hs _ hst hsm hP ih => exact ⟨.step ih.1 hs hst hsm, hP⟩

/-- Nothing leaves a shard that is being read. -/
theorem step_read [EquivBEq V] [LawfulHashable V] {s s' : State V} {a : Act V} {i : Nat} (hI : Inv cfg s) (hsane : a.Sane) (hl : s.locks i = none)
    (hw : writeLocks cfg s a ≠ some i) (h : step cfg s a = .ok s') :
    s'.locks i = none ∧ ∀ b v, b ∈ s.table → deref s b = some v → cfg.shardOf v = i → b ∈ s'.table := by
  have hlock : ∀ (j : Nat) (t : Tid), j ≠ i → (s.lock j t).locks i = none := by
    intro j t hj
    simp only [State.lock]; rw [if_neg (fun e => hj e.symm)]; exact hl
  have hunlock : ∀ j : Nat, (s.unlock j).locks i = none := by
    intro j; simp only [State.unlock]; split
    · rfl
    · exact hl
  cases step_R h with
  | run t a th _ ht hr =>
    cases hr with
    | found c b hpc hl' hf =>
      refine ⟨hlock _ _ (fun e => hw ?_), fun b v hb _ _ => hb⟩
      simp [writeLocks, ht, hpc, e]
    | vacant c b x hpc hx hl' hf =>
      refine ⟨hlock _ _ (fun e => hw ?_), fun b v hb _ _ => hb⟩
      simp [writeLocks, ht, hpc, hx, e]
    | occupied c b r x hpc hx hl' hf =>
      refine ⟨hlock _ _ (fun e => hw ?_), fun b v hb _ _ => hb⟩
      simp [writeLocks, ht, hpc, hx, e]
    | release c sh hpc => exact ⟨hunlock _, fun b v hb _ _ => hb⟩
    | hitRet c sh b hpc => exact ⟨hunlock _, fun b v hb _ _ => hb⟩
    | inserted c sh b hpc => exact ⟨hunlock _, fun b v hb _ _ => hb⟩
    | cache c sh b hpc hd => exact ⟨hunlock _, fun b v hb _ _ => hb⟩
    | intoKey c sh b hpc hd => exact ⟨hunlock _, fun b v hb _ _ => hb⟩
    | insert c sh b hpc => exact ⟨hl, fun b v hb _ _ => List.mem_cons_of_mem _ hb⟩
    | remove b r x hpc hx hl' hf =>
      refine ⟨hl, fun c v hc hd hv => ?_⟩
      have hne : c ≠ r := by
        rintro rfl
        obtain ⟨_, y, hy, hk⟩ := find_some hf
        simp only [deref, hy, Option.map_some, Option.some.injEq] at hd
        subst hd
        apply hw
        simp only [writeLocks, ht, hpc, hx, Option.map_some, Option.some.injEq]
        rw [← hv]
        exact (shardOf_congr hk).symm
      exact (List.mem_erase_of_ne hne).mpr hc
    | _ => exact ⟨hl, fun b v hb _ _ => hb⟩
  | panicInsert t => exact absurd hsane (by simp [Act.Sane])
  | _ => exact ⟨hl, fun b v hb _ _ => hb⟩

end Arc
