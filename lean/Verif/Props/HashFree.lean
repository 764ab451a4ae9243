import Verif.Arc.HashFree
import Verif.Arc.Settle3
import Verif.Arc.Demo
import Verif.Pool.HashFree
import Verif.Pool.Demo
/-
C73: nothing that a client can observe depends on the hash function, its random seed, or the number of shards.
-/

namespace Pool
variable {K V : Type} [DecidableEq K] [BEq V]

/-- **C73, `Intern` and `Arena`.** Take two hash functions, each agreeing with `Eq`, and two executions that do the same things in the
same order (`as`, `bs`: the same up to the hashes of keys): same calls, same schedule, same panics, same answers of the allocator.
If the first is possible, so is the second, and it leads to the same memory, the same tables, the same locks, and all calls have returned the
same results. Neither collisions nor the seed of the hasher can be observed. -/
theorem C73_hash_irrelevant (h1 h2 : Hashable V) (l1 : @LawfulHashable V _ h1) (l2 : @LawfulHashable V _ h2) (cfg : Cfg K V)
    {as bs : List (Act K V)} (same : bs.map Act.erase = as.map Act.erase)
    (ha : ∀ a ∈ as, @Act.Hashes K V h1 a) (hb : ∀ b ∈ bs, @Act.Hashes K V h2 b) {s1 : State K V}
    (e : @exec K V _ _ h1 cfg init as = .ok s1) :
    ∃ s2, @exec K V _ _ h2 cfg init bs = .ok s2 ∧ s2.heap = s1.heap ∧ s2.table = s1.table ∧ s2.lock = s1.lock ∧ s2.gone = s1.gone ∧
      s2.done.map (fun x => (x.tid, x.op.pool, x.ret)) = s1.done.map (fun x => (x.tid, x.op.pool, x.ret)) := by
  have e1 := @exec_erase K V _ _ h1 l1 cfg as ha init (fun pc h => by cases h)
  have e2 := @exec_erase K V _ _ h2 l2 cfg bs hb init (fun pc h => by cases h)
  rw [same, e1, e] at e2
  cases h : @exec K V _ _ h2 cfg init bs with
  | blocked => rw [h] at e2; cases e2
  | ub => rw [h] at e2; cases e2
  | ok s2 =>
    rw [h] at e2
    injection e2 with e2
    have ed : s1.done.map Entry.erase = s2.done.map Entry.erase := congrArg State.done e2
    have ef : ∀ l : List (Entry K V), l.map (fun x => (x.tid, x.op.pool, x.ret)) =
        (l.map Entry.erase).map (fun x => (x.tid, x.op.pool, x.ret)) := by
      intro l
      rw [List.map_map]
      refine List.map_congr_left fun x _ => ?_
      simp only [Function.comp, Entry.erase, Op.erase_pool]
    refine ⟨s2, rfl, ?_, ?_, ?_, ?_, by rw [ef, ef s1.done, ed]⟩
    · exact (congrArg State.heap e2).symm
    · exact (congrArg State.table e2).symm
    · exact (congrArg State.lock e2).symm
    · exact (congrArg State.gone e2).symm

namespace Demo

/-- The same script with all values in one bucket. -/
def Cmd.act1 (c : Cmd) : Act Nat Val := c.act.erase

/-- The hypotheses are met by the script of `Demo.lean`, once with three hash values and once with a single one. -/
example : (script.map Cmd.act1).map Act.erase = (script.map Cmd.act).map Act.erase ∧
    (∀ a ∈ script.map Cmd.act, a.Hashes) ∧ (∀ b ∈ script.map Cmd.act1, @Act.Hashes Nat Val oneBucket b) ∧
    @LawfulHashable Val _ oneBucket ∧ ∃ s, exec cfg init (script.map Cmd.act) = .ok s ∧ results s = expected := by
  refine ⟨?_, fun a ha => (lawful script a ha).hashes, ?_, @LawfulHashable.mk Val _ oneBucket fun _ _ _ => rfl, ?_⟩
  · rw [List.map_map, List.map_map]
    refine List.map_congr_left fun c _ => ?_
    cases c <;> rfl
  · intro b hb
    obtain ⟨c, _, rfl⟩ := List.mem_map.mp hb
    cases c with
    | new t k v => exact fun _ _ => rfl
    | query t k v => exact fun _ _ => rfl
    | _ => trivial
  · obtain ⟨s, h, c⟩ := exec_check (cfg := cfg) (l := script.map Cmd.act) (fun s => decide (results s = expected)) (by decide)
    exact ⟨s, h, by simpa using c⟩

/-- A hash that does not agree with `Eq`. -/
@[reducible] def tagHash : Hashable Val := ⟨fun a => UInt64.ofNat a.tag⟩

/-- That the hash agrees with `Eq` is needed: with `tagHash` the equal values (5, 1), (5, 2) get different handles, with `oneBucket` the same. -/
example :
    ((@exec _ _ _ _ tagHash cfg init ([.spawn, .call 0 (.intern 0 (@Query.ofVal _ _ tagHash ⟨5, 1⟩) ⟨5, 1⟩)] ++ List.replicate 5 (.run 0 1000) ++
      [.call 0 (.intern 0 (@Query.ofVal _ _ tagHash ⟨5, 2⟩) ⟨5, 2⟩)] ++ List.replicate 5 (.run 0 2000))).get?.map fun s => (s.table 0).length) = some 2 ∧
    ((@exec _ _ _ _ oneBucket cfg init ([.spawn, .call 0 (.intern 0 (@Query.ofVal _ _ oneBucket ⟨5, 1⟩) ⟨5, 1⟩)] ++ List.replicate 5 (.run 0 1000) ++
      [.call 0 (.intern 0 (@Query.ofVal _ _ oneBucket ⟨5, 2⟩) ⟨5, 2⟩)] ++ List.replicate 4 (.run 0 2000))).get?.map fun s => (s.table 0).length) = some 1 := by
  decide

end Demo
end Pool

namespace Arc
variable {V : Type} [BEq V]

/-- Two `ArcIntern`s for the same type and machine that may differ in hash function, seed and number of shards. -/
structure SameButShards (c1 c2 : Cfg V) : Prop where
  kids : c1.kids = c2.kids
  word : c1.W = c2.W

omit [BEq V] in
theorem SameButShards.one {c1 c2 : Cfg V} (h : SameButShards c1 c2) : c2.one = c1.one := by
  rcases c1 with ⟨k1, _, _, w1⟩
  rcases c2 with ⟨k2, _, _, w2⟩
  have hk : k1 = k2 := h.kids
  have hw : w1 = w2 := h.word
  subst hk; subst hw
  rfl

/-- What clients can see of a state: the objects with their values and reference counts, which of them are registered (their number is
`num_objects_interned`), the handles they have, and which threads have finished their calls. -/
structure SameForClients (s1 s2 : State V) : Prop where
  heap : s1.heap = s2.heap
  table : s1.table = s2.table
  handles : s1.handles = s2.handles
  idle : s1.threads.map (·.isIdle) = s2.threads.map (·.isIdle)

omit [BEq V] in
theorem sameForClients {s1 s2 : State V} (e : s2.erase = s1.erase) : SameForClients s1 s2 where
  heap := (congrArg State.heap e).symm
  table := (congrArg State.table e).symm
  handles := (congrArg State.handles e).symm
  idle := by
    have et : s2.threads.map Thread.erase = s1.threads.map Thread.erase := congrArg State.threads e
    have : ∀ l : List (Thread V), l.map (·.isIdle) = (l.map Thread.erase).map (·.isIdle) := by
      intro l
      rw [List.map_map]
      exact List.map_congr_left fun th _ => (erase_isIdle th).symm
    rw [this s1.threads, this s2.threads, et]

/-- **C73, `ArcIntern`, one thread.** In a program with one thread (which may do anything, including panics in `Hash` and `Eq`, except panics
inside a table insertion, see C19) nothing depends on the hash function, the seed, or the number of shards: the same actions are possible and give
the same handles, the same reference counts and the same number of objects. -/
theorem C73_arc_one_thread [EquivBEq V] (h1 h2 : Hashable V) (l1 : @LawfulHashable V _ h1) (l2 : @LawfulHashable V _ h2) {c1 c2 : Cfg V}
    (v1 : c1.Valid) (v2 : c2.Valid) (hc : SameButShards c1 c2) {l : List (Act V)} {s1 : State V} (h : @ActsRun V _ h1 c1 l s1)
    (ht : s1.threads.length ≤ 1) : ∃ s2, @ActsRun V _ h2 c2 l s2 ∧ SameForClients s1 s2 := by
  obtain ⟨s2, r2, e⟩ := CalmRun.rehash h1 h2 l1 l2 v1 v2 hc.one (@ActsRun.calm_one_thread V _ _ h1 l1 c1 v1 l s1 h ht)
  exact ⟨s2, @CalmRun.runs V _ h2 c2 l s2 r2, sameForClients e⟩

/-- **C73, `ArcIntern`, any number of threads.** Everything that can happen when all values are in a single shard, with whatever collisions, can
happen with every other hash function and number of shards. -/
theorem C73_arc_one_shard [EquivBEq V] (h1 h2 : Hashable V) (l1 : @LawfulHashable V _ h1) (l2 : @LawfulHashable V _ h2) {c1 c2 : Cfg V}
    (v1 : c1.Valid) (v2 : c2.Valid) (hc : SameButShards c1 c2) (hone : c1.shards = 1) {l : List (Act V)} {s1 : State V}
    (h : @ActsRun V _ h1 c1 l s1) : ∃ s2, @ActsRun V _ h2 c2 l s2 ∧ SameForClients s1 s2 := by
  obtain ⟨s2, r2, e⟩ := CalmRun.rehash h1 h2 l1 l2 v1 v2 hc.one (@ActsRun.calm_one_shard V _ _ h1 l1 c1 v1 l s1 h hone)
  exact ⟨s2, @CalmRun.runs V _ h2 c2 l s2 r2, sameForClients e⟩

/-- **C73, `ArcIntern`, any number of threads and shards**: the same holds of every execution in which no thread takes a shard's lock while
another holds any shard's lock (the accesses to counters, the allocations and the deallocations of different calls may interleave in all ways). -/
theorem C73_arc_calm [EquivBEq V] (h1 h2 : Hashable V) (l1 : @LawfulHashable V _ h1) (l2 : @LawfulHashable V _ h2) {c1 c2 : Cfg V}
    (v1 : c1.Valid) (v2 : c2.Valid) (hc : SameButShards c1 c2) {l : List (Act V)} {s1 : State V} (h : @CalmRun V _ h1 c1 l s1) :
    ∃ s2, @CalmRun V _ h2 c2 l s2 ∧ SameForClients s1 s2 := by
  obtain ⟨s2, r2, e⟩ := CalmRun.rehash h1 h2 l1 l2 v1 v2 hc.one h
  exact ⟨s2, r2, sameForClients e⟩

omit [BEq V] in
theorem SameButShards.reshard {c1 c2 : Cfg V} (h : SameButShards c1 c2) : c2 = c1.reshard c2.shards c2.pick := by
  rcases c1 with ⟨k1, _, _, w1⟩
  rcases c2 with ⟨k2, _, _, w2⟩
  have hk : k1 = k2 := h.kids
  have hw : w1 = w2 := h.word
  subst hk; subst hw
  rfl

/-- **C73, `ArcIntern`, all executions.** Let `l` be what the clients of some execution saw, in order: their calls, the values and reference counts
they read, the handles they got, panics, and the ends of calls. With any other hash function, seed and number of shards there is an execution whose
clients see exactly `l`. It ends with the same objects, values and handles, and with the same reference counts of all objects that have handles. If
no call is in progress, also the counts of all other objects and the set of registered objects (whose number is `num_objects_interned`) are the same. -/
theorem C73_arc_concurrent [EquivBEq V] (h1 h2 : Hashable V) (l1 : @LawfulHashable V _ h1) (l2 : @LawfulHashable V _ h2) {c1 c2 : Cfg V}
    (v1 : c1.Valid) (hc : SameButShards c1 c2) {l : List (Event V)} {s1 : State V} (h : @Witnessed V _ h1 c1 l s1) :
    ∃ s2, @Witnessed V _ h2 c2 l s2 ∧ s2.handles = s1.handles ∧ (∀ p, deref s2 p = deref s1 p) ∧
      (∀ p ∈ allHandles c1 s1, refcount s2 p = refcount s1 p) ∧ s2.threads.map (·.isIdle) = s1.threads.map (·.isIdle) ∧
      (Quiescent s1 → s2.heap = s1.heap ∧ s2.table.Perm s1.table ∧ s2.threads = s1.threads) := by
  rw [hc.reshard]
  obtain ⟨u, hu, S⟩ := @Witnessed.sim V _ h2 l2 _ h1 l1 c1 c2.shards c2.pick v1 s1 l h
  have I := @reach_inv V _ h1 l1 _ c1 v1 s1 (@Witnessed.reach V _ h1 c1 l s1 h)
  refine ⟨u, hu, S.handles, fun p => ?_, fun p hp => ?_, ?_, fun hq => ?_⟩
  · unfold deref
    rw [S.heap, get_settle]
    cases get s1.heap p <;> rfl
  · unfold refcount
    rw [S.heap, get_settle, @Inv.calm_count V _ h1 c1 s1 I p (List.count_pos_iff.mpr hp)]
    cases get s1.heap p <;> rfl
  · rw [S.threads, List.map_map]
    exact List.map_congr_left fun th _ => settle_isIdle c1 th
  · have hidle : ∀ th ∈ s1.threads, th.pc = .idle := by
      intro th hth
      have hi := hq th hth
      rcases th with ⟨pc, todo, ret, arg⟩
      cases pc <;> simp [Thread.isIdle] at hi ⊢
    have hU : U s1 = fun _ => 0 := funext fun p => (quiescent_counts (cfg := c1) hq p).2.2.1
    refine ⟨?_, ?_, ?_⟩
    · rw [S.heap, hU]
      refine (List.map_congr_left fun e _ => ?_).trans (List.map_id _)
      rfl
    · rw [List.perm_iff_count]
      intro p
      have h1 := S.table p
      simp only [T] at h1
      have h2 : (s1.threads.flatMap fun th => th.pc.vac).count p = 0 := by
        rcases Nat.eq_zero_or_pos ((s1.threads.flatMap fun th => th.pc.vac).count p) with h0 | h0
        · exact h0
        · obtain ⟨t, th, ht, hb⟩ := (count_flatMap_pos _ p s1.threads).mp h0
          rw [hidle th (List.mem_of_getElem? ht)] at hb
          cases hb
      omega
    · rw [S.threads]
      refine (List.map_congr_left fun th hth => ?_).trans (List.map_id _)
      simp only [Thread.settle, hidle th hth, id]

/-- Which histories are possible does not depend on the hash function, the seed, or the number of shards. -/
theorem C73_arc_histories [EquivBEq V] (h1 h2 : Hashable V) (l1 : @LawfulHashable V _ h1) (l2 : @LawfulHashable V _ h2) {c1 c2 : Cfg V}
    (v1 : c1.Valid) (v2 : c2.Valid) (hc : SameButShards c1 c2) (l : List (Event V)) :
    (∃ s, @Witnessed V _ h1 c1 l s) ↔ ∃ s, @Witnessed V _ h2 c2 l s := by
  constructor
  · rintro ⟨s, h⟩
    obtain ⟨u, hu, _⟩ := C73_arc_concurrent h1 h2 l1 l2 v1 hc h
    exact ⟨u, hu⟩
  · rintro ⟨s, h⟩
    obtain ⟨u, hu, _⟩ := C73_arc_concurrent h2 h1 l2 l1 v2 ⟨hc.kids.symm, hc.word.symm⟩ h
    exact ⟨u, hu⟩

/-- The configuration of `Demo.lean` with seven shards and another hash function, and with one shard. -/
def demoCfg7 : Cfg Val := { demoCfg with shards := 7, pick := fun h => h.toNat % 7 }
def demoCfg1 : Cfg Val := { demoCfg with shards := 1, pick := fun _ => 0 }
@[reducible] def demoHash7 : Hashable Val := ⟨fun a => UInt64.ofNat (3 * a.key + a.kids.length)⟩

theorem demoCfg7_valid : demoCfg7.Valid := ⟨fun _ => Nat.mod_lt _ (by decide), by decide⟩
theorem demoCfg1_valid : demoCfg1.Valid := ⟨fun _ => Nat.zero_lt_one, by decide⟩
theorem demoHash7_lawful : @LawfulHashable Val _ demoHash7 := by
  refine @LawfulHashable.mk Val _ demoHash7 fun a b h => ?_
  rw [Val.beq_iff] at h
  show UInt64.ofNat (3 * a.key + a.kids.length) = UInt64.ofNat (3 * b.key + b.kids.length)
  rw [h.1, h.2]

/-- A checked run from the start. -/
theorem actsRun_of_checked {V : Type} [BEq V] [Hashable V] {cfg : Cfg V} (as : List (Act V)) (hl : as.all (fun a => match a with
      | .len _ _ _ | .shrink _ _ _ => false
      | _ => true) = true) :
    ∀ {l : List (Act V)} {s s' : State V}, ActsRun cfg l s → checked Act.sane cfg s as = some s' → ActsRun cfg (l ++ as) s' := by
  induction as with
  | nil => intro l s s' h e; simp only [checked, Option.some.injEq] at e; rw [List.append_nil]; exact e ▸ h
  | cons a as ih =>
    intro l s s' h e
    simp only [List.all_cons, Bool.and_eq_true] at hl
    simp only [checked] at e
    cases hs : step cfg s a with
    | ok s1 =>
      simp only [hs] at e
      split at e
      · rename_i hc
        simp only [Bool.and_eq_true, decide_eq_true_eq] at hc
        have := ih hl.2 (ActsRun.step h (by cases a <;> simp_all [Act.Sane, Act.sane]) (fun t lo up => ⟨by rintro rfl; exact Bool.false_ne_true hl.1,
          by rintro rfl; exact Bool.false_ne_true hl.1⟩) hs (small_of_length hc.2)) e
        rwa [List.append_assoc] at this
      · cases e
    | blocked => simp [hs] at e
    | ub => simp [hs] at e

/-- A run with nested values and one thread meets the hypotheses: two shards here, seven there, with another hash function. -/
example : (∃ s, ActsRun demoCfg nestedTrace s ∧ s.threads.length ≤ 1 ∧ s.handles = [10, 20]) ∧ SameButShards demoCfg demoCfg7 ∧
    ∃ s, @ActsRun Val _ demoHash7 demoCfg7 nestedTrace s ∧ s.handles = [10, 20] := by
  have h : ∃ s, ActsRun demoCfg nestedTrace s ∧ s.threads.length ≤ 1 ∧ s.handles = [10, 20] :=
    ⟨demo nestedTrace, actsRun_of_checked nestedTrace (by decide) .init (s' := demo nestedTrace) (by rfl), by decide, by decide⟩
  refine ⟨h, ⟨rfl, rfl⟩, ?_⟩
  obtain ⟨s, r, h1, h2⟩ := h
  obtain ⟨s2, r2, e⟩ := C73_arc_one_thread _ demoHash7 inferInstance demoHash7_lawful demoCfg_valid demoCfg7_valid ⟨rfl, rfl⟩ r h1
  exact ⟨s2, r2, e.handles ▸ h2⟩

/-- The race of `Demo.lean` (two threads, both miss, one loses at `entry`) with a single shard meets the hypotheses of the second theorem. -/
example : ∃ s, ActsRun demoCfg1 raceTrace s ∧ demoCfg1.shards = 1 ∧ s.handles = [10, 10] :=
  ⟨(checked Act.sane demoCfg1 init raceTrace).getD init, actsRun_of_checked raceTrace (by decide) .init (by rfl), rfl, by decide⟩

/-- What clients saw of a checked run. -/
def history {V : Type} [BEq V] [Hashable V] (cfg : Cfg V) (s : State V) : List (Act V) → List (Event V)
  | [] => []
  | a :: as => match step cfg s a with
    | .ok s' => (begins cfg s a ++ ends s a s') ++ history cfg s' as
    | _ => []

theorem seen_of_checked {V : Type} [BEq V] [Hashable V] {cfg : Cfg V} (as : List (Act V)) (hl : as.all (fun a => match a with
      | .len _ _ _ | .shrink _ _ _ => false
      | _ => true) = true) :
    ∀ {l : List (Event V)} {s s' : State V}, Witnessed cfg l s → checked Act.sane cfg s as = some s' → Witnessed cfg (l ++ history cfg s as) s' := by
  induction as with
  | nil => intro l s s' h e; simp only [checked, Option.some.injEq] at e; rw [history, List.append_nil]; exact e ▸ h
  | cons a as ih =>
    intro l s s' h e
    simp only [List.all_cons, Bool.and_eq_true] at hl
    simp only [checked] at e
    cases hs : step cfg s a with
    | ok s1 =>
      simp only [hs] at e
      split at e
      · rename_i hc
        simp only [Bool.and_eq_true, decide_eq_true_eq] at hc
        have := ih hl.2 (Witnessed.step h (by cases a <;> simp_all [Act.Sane, Act.sane]) (fun t lo up => ⟨by rintro rfl; exact Bool.false_ne_true hl.1,
          by rintro rfl; exact Bool.false_ne_true hl.1⟩) hs (small_of_length hc.2)) e
        simp only [history, hs]
        rwa [List.append_assoc] at this
      · cases e
    | blocked => simp [hs] at e
    | ub => simp [hs] at e

/-- Two critical sections that overlap, in different shards: thread 0 is inserting 5 (in shard 1) while thread 1 inserts 6 (in shard 0), clones its
handle and reads the reference count; then thread 0 goes on. -/
def overlapTrace : List (Act Val) :=
  [.spawn, .spawn, .new 0 ⟨5, 1, []⟩ false, r 0, r 0 10, r 0, .new 1 ⟨6, 2, []⟩ false, r 1, r 1 11, r 1, r 0, r 1, r 1, r 1, .clone 1 [11], .read 1 [11],
   r 0, r 0, .read 0 [10]]

/-- With a single shard these steps are impossible in this order, but clients can see the same: the theorem gives such an execution. -/
example : ∃ s, Witnessed demoCfg [.spawned, .spawned, .called 0 ⟨5, 1, []⟩ false, .called 1 ⟨6, 2, []⟩ false, .finished 1 (some 11), .cloned 1 [11] 11,
      .read 1 [11] 11 ⟨6, 2, []⟩ 2, .finished 0 (some 10), .read 0 [10] 10 ⟨5, 1, []⟩ 1] s ∧ s.handles = [10, 11, 11] ∧ Quiescent s :=
  ⟨demo overlapTrace, seen_of_checked overlapTrace (by decide) .init (s' := demo overlapTrace) (by rfl), by decide, by unfold Quiescent; decide⟩

example : checked Act.sane demoCfg1 init overlapTrace = none := by decide +kernel

example : ∃ s, Witnessed demoCfg1 [.spawned, .spawned, .called 0 ⟨5, 1, []⟩ false, .called 1 ⟨6, 2, []⟩ false, .finished 1 (some 11), .cloned 1 [11] 11,
      .read 1 [11] 11 ⟨6, 2, []⟩ 2, .finished 0 (some 10), .read 0 [10] 10 ⟨5, 1, []⟩ 1] s :=
  (C73_arc_histories _ _ inferInstance inferInstance demoCfg_valid demoCfg1_valid ⟨rfl, rfl⟩ _).mp
    ⟨demo overlapTrace, seen_of_checked overlapTrace (by decide) .init (s' := demo overlapTrace) (by rfl)⟩

/-- That the hash agrees with `Eq` is needed here, too: `Hash` here also looks at the field that `Eq` ignores, and clients get different handles for
equal values, while both are registered. -/
@[reducible] def tagHash : Hashable Val := ⟨fun a => UInt64.ofNat a.tag⟩

example : @history Val _ tagHash demoCfg init [.spawn, .new 0 ⟨5, 1, []⟩ false, r 0, r 0 10, r 0, r 0, r 0, r 0, .new 0 ⟨5, 2, []⟩ false, r 0, r 0 20, r 0,
      r 0, r 0, r 0] = [.spawned, .called 0 ⟨5, 1, []⟩ false, .finished 0 (some 10), .called 0 ⟨5, 2, []⟩ false, .finished 0 (some 20)] := by
  decide +kernel

end Arc
