import Verif.Pool.Trace
import Verif.Pool.Demo
/-
Properties C39 (an `Arena` can be shared although its values cannot) and C50 (safe publication of interned values).
-/
namespace Pool

/-! ### C50 -/
section
variable {K V : Type} [DecidableEq K] [BEq V] [Hashable V] [EquivBEq V] [LawfulHashable V]

/-- **C50, safe publication.** In every execution, writing an interned value into its box happens before every use of
that value by any thread that has the handle, because one of its calls returned it or because another thread passed it on. -/
theorem C50_creation_before_use {cfg : Cfg K V} (lay : cfg.Layout) {s : State K V} {tr : List (Ev K)} (h : Run cfg s tr)
    {i j : Nat} {t u : Tid} {k : K} {p : Ptr} (hi : tr[i]? = some ⟨t, .make k p⟩) (hj : tr[j]? = some ⟨u, .use k p⟩) :
    HB tr i j := (h.ordered lay).used i j t u k p _ hi hj rfl

/-- **C50, no races on the tables.** Any two accesses to the hash set of a pool, and the creations of its values, are
ordered by happens-before. -/
theorem C50_tables_race_free {cfg : Cfg K V} (lay : cfg.Layout) {s : State K V} {tr : List (Ev K)} (h : Run cfg s tr)
    {i j : Nat} {a b : Ev K} {k : K} (hi : tr[i]? = some a) (hj : tr[j]? = some b)
    (ha : a.what = .table k ∨ ∃ p, a.what = .make k p) (hb : b.what = .table k ∨ ∃ p, b.what = .make k p) :
    ¬ Unordered tr i j := by
  rintro ⟨a', b', ha', hb', hne, h1, h2⟩
  have ca : Crit cfg (cfg.lockOf k) a.what := by
    rcases ha with e | ⟨p, e⟩ <;> rw [e] <;> exact rfl
  have cb : Crit cfg (cfg.lockOf k) b.what := by
    rcases hb with e | ⟨p, e⟩ <;> rw [e] <;> exact rfl
  rw [hi] at ha'; rw [hj] at hb'
  cases ha'; cases hb'
  rcases Nat.lt_trichotomy i j with hlt | rfl | hlt
  · exact h1 ((h.ordered lay).total _ i j _ _ _ _ hlt hi hj ca cb)
  · rw [hi] at hj; cases hj; exact hne rfl
  · exact h2 ((h.ordered lay).total _ j i _ _ _ _ hlt hj hi cb ca)

end

/-! ### C39: auto traits -/

/-- Whether a type is `Send` and `Sync`. -/
structure Auto where
  send : Bool
  sync : Bool
  deriving DecidableEq

/-- The language's rules: `&T: Send` and `&T: Sync` iff `T: Sync`; boxes and collections are what their contents are;
`Mutex<T>: Sync` (and `Send`) iff `T: Send`. -/
def Auto.ref (T : Auto) : Auto := { send := T.sync, sync := T.sync }
def Auto.box (T : Auto) : Auto := T
def Auto.hashSet (T : Auto) : Auto := T
def Auto.mutex (T : Auto) : Auto := { send := T.send, sync := T.send }

/-- `struct Arena<T> { data: Mutex<HashSet<Box<T>>> }` (arena.rs:51-57): the auto traits are those of the field. -/
def arenaAuto (T : Auto) : Auto := T.box.hashSet.mutex
/-- `struct ArenaIntern<'a, T> { pointer: &'a T }` (arena.rs:80-82). -/
def arenaInternAuto (T : Auto) : Auto := T.ref
/-- `struct Intern<T> { pointer: &'static T }` (intern.rs:55-57). -/
def internAuto (T : Auto) : Auto := T.ref
/-- `unsafe impl<T: ?Sized + Eq + Hash + Send + Sync> Send/Sync for ArcIntern<T>` (arc.rs:81-82). -/
def arcInternAuto (T : Auto) : Auto := { send := T.send && T.sync, sync := T.send && T.sync }

/-- The bounds on the interning functions: `Arena::intern` etc. only need `Eq + Hash` (arena.rs:112, 134), those of
`Intern` and `ArcIntern` need `Send + Sync` (intern.rs:149, 167, 201, 239; arc.rs `impl<T: Eq + Hash + Send + Sync>`). -/
def arenaMayIntern (_ : Auto) : Bool := true
def internMayIntern (T : Auto) : Bool := T.send && T.sync
def arcMayIntern (T : Auto) : Bool := T.send && T.sync

/-- Two threads can intern in the same pool: an arena has to be shared by reference (`&Arena: Send`), the global pools of
`Intern` and `ArcIntern` are reachable from every thread. -/
def arenaShared (T : Auto) : Bool := (arenaAuto T).ref.send && arenaMayIntern T
def internShared (T : Auto) : Bool := internMayIntern T
def arcShared (T : Auto) : Bool := arcMayIntern T

/-- **C39, types.** Threads can share an `Arena<T>` exactly if `T: Send`; `T: Sync` is not needed. -/
theorem C39_arena_shared_iff_send (T : Auto) : arenaShared T = T.send := by
  simp [arenaShared, arenaAuto, arenaMayIntern, Auto.ref, Auto.mutex, Auto.hashSet, Auto.box]

/-- **C39, the other interners**: several threads can only intern values of `Sync` types, and handles can only be moved
to or shared with other threads if `T: Sync`. (Also true of `ArenaIntern`: the problem is not moving a handle but
obtaining a second one.) -/
theorem C39_others_need_sync (T : Auto) : (internShared T = true → T.sync = true) ∧ (arcShared T = true → T.sync = true) ∧
    ((internAuto T).send = true → T.sync = true) ∧ ((internAuto T).sync = true → T.sync = true) ∧
    ((arcInternAuto T).send = true → T.sync = true) ∧ ((arcInternAuto T).sync = true → T.sync = true) ∧
    ((arenaInternAuto T).send = true → T.sync = true) := by
  cases T with
  | mk a b => cases a <;> cases b <;> decide

/-! ### C39: the race -/
section
variable {K V : Type} [DecidableEq K] [BEq V] [Hashable V] [EquivBEq V] [LawfulHashable V]

/-- Two threads intern `v` in arena `k`, one after the other, then each uses the value it got. -/
def shareScript (k : K) (v : V) (a : Nat) : List (Act K V) :=
  [.spawn, .spawn, .call 0 (.intern k (.ofVal v) v), .run 0 a, .run 0 a, .run 0 a, .run 0 a, .run 0 a,
   .call 1 (.intern k (.ofVal v) v), .run 1 a, .run 1 a, .run 1 a, .run 1 a]

/-- Traced execution. -/
def execTr (cfg : Cfg K V) (s : State K V) (tr : List (Ev K)) : List (Act K V) → Option (State K V × List (Ev K))
  | [] => some (s, tr)
  | a :: l => match step cfg s a with
    | .ok s' => execTr cfg s' (tr ++ events cfg s a) l
    | _ => none

omit [EquivBEq V] [LawfulHashable V] in
theorem execTr_run {cfg : Cfg K V} {s s' : State K V} {tr tr' : List (Ev K)} {l : List (Act K V)} (r : Run cfg s tr)
    (hl : ∀ a ∈ l, a.Lawful) (h : execTr cfg s tr l = some (s', tr')) : Run cfg s' tr' := by
  induction l generalizing s tr with
  | nil => cases h; exact r
  | cons a l ih =>
    simp only [execTr] at h
    cases hs : step cfg s a with
    | ok s1 =>
      rw [hs] at h
      exact ih (r.act (hl a List.mem_cons_self) hs) (fun b hb => hl b (List.mem_cons_of_mem _ hb)) h
    | blocked => rw [hs] at h; cases h
    | ub => rw [hs] at h; cases h

/-- After its last release and message, nothing a thread does happens before an event of another thread. -/
theorem HB.private {tr : List (Ev K)} {i j : Nat} {t : Tid} {w : What K} (hi : tr[i]? = some ⟨t, w⟩)
    (hrel : ∀ j, i ≤ j → ∀ m, tr[j]? ≠ some ⟨t, .rel m⟩) (hmsg : ∀ j, i ≤ j → ∀ k p, tr[j]? ≠ some ⟨t, .send k p⟩) (h : HB tr i j) : ∃ w', tr[j]? = some ⟨t, w'⟩ := by
  have key : ∀ x y, HB tr x y → i ≤ x → (∃ w', tr[x]? = some ⟨t, w'⟩) → ∃ w', tr[y]? = some ⟨t, w'⟩ := by
    intro x y hxy
    induction hxy with
    | @po x y a b hlt ha hb e =>
      rintro _ ⟨w', hx⟩
      rw [ha] at hx
      cases hx
      cases b with
      | mk u w2 => cases e; exact ⟨w2, hb⟩
    | @sync x y u u' m hlt ha hb =>
      rintro hle ⟨w', hx⟩
      rw [ha] at hx
      cases hx
      exact absurd ha (hrel x hle m)
    | @msg x y u u' k p hlt ha hb =>
      rintro hle ⟨w', hx⟩
      rw [ha] at hx
      cases hx
      exact absurd ha (hmsg x hle k p)
    | trans h1 h2 ih1 ih2 =>
      intro hle hx
      exact ih2 (Nat.le_trans hle (Nat.le_of_lt h1.lt)) (ih1 hle hx)
  exact key i j h (Nat.le_refl _) ⟨w, hi⟩

omit [EquivBEq V] [LawfulHashable V] in
theorem share_exec [ReflBEq V] (cfg : Cfg K V) (k : K) (v : V) (hz : cfg.zst k v = false) :
    ∃ s, execTr cfg init [] (shareScript k v 64) = some (s,
      [⟨0, .acq (cfg.lockOf k)⟩, ⟨0, .table k⟩, ⟨0, .make k ⟨64, cfg.info k v⟩⟩, ⟨0, .table k⟩, ⟨0, .rel (cfg.lockOf k)⟩,
       ⟨1, .acq (cfg.lockOf k)⟩, ⟨1, .table k⟩, ⟨1, .rel (cfg.lockOf k)⟩]) ∧
      ⟨0, .intern k (.ofVal v) v, .ptr ⟨64, cfg.info k v⟩⟩ ∈ s.done ∧
      ⟨1, .intern k (.ofVal v) v, .ptr ⟨64, cfg.info k v⟩⟩ ∈ s.done ∧ k ∉ s.gone := by
  simp [shareScript, execTr, step, init, State.at, run, Op.pool, tableOk, find, deref, allocAt, hz, State.commit,
    State.setTable, State.unlock, Obj.is, Query.ofVal, events]

/-- **C39, the data race.** For every `T` that is `Send` but not `Sync` (a `T` with a `Cell` field that `Eq` and `Hash`
ignore, say) threads may share an `Arena<T>`; and for every value `v` of non-zero size there is an execution in which two
threads, each using only the handle its own call returned, access the same object with no happens-before order between
the two accesses. -/
theorem C39_arena_race (T : Auto) (hsend : T.send = true) (_hsync : T.sync = false) (cfg : Cfg K V) (k : K)
    (v : V) (hz : cfg.zst k v = false) :
    arenaShared T = true ∧ ∃ s tr i j p, Run cfg s tr ∧ tr[i]? = some ⟨1, .use k p⟩ ∧ tr[j]? = some ⟨0, .use k p⟩ ∧
      Unordered tr i j := by
  refine ⟨by rw [C39_arena_shared_iff_send]; exact hsend, ?_⟩
  obtain ⟨s, hs, h0, h1, hg⟩ := share_exec cfg k v hz
  have r := execTr_run .init (fun a ha => ?_) hs
  · have r2 := (r.use (.inl ⟨_, _, h1⟩) hg).use (.inl ⟨_, _, h0⟩) hg
    refine ⟨s, _, 8, 9, ⟨64, cfg.info k v⟩, r2, rfl, rfl, _, _, rfl, rfl, Nat.one_ne_zero, ?_,
      (fun h => absurd (HB.lt h) (by decide))⟩
    intro h
    refine absurd (HB.private (t := 1) rfl ?_ ?_ h) (by simp)
    · intro j hj m
      rcases Nat.lt_or_ge j 10 with hlt | hge
      · have : j = 8 ∨ j = 9 := by omega
        rcases this with rfl | rfl <;> simp
      · rw [List.getElem?_eq_none (by simpa using hge)]
        exact fun h => nomatch h
    · intro j hj k p
      rcases Nat.lt_or_ge j 10 with hlt | hge
      · have : j = 8 ∨ j = 9 := by omega
        rcases this with rfl | rfl <;> simp
      · rw [List.getElem?_eq_none (by simpa using hge)]
        exact fun h => nomatch h
  · simp only [shareScript, List.mem_cons, List.not_mem_nil, or_false] at ha
    rcases ha with rfl | rfl | rfl | rfl | rfl | rfl | rfl | rfl | rfl | rfl | rfl | rfl | rfl <;>
      first | exact True.intro | exact lawful_new k v

end

/-- C39 and C50 are not vacuous: arena 2 of the demo, a value of class 5, a `Send` but not `Sync` type. -/
example : ∃ s tr i j p, Run Demo.cfg s tr ∧ tr[i]? = some ⟨1, .use 2 p⟩ ∧ tr[j]? = some ⟨0, .use 2 p⟩ ∧
    Unordered tr i j := (C39_arena_race ⟨true, false⟩ rfl rfl Demo.cfg 2 ⟨5, 1⟩ (by decide)).2

/-- In that execution the creation (event 2) does happen before the use by the other thread (event 8). -/
example : ∃ s tr, Run Demo.cfg s tr ∧ tr[2]? = some ⟨0, .make 2 ⟨64, 0⟩⟩ ∧ tr[8]? = some ⟨1, .use 2 ⟨64, 0⟩⟩ ∧ HB tr 2 8 := by
  obtain ⟨s, hs, h0, h1, hg⟩ := share_exec Demo.cfg 2 (⟨5, 1⟩ : Demo.Val) (by decide)
  have r := execTr_run .init (fun a ha => by
    simp only [shareScript, List.mem_cons, List.not_mem_nil, or_false] at ha
    rcases ha with rfl | rfl | rfl | rfl | rfl | rfl | rfl | rfl | rfl | rfl | rfl | rfl | rfl <;>
      first | exact True.intro | exact lawful_new 2 (⟨5, 1⟩ : Demo.Val)) hs
  have r2 := r.use (.inl ⟨_, _, h1⟩) hg
  exact ⟨s, _, r2, rfl, rfl, C50_creation_before_use Demo.layout r2 rfl rfl⟩

/-- The same for a thread that never interns anything: thread 0 passes its handle to thread 2, which passes it on to
thread 3. -/
example : ∃ s tr, Run Demo.cfg s tr ∧ tr[2]? = some ⟨0, .make 2 ⟨64, 0⟩⟩ ∧ tr[12]? = some ⟨3, .use 2 ⟨64, 0⟩⟩ ∧
    (∀ e ∈ tr.take 11, e.tid ≠ 3) ∧ HB tr 2 12 := by
  obtain ⟨s, hs, h0, h1, hg⟩ := share_exec Demo.cfg 2 (⟨5, 1⟩ : Demo.Val) (by decide)
  have r := execTr_run .init (fun a ha => by
    simp only [shareScript, List.mem_cons, List.not_mem_nil, or_false] at ha
    rcases ha with rfl | rfl | rfl | rfl | rfl | rfl | rfl | rfl | rfl | rfl | rfl | rfl | rfl <;>
      first | exact True.intro | exact lawful_new 2 (⟨5, 1⟩ : Demo.Val)) hs
  have r1 := (r.send (.inl ⟨_, _, h0⟩)).recv (t := 2) (get_last _ _)
  have r2 := (r1.send (.inr ⟨_, _, get_last _ _⟩)).recv (t := 3) (get_last _ _)
  have r3 := r2.use (.inr ⟨_, _, get_last _ _⟩) hg
  exact ⟨s, _, r3, rfl, rfl, by decide, C50_creation_before_use Demo.layout r3 rfl rfl⟩

end Pool
