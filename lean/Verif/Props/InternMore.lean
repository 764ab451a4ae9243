import Verif.Props.Intern
import Verif.Pool.Solo
/-
Properties C30, C31, C33, C49 of `Intern<T>` and the bound on the steps of a call (C34).
-/
namespace Pool
variable {K V : Type} [DecidableEq K] [BEq V] [Hashable V]

/-- **C30.** A panic in user code inside a call: the thread is out of the call, the lock it held is free and no other lock
changes, no pool and no result changes; and the state is again one of those about which C24-C27 and C34 speak. -/
theorem C30_panic [EquivBEq V] [LawfulHashable V] {cfg : Cfg K V} (lay : cfg.Layout) {s s' : State K V} (r : Reach cfg s)
    {t : Tid} (h : step cfg s (.panic t) = .ok s') :
    s'.threads[t]? = some .idle ∧
    (∃ i, s.lock i = some t ∧ s'.lock i = none ∧ ∀ j, j ≠ i → s'.lock j = s.lock j) ∧
    s'.table = s.table ∧ s'.log = s.log ∧ s'.done = s.done ∧ Reach cfg s' := by
  have I := r.inv lay
  have r' := r.step (a := .panic t) True.intro h
  simp only [step] at h
  cases ht : s.threads[t]? with
  | none => rw [ht] at h; cases h
  | some pc =>
    rw [ht] at h
    cases pc with
    | idle => cases h
    | want o => cases h
    | leave o x => cases h
    | inside o =>
      cases h
      exact ⟨getElem?_set_self' ht, ⟨_, I.holder t _ _ ht rfl, if_pos rfl, fun j hj => if_neg hj⟩, rfl, rfl, rfl, r'⟩
    | build k q v =>
      cases h
      exact ⟨getElem?_set_self' ht, ⟨_, I.holder t _ _ ht rfl, if_pos rfl, fun j hj => if_neg hj⟩, rfl, rfl, rfl, r'⟩
    | dropArg k q v p =>
      cases h
      exact ⟨getElem?_set_self' ht, ⟨_, I.holder t _ _ ht rfl, if_pos rfl, fun j hj => if_neg hj⟩, rfl, rfl, rfl, r'⟩
    | insert k q v p =>
      cases h
      exact ⟨getElem?_set_self' ht, ⟨_, I.holder t _ _ ht rfl, if_pos rfl, fun j hj => if_neg hj⟩, rfl, rfl, rfl, r'⟩

/-- C30: user code may panic at every point where it runs (lookup, building the value, insertion, dropping the argument). -/
theorem C30_panic_possible {cfg : Cfg K V} {s : State K V} {t : Tid} {pc : Pc K V} (ht : s.threads[t]? = some pc)
    (hpc : (∃ o, pc = .inside o) ∨ (∃ k q v, pc = .build k q v) ∨ (∃ k q v p, pc = .insert k q v p) ∨
      (∃ k q v p, pc = .dropArg k q v p)) : ∃ s', step cfg s (.panic t) = .ok s' := by
  simp only [step, ht]
  rcases hpc with ⟨o, rfl⟩ | ⟨k, q, v, rfl⟩ | ⟨k, q, v, p, rfl⟩ | ⟨k, q, v, p, rfl⟩ <;> exact ⟨_, rfl⟩

/-- C30, usability: right after the panic the same thread can make any call on the pool, and it completes in at most five
steps. -/
theorem C30_usable_after_panic [EquivBEq V] [LawfulHashable V] {cfg : Cfg K V} (lay : cfg.Layout) {s s' : State K V}
    (r : Reach cfg s) {t : Tid} {pc : Pc K V} {k : K} (ht : s.threads[t]? = some pc) (hk : pc.pool? = some k)
    (h : step cfg s (.panic t) = .ok s') {o : Op K V} (ho : o.pool = k) (hl : o.Lawful) :
    ∃ s1 n s2 x, step cfg s' (.call t o) = .ok s1 ∧ n ≤ 5 ∧ Solo cfg t n s1 s2 ∧
      s2.done = ⟨t, o, x⟩ :: s'.done := by
  have I := r.inv lay
  obtain ⟨hidle, ⟨i, hi, hi', _⟩, htab, hlog, hdone, r'⟩ := C30_panic lay r h
  have hlock : s'.lock (cfg.lockOf o.pool) = none := by
    obtain ⟨pc', h1, h2⟩ := I.held i t hi
    rw [ht] at h1
    injection h1 with h1
    subst h1
    have : i = cfg.lockOf k := by
      cases pc <;> first | cases h2 | skip
      all_goals (cases hk; rfl)
    rw [ho, ← this]
    exact hi'
  have hg : o.pool ∉ s'.gone := by
    rw [ho]
    have hg := I.alive t pc k ht hk
    simp only [step, ht] at h
    cases pc <;> first | cases h | skip
    all_goals (exact hg)
  obtain ⟨s1, n, s2, x, h1, h2, h3, _, h4⟩ := call_finishes lay r' hidle hl hg hlock
  exact ⟨s1, n, s2, x, h1, h2, h3, h4⟩

/-- C30, handles: every handle returned before the panic still points to its value. -/
theorem C30_handles_survive [EquivBEq V] [LawfulHashable V] {cfg : Cfg K V} (lay : cfg.Layout) {s s' : State K V}
    (r : Reach cfg s) {t : Tid} (h : step cfg s (.panic t) = .ok s') {k : K} (hk : cfg.owns k = false) {v : V} {p : Ptr}
    (hr : Returned s k v p) : ∃ x, deref s k p = some x ∧ deref s' k p = some x ∧ (x == v) = true := by
  obtain ⟨x, h1, h2, h3, _⟩ := C25_never_freed_or_changed lay r (Steps.tail (a := .panic t) .refl True.intro h) hk hr
  exact ⟨x, h1, h2, h3⟩

/-- A panic while inserting, with a handle of the same pool already out. -/
example : ∃ s s', Reach Demo.cfg s ∧ step Demo.cfg s (.panic 1) = .ok s' ∧ Demo.results s = [(0, .ptr ⟨1000, 0⟩)] ∧
    s.heap.length = 2 ∧ (∃ k q v p, s.threads[1]? = some (.insert k q v p)) := by
  obtain ⟨s, h, c⟩ := Demo.scripted ([.spawn, .spawn] ++ Demo.miss 0 0 ⟨5, 1⟩ 1000 ++
      [.new 1 0 ⟨6, 1⟩, .run 1 0, .run 1 0, .run 1 2000])
    (fun s => decide (Demo.results s = [(0, .ptr ⟨1000, 0⟩)] ∧ s.heap.length = 2) && (match s.threads with
      | [_, .insert _ _ _ _] => true
      | _ => false)) (by decide)
  rw [Bool.and_eq_true, decide_eq_true_eq] at c
  have c2 := c.2
  split at c2
  · rename_i a k q v p hth
    have ht : s.threads[1]? = some (.insert k q v p) := by rw [hth]; rfl
    exact ⟨s, _, h, by simp only [step, ht]; rfl, c.1.1, c.1.2, k, q, v, p, ht⟩
  · cases c2

/-- **C34, bound.** A call on a pool whose lock is free, if its thread is left alone, returns after at most five atomic
steps; a thread holding a lock releases it after at most four. -/
theorem C34_call_terminates [EquivBEq V] [LawfulHashable V] {cfg : Cfg K V} (lay : cfg.Layout) {s : State K V}
    (r : Reach cfg s) {t : Tid} (ht : s.threads[t]? = some .idle) {o : Op K V} (hl : o.Lawful) (hg : o.pool ∉ s.gone)
    (hlock : s.lock (cfg.lockOf o.pool) = none) :
    ∃ s1 n s' x, step cfg s (.call t o) = .ok s1 ∧ n ≤ 5 ∧ Solo cfg t n s1 s' ∧ s'.done = ⟨t, o, x⟩ :: s.done := by
  obtain ⟨s1, n, s', x, h1, h2, h3, _, h4⟩ := call_finishes lay r ht hl hg hlock
  exact ⟨s1, n, s', x, h1, h2, h3, h4⟩

theorem C34_holder_releases [EquivBEq V] [LawfulHashable V] {cfg : Cfg K V} (lay : cfg.Layout) {s : State K V}
    (r : Reach cfg s) {i : Nat} {t : Tid} (h : s.lock i = some t) :
    ∃ n s', n ≤ 4 ∧ Solo cfg t n s s' ∧ s'.lock i = none := by
  obtain ⟨pc, ht, hi⟩ := (r.inv lay).held i t h
  have ho : ∃ o, pc.op? = some o := by
    cases pc with
    | idle => cases hi
    | want o => cases hi
    | _ => exact ⟨_, rfl⟩
  have hr : pc.rank ≤ 4 := by
    cases pc with
    | idle => cases hi
    | want o => cases hi
    | _ => simp [Pc.rank]
  obtain ⟨o, ho⟩ := ho
  -- follow the thread; whenever it leaves, its lock is released
  have key : ∀ m {s : State K V} {pc : Pc K V}, Reach cfg s → s.threads[t]? = some pc → pc.holds cfg = some i →
      pc.op? = some o → pc.rank ≤ m → ∃ n s', n ≤ m ∧ Solo cfg t n s s' ∧ s'.lock i = none := by
    intro m
    induction m with
    | zero =>
      intro s pc _ _ hi _ hm
      cases pc with
      | idle => cases hi
      | _ => exact absurd hm (by simp [Pc.rank])
    | succ m ih =>
      intro s pc r ht hi ho hm
      obtain ⟨a, s', hs, h | ⟨x, hx, h1, h2, _⟩⟩ := holder_next lay r ht hi ho
      · obtain ⟨pc', h1, h2, h3, h4, h5⟩ := h
        obtain ⟨n, s'', hn, hsolo, hl⟩ := ih (r.step (a := .run t a) True.intro hs) h1 h2 h3 (by omega)
        exact ⟨n + 1, s'', by omega, .head hs hsolo, hl⟩
      · refine ⟨1, s', by omega, .head hs .refl, ?_⟩
        subst hx
        simp only [step, ht, run] at hs
        cases hs
        cases hi
        exact if_pos rfl
  exact key 4 r ht hi ho hr

/-! ### C31 -/

/-- **C31, agreement.** `from_ref(key)` and `new(v)` with `v` the value `From` builds give the same handle, for a lawful
`Borrow` and a `From` that borrows back to the key (the first conclusion says such calls are lawful). -/
theorem C31_from_ref_agrees [EquivBEq V] [LawfulHashable V] {Q : Type} [BEq Q] [Hashable Q] [EquivBEq Q] [LawfulHashable Q]
    {borrow : V → Q} (hb : LawfulBorrow borrow) {key : Q} {v : V} (hv : (borrow v == key) = true)
    {cfg : Cfg K V} (lay : cfg.Layout) {k : K} (hk : cfg.owns k = false) :
    (Op.intern k (.ofBorrow borrow key) v : Op K V).Lawful ∧
    ∀ {s : State K V}, Reach cfg s → ∀ {t t' p p'}, ⟨t, .intern k (.ofBorrow borrow key) v, .ptr p⟩ ∈ s.done →
      ⟨t', .intern k (.ofVal v) v, .ptr p'⟩ ∈ s.done → p = p' := by
  refine ⟨lawful_fromRef hb k key v hv, fun {_} r {t t' p p'} h h' => ?_⟩
  obtain ⟨_, _, _, _, _, e⟩ := C24_pointer_eq_iff_value_eq lay r hk ⟨t, _, h⟩ ⟨t', _, h'⟩
  exact e.mpr BEq.rfl

/-- A `From` that does not agree with `Borrow` (here: the identity): it builds a value of class 5 from any key. -/
def badFrom (key : Demo.Val) : Demo.Val := ⟨5, key.tag⟩

theorem id_lawful : LawfulBorrow (id : Demo.Val → Demo.Val) where
  eq _ _ := rfl
  hash _ := rfl

/-- `new(⟨5,1⟩)` and then `from_ref(&⟨7,2⟩)`. -/
def disagree (k : Nat) : List (Act Nat Demo.Val) :=
  [.spawn, .call 0 (.intern k (.ofVal ⟨5, 1⟩) ⟨5, 1⟩), .run 0 0, .run 0 0, .run 0 1000, .run 0 0, .run 0 0,
   .call 0 (.intern k (.ofBorrow id ⟨7, 2⟩) (badFrom ⟨7, 2⟩)), .run 0 0, .run 0 0, .run 0 2000, .run 0 0, .run 0 0]

/-- **C31, disagreement (negative).** With a lawful `Borrow` but a `From` that disagrees with it, `Intern::from_ref` returns
two different handles to equal values. -/
theorem C31_disagreement_breaks_canonicality :
    ∃ s, exec Demo.cfg init (disagree 0) = .ok s ∧ ∃ p p' x y, s.done.map (·.ret) = [.ptr p', .ptr p] ∧
      deref s 0 p = some x ∧ deref s 0 p' = some y ∧ (x == y) = true ∧ p ≠ p' := by
  obtain ⟨s, h, c⟩ := exec_check (cfg := Demo.cfg) (l := disagree 0) (fun s => decide (
    s.done.map (·.ret) = [.ptr ⟨2000, 0⟩, .ptr ⟨1000, 0⟩] ∧ deref s 0 ⟨1000, 0⟩ = some (⟨5, 1⟩ : Demo.Val) ∧
    deref s 0 ⟨2000, 0⟩ = some (⟨5, 2⟩ : Demo.Val))) (by decide)
  rw [decide_eq_true_eq] at c
  exact ⟨s, h, _, _, _, _, c.1, c.2.1, c.2.2, rfl, by decide⟩

/-! ### C33 -/

/-- Pools of slices `[E]` whose elements have size `sz`: a slice occupies `sz * len` bytes, the pointer metadata is the
length (src/intern.rs: `From<&[T]>`; `sz = 0` for slices of zero-sized elements). -/
def sliceCfg (E : Type) (sz align : Nat) : Cfg Unit (List E) where
  lockOf _ := 0
  owns _ := false
  zst _ v := decide (sz * v.length = 0)
  info _ v := v.length
  dangle _ _ := align

/-- The layout facts hold for slices of sized elements, and for slices of zero-sized elements (whose type has only one
value). -/
theorem slice_layout (E : Type) (sz align : Nat) (h : sz = 0 → ∀ a b : E, a = b) : (sliceCfg E sz align).Layout where
  size k v w e := by
    have e : v.length = w.length := e
    show decide (sz * v.length = 0) = decide (sz * w.length = 0)
    rw [e]
  unique k v w hv _ e := by
    have e : v.length = w.length := e
    have hv : sz * v.length = 0 := by simpa [sliceCfg] using hv
    rcases Nat.mul_eq_zero.mp hv with h0 | h0
    · exact List.ext_getElem e (fun i h1 h2 => h h0 _ _)
    · have h1 : v = [] := List.length_eq_zero_iff.mp h0
      have h2 : w = [] := List.length_eq_zero_iff.mp (e ▸ h0)
      rw [h1, h2]

/-- Pools of one sized type of size `sz`. -/
def sizedCfg (T : Type) (sz align : Nat) : Cfg Unit T where
  lockOf _ := 0
  owns _ := false
  zst _ _ := decide (sz = 0)
  info _ _ := 0
  dangle _ _ := align

theorem sized_layout (T : Type) (sz align : Nat) (h : sz = 0 → ∀ a b : T, a = b) : (sizedCfg T sz align).Layout where
  size _ _ _ _ := rfl
  unique k v w hv _ _ := h (by simpa [sizedCfg] using hv) v w

/-- **C33.** For slices, of zero-sized or sized elements, empty or not, two handles are equal exactly when the slices are. -/
theorem C33_slices (E : Type) [BEq E] [LawfulBEq E] [Hashable (List E)] [LawfulHashable (List E)] (sz align : Nat) (h : sz = 0 → ∀ a b : E, a = b)
    {s : State Unit (List E)} (r : Reach (sliceCfg E sz align) s) {v w : List E} {p p' : Ptr}
    (h1 : Returned s () v p) (h2 : Returned s () w p') : p = p' ↔ v = w := by
  obtain ⟨_, _, _, _, _, e⟩ := C24_pointer_eq_iff_value_eq (slice_layout E sz align h) r rfl h1 h2
  rw [e]; exact beq_iff_eq

/-- C33: for a sized type, zero-sized or not. -/
theorem C33_sized (T : Type) [BEq T] [EquivBEq T] [Hashable T] [LawfulHashable T] (sz align : Nat)
    (h : sz = 0 → ∀ a b : T, a = b) {s : State Unit T} (r : Reach (sizedCfg T sz align) s) {v w : T} {p p' : Ptr}
    (h1 : Returned s () v p) (h2 : Returned s () w p') : p = p' ↔ (v == w) = true := by
  obtain ⟨_, _, _, _, _, e⟩ := C24_pointer_eq_iff_value_eq (sized_layout T sz align h) r rfl h1 h2
  exact e

/-- (the standard hash of lists does not compute in the kernel) -/
local instance (priority := high) lenHash : Hashable (List Unit) := ⟨fun l => UInt64.ofNat l.length⟩

def unitSlices : List (Act Unit (List Unit)) :=
  [.spawn, .call 0 (.intern () (.ofVal [()]) [()]), .run 0 0, .run 0 0, .run 0 0, .run 0 0, .run 0 0,
   .call 0 (.intern () (.ofVal []) []), .run 0 0, .run 0 0, .run 0 0, .run 0 0, .run 0 0]

/-- Slices of zero-sized elements: `[(), ]` and `[]` are interned at the same address with different metadata. -/
example : ∃ s, Reach (sliceCfg Unit 0 1) s ∧ Returned s () [()] ⟨1, 1⟩ ∧ Returned s () [] ⟨1, 0⟩ := by
  obtain ⟨s, h, c⟩ := exec_check (cfg := sliceCfg Unit 0 1) (l := unitSlices) (fun s => match s.done with
    | [⟨_, .intern _ _ v, r⟩, ⟨_, .intern _ _ w, r'⟩] => decide (v = [] ∧ r = .ptr ⟨1, 0⟩ ∧ w = [()] ∧ r' = .ptr ⟨1, 1⟩)
    | _ => false) (by decide)
  refine ⟨s, exec_reach ?_ h, ?_⟩
  · intro a ha
    simp only [unitSlices, List.mem_cons, List.not_mem_nil, or_false] at ha
    rcases ha with rfl | rfl | rfl | rfl | rfl | rfl | rfl | rfl | rfl | rfl | rfl | rfl | rfl
    all_goals first | exact True.intro | exact lawful_new () _
  · split at c
    · rename_i t q q' v r t' q2 q2' w r' hd
      simp only [decide_eq_true_eq] at c
      obtain ⟨rfl, rfl, rfl, rfl⟩ := c
      exact ⟨⟨_, _, by rw [hd]; exact List.mem_cons_of_mem _ List.mem_cons_self⟩,
        ⟨_, _, by rw [hd]; exact List.mem_cons_self⟩⟩
    · cases c

/-- Trait objects: zero-sized values of two types behind the same metadata (Rust does not promise that two types have
different vtable addresses). -/
def dynCfg : Cfg Unit Bool where
  lockOf _ := 0
  owns _ := false
  zst _ _ := true
  info _ _ := 77
  dangle _ _ := 1

/-- **C33, the proviso is needed (negative).** If zero-sized values with the same metadata can be unequal, two handles to
unequal values are equal. All calls are lawful. -/
theorem C33_proviso_needed : ∃ s, Reach dynCfg s ∧ ∃ p, Returned s () true p ∧ Returned s () false p := by
  obtain ⟨s, h, c⟩ := exec_check (cfg := dynCfg)
    (l := [.spawn, .call 0 (.intern () (.ofVal true) true), .run 0 0, .run 0 0, .run 0 0, .run 0 0, .run 0 0,
      .call 0 (.intern () (.ofVal false) false), .run 0 0, .run 0 0, .run 0 0, .run 0 0, .run 0 0])
    (fun s => match s.done with
    | [⟨_, .intern _ _ v, r⟩, ⟨_, .intern _ _ w, r'⟩] =>
      decide (v = false ∧ r = .ptr ⟨1, 77⟩ ∧ w = true ∧ r' = .ptr ⟨1, 77⟩)
    | _ => false) (by decide)
  refine ⟨s, exec_reach ?_ h, ?_⟩
  · intro a ha
    simp only [List.mem_cons, List.not_mem_nil, or_false] at ha
    rcases ha with rfl | rfl | rfl | rfl | rfl | rfl | rfl | rfl | rfl | rfl | rfl | rfl | rfl
    all_goals first | exact True.intro | exact lawful_new () _
  · split at c
    · rename_i t q q' v r t' q2 q2' w r' hd
      simp only [decide_eq_true_eq] at c
      obtain ⟨rfl, rfl, rfl, rfl⟩ := c
      exact ⟨⟨1, 77⟩, ⟨_, _, by rw [hd]; exact List.mem_cons_of_mem _ List.mem_cons_self⟩,
        ⟨_, _, by rw [hd]; exact List.mem_cons_self⟩⟩
    · cases c

/-! ### C49 -/

/-- **C49 (negative).** After the benchmarking-only clear, interning an equal value gives a different handle, although the
old handle is still valid and its value equal. (Without clear: C24.) -/
theorem C49_clear_breaks_canonicality :
    ∃ s, exec Demo.cfg init ([.spawn, .call 0 (.intern 0 (.ofVal ⟨5, 1⟩) ⟨5, 1⟩), .run 0 0, .run 0 0, .run 0 1000, .run 0 0,
        .run 0 0, .call 0 (.clear 0), .run 0 0, .run 0 0, .run 0 0,
        .call 0 (.intern 0 (.ofVal ⟨5, 1⟩) ⟨5, 1⟩), .run 0 0, .run 0 0, .run 0 2000, .run 0 0, .run 0 0]) = .ok s ∧
      ∃ p p' x y, s.done.map (·.ret) = [.ptr p', .unit, .ptr p] ∧ deref s 0 p = some x ∧ deref s 0 p' = some y ∧
        (x == y) = true ∧ p ≠ p' := by
  obtain ⟨s, h, c⟩ := exec_check (cfg := Demo.cfg)
    (l := [.spawn, .call 0 (.intern 0 (.ofVal ⟨5, 1⟩) ⟨5, 1⟩), .run 0 0, .run 0 0, .run 0 1000, .run 0 0,
        .run 0 0, .call 0 (.clear 0), .run 0 0, .run 0 0, .run 0 0,
        .call 0 (.intern 0 (.ofVal ⟨5, 1⟩) ⟨5, 1⟩), .run 0 0, .run 0 0, .run 0 2000, .run 0 0, .run 0 0])
    (fun s => decide (s.done.map (·.ret) = [.ptr ⟨2000, 0⟩, .unit, .ptr ⟨1000, 0⟩] ∧
      deref s 0 ⟨1000, 0⟩ = some (⟨5, 1⟩ : Demo.Val) ∧ deref s 0 ⟨2000, 0⟩ = some (⟨5, 1⟩ : Demo.Val))) (by decide)
  rw [decide_eq_true_eq] at c
  exact ⟨s, h, _, _, _, _, c.1, c.2.1, c.2.2, rfl, by decide⟩

end Pool
