import Verif.Pool.Demo
/-
Properties C24-C27, C30, C33, C34 of `Intern<T>` (src/intern.rs).

Reading guide. `Reach cfg s`: `s` is reached from the initial state by any interleaving of any number of threads calling
any interning functions, with panics in user code at any point, provided the calls are lawful (`Op.Lawful`: Hash, Eq,
Borrow, From agree). `cfg.owns k = false`: `k` is an `Intern` pool. `Returned s k v p`: some call interning `v` in pool
`k` has returned the handle `p`. `deref s k p`: what the handle points to. `s.log`: the calls that have taken effect,
newest first.
-/
namespace Pool
variable {K V : Type} [DecidableEq K] [BEq V] [Hashable V] [EquivBEq V] [LawfulHashable V]

/-- A call interning `v` in pool `k` has returned handle `p`. -/
def Returned (s : State K V) (k : K) (v : V) (p : Ptr) : Prop := ∃ t q, ⟨t, .intern k q v, .ptr p⟩ ∈ s.done

/-- **C24.** Two handles are equal exactly when the values they point to are equal, and exactly when the values that were
interned are equal. -/
theorem C24_pointer_eq_iff_value_eq {cfg : Cfg K V} (lay : cfg.Layout) {s : State K V} (r : Reach cfg s) {k : K}
    (hk : cfg.owns k = false) {v w : V} {p p' : Ptr} (h : Returned s k v p) (h' : Returned s k w p') :
    ∃ x y, deref s k p = some x ∧ deref s k p' = some y ∧ (p = p' ↔ (x == y) = true) ∧ (p = p' ↔ (v == w) = true) := by
  obtain ⟨t, q, h⟩ := h
  obtain ⟨t', q', h'⟩ := h'
  have hg := (r.inv lay).never_gone hk
  obtain ⟨_, x, e, hx, dx, ex⟩ := r.handle lay hg (r.done_sub h)
  obtain ⟨_, y, e', hy, dy, ey⟩ := r.handle lay hg (r.done_sub h')
  cases e; cases e'
  have i := r.kept_inj lay hg hx hy
  refine ⟨x, y, dx, dy, i, i.trans ?_⟩
  rw [BEq.congr_left ex, BEq.congr_right ey]

/-- The demo state meets the hypotheses with equal, different, and zero-sized values. -/
example : ∃ s, Reach Demo.cfg s ∧ Demo.cfg.owns 0 = false ∧
    Returned s 0 (⟨5, 1⟩ : Demo.Val) ⟨1000, 0⟩ ∧ Returned s 0 (⟨5, 2⟩ : Demo.Val) ⟨1000, 0⟩ ∧
    Returned s 0 (⟨8, 0⟩ : Demo.Val) ⟨2000, 0⟩ ∧ Returned s 0 (⟨0, 0⟩ : Demo.Val) ⟨8, 1⟩ := by
  obtain ⟨s, h, c⟩ := exec_check (cfg := Demo.cfg) (l := Demo.script.map Demo.Cmd.act) (fun s => s.done.any (fun e =>
    match e.op, e.ret with
    | .intern k _ v, .ptr p => decide (k = 0 ∧ v = ⟨5, 1⟩ ∧ p = ⟨1000, 0⟩)
    | _, _ => false) && s.done.any (fun e => match e.op, e.ret with
    | .intern k _ v, .ptr p => decide (k = 0 ∧ v = ⟨5, 2⟩ ∧ p = ⟨1000, 0⟩)
    | _, _ => false) && s.done.any (fun e => match e.op, e.ret with
    | .intern k _ v, .ptr p => decide (k = 0 ∧ v = ⟨8, 0⟩ ∧ p = ⟨2000, 0⟩)
    | _, _ => false) && s.done.any (fun e => match e.op, e.ret with
    | .intern k _ v, .ptr p => decide (k = 0 ∧ v = ⟨0, 0⟩ ∧ p = ⟨8, 1⟩)
    | _, _ => false)) (by decide)
  have key : ∀ (v : Demo.Val) (p : Ptr), s.done.any (fun e => match e.op, e.ret with
      | .intern k _ w, .ptr p' => decide (k = 0 ∧ w = v ∧ p' = p)
      | _, _ => false) = true → Returned s 0 v p := by
    intro v p h
    obtain ⟨⟨t, o, r⟩, he, c⟩ := List.any_eq_true.mp h
    cases o with
    | intern k q w =>
      cases r with
      | ptr p' =>
        simp only [decide_eq_true_eq] at c
        obtain ⟨rfl, rfl, rfl⟩ := c
        exact ⟨t, q, he⟩
      | _ => cases c
    | _ => cases c
  simp only [Bool.and_eq_true] at c
  exact ⟨s, exec_reach (Demo.lawful _) h, rfl, key _ _ c.1.1.1, key _ _ c.1.1.2, key _ _ c.1.2, key _ _ c.2⟩

/-- **C25.** A handle dereferences to the same value in every later state; that value equals what was interned; it is the
value of the first call that interned a member of its equality class. -/
theorem C25_never_freed_or_changed {cfg : Cfg K V} (lay : cfg.Layout) {s s' : State K V} (r : Reach cfg s)
    (st : Steps cfg s s') {k : K} (hk : cfg.owns k = false) {v : V} {p : Ptr} (h : Returned s k v p) :
    ∃ x, deref s k p = some x ∧ deref s' k p = some x ∧ (x == v) = true ∧
      ∃ newer older t q, s.log = newer ++ ⟨t, .intern k q x, .ptr p⟩ :: older ∧
        ∀ t' q' v' r', ⟨t', .intern k q' v', r'⟩ ∈ older → (v' == x) = false := by
  obtain ⟨t, q, h⟩ := h
  have hg := (r.inv lay).never_gone hk
  obtain ⟨_, x, e, hx, dx, ex⟩ := r.handle lay hg (r.done_sub h)
  cases e
  have r' := st.reach r
  obtain ⟨l, hl⟩ := st.log.1
  obtain ⟨m, hm⟩ := interned_mono l s.log k
  refine ⟨x, dx, ?_, ex, ?_⟩
  · have hx' : (p, x) ∈ interned s'.log k := by rw [hl, hm]; exact List.mem_append_right _ hx
    exact ((r'.inv lay).deref_iff lay k p x).mpr ((r'.inv lay).vals k ((r'.inv lay).never_gone hk) _ hx')
  · exact kept_first (r.inv lay).seq hx

/-- The demo script continues from its middle, where a handle for `⟨5,1⟩` is already out and the stored representative is
the other thread's `⟨5,2⟩`. -/
example : ∃ s s', Reach Demo.cfg s ∧ Steps Demo.cfg s s' ∧ (∃ e ∈ s.done, e.ret = .ptr ⟨1000, 0⟩) ∧
    deref s' 0 ⟨1000, 0⟩ = some (⟨5, 2⟩ : Demo.Val) := by
  obtain ⟨s, h, c⟩ := exec_check (cfg := Demo.cfg) (l := (Demo.script.take 13).map Demo.Cmd.act)
    (fun s => s.done.any (fun e => decide (e.ret = .ptr ⟨1000, 0⟩))) (by decide)
  obtain ⟨s', h', c'⟩ := exec_check (cfg := Demo.cfg) (l := Demo.script.map Demo.Cmd.act)
    (fun s => decide (deref s 0 ⟨1000, 0⟩ = some (⟨5, 2⟩ : Demo.Val))) (by decide)
  obtain ⟨e, he, hr⟩ := List.any_eq_true.mp c
  refine ⟨s, s', exec_reach (Demo.lawful _) h, ?_, ⟨e, he, by simpa using hr⟩, by simpa using c'⟩
  rw [← List.take_append_drop 13 Demo.script, List.map_append, exec_append, h] at h'
  exact exec_steps (Demo.lawful _) h' .refl

/-- `vs` lists the distinct values (up to `==`) interned in pool `k` by the calls in `l`. -/
structure DistinctValues (l : List (Entry K V)) (k : K) (vs : List V) : Prop where
  distinct : vs.Pairwise fun x y => (x == y) = false
  interned : ∀ x ∈ vs, ∃ t q r, ⟨t, .intern k q x, r⟩ ∈ l
  all : ∀ t q v r, ⟨t, .intern k q v, r⟩ ∈ l → ∃ x ∈ vs, (x == v) = true

/-- The number of distinct values does not depend on the list chosen. -/
theorem DistinctValues.length_le {l : List (Entry K V)} {k : K} {vs ws : List V} (h : DistinctValues l k vs)
    (h' : DistinctValues l k ws) : vs.length ≤ ws.length := by
  have key : ∀ (vs ws : List V), vs.Pairwise (fun x y => (x == y) = false) → (∀ x ∈ vs, ∃ y ∈ ws, (y == x) = true) →
      vs.length ≤ ws.length := by
    intro vs
    induction vs with
    | nil => intro ws _ _; exact Nat.zero_le _
    | cons x vs ih =>
      intro ws d c
      rw [List.pairwise_cons] at d
      obtain ⟨y, hy, e⟩ := c x List.mem_cons_self
      obtain ⟨a, b, rfl⟩ := List.append_of_mem hy
      have := ih (a ++ b) d.2 (fun z hz => by
        obtain ⟨w, hw, ew⟩ := c z (List.mem_cons_of_mem _ hz)
        refine ⟨w, ?_, ew⟩
        rcases List.mem_append.mp hw with hw | hw
        · exact List.mem_append_left _ hw
        · rcases List.mem_cons.mp hw with rfl | hw
          · have := d.1 z hz
            rw [PartialEquivBEq.trans (PartialEquivBEq.symm e) ew] at this
            cases this
          · exact List.mem_append_right _ hw)
      simp only [List.length_append, List.length_cons] at this ⊢
      omega
  refine key vs ws h.distinct (fun x hx => ?_)
  obtain ⟨t, q, r, hm⟩ := h.interned x hx
  exact h'.all t q x r hm

theorem distinct_of_seq {l : List (Entry K V)} (hs : Sequential l) (k : K) :
    DistinctValues l k ((interned l k).map (·.2)) where
  distinct := by
    rw [List.pairwise_map]
    refine (interned_distinct l k).imp (fun {a b} h => ?_)
    cases e : (a.2 == b.2) with
    | false => rfl
    | true => rw [PartialEquivBEq.symm e] at h; cases h
  interned x hx := by
    obtain ⟨y, hy, rfl⟩ := List.mem_map.mp hx
    obtain ⟨l1, l2, t, q, e, _⟩ := kept_first hs hy
    exact ⟨t, q, _, by rw [e]; exact List.mem_append_right _ List.mem_cons_self⟩
  all t q v r h := by
    obtain ⟨x, hx, _, e⟩ := hs.kept h
    exact ⟨x.2, List.mem_map.mpr ⟨x, hx, rfl⟩, e⟩

/-- **C26.** A call of `num_objects_interned` returns the number of distinct values interned in its pool before it. -/
theorem C26_len_counts_distinct {cfg : Cfg K V} (lay : cfg.Layout) {s : State K V} (r : Reach cfg s) {t : Tid} {k : K}
    {a : Ret} {newer older : List (Entry K V)} (h : s.log = newer ++ ⟨t, .len k, a⟩ :: older) :
    ∃ n vs, a = .num n ∧ DistinctValues older k vs ∧ n = vs.length := by
  have hs := (r.inv lay).seq
  rw [h] at hs
  obtain ⟨hc, hs'⟩ := hs.sub
  clear hs
  cases a with
  | num n => exact ⟨n, _, rfl, distinct_of_seq hs' k, by rw [List.length_map]; exact hc⟩
  | ptr p => exact hc.elim
  | bool b => exact hc.elim
  | unit => exact hc.elim

/-- C26, monotonicity: a later call returns at least as much. -/
theorem C26_len_monotone {cfg : Cfg K V} (lay : cfg.Layout) {s : State K V} (r : Reach cfg s) {t t' : Tid} {k : K}
    {n n' : Nat} {newer between older : List (Entry K V)}
    (h : s.log = newer ++ ⟨t', .len k, .num n'⟩ :: (between ++ ⟨t, .len k, .num n⟩ :: older)) : n ≤ n' := by
  obtain ⟨_, vs', e', d', l'⟩ := C26_len_counts_distinct lay r h
  have h2 : s.log = (newer ++ ⟨t', .len k, .num n'⟩ :: between) ++ ⟨t, .len k, .num n⟩ :: older := by
    rw [h]; simp
  have hs := (r.inv lay).seq
  have hs1 : Sequential (between ++ ⟨t, .len k, .num n⟩ :: older) := by
    rw [h] at hs; exact hs.sub.2
  have c' : n' = (interned (between ++ ⟨t, .len k, .num n⟩ :: older) k).length := by
    rw [h] at hs; exact hs.sub.1
  have c : n = (interned older k).length := hs1.sub.1
  obtain ⟨m, hm⟩ := interned_mono (between ++ [⟨t, .len k, .num n⟩]) older k
  rw [show between ++ [⟨t, .len k, .num n⟩] ++ older = between ++ ⟨t, .len k, .num n⟩ :: older by simp] at hm
  rw [c, c', hm, List.length_append]
  exact Nat.le_add_left _ _

/-- C26, other calls do not count: queries, counts, and calls on other types leave the number unchanged. -/
theorem C26_unaffected (l : List (Entry K V)) (k : K) (e : Entry K V)
    (h : ∀ q v, e.op ≠ .intern k q v) {vs ws : List V} (hv : DistinctValues l k vs) (hw : DistinctValues (e :: l) k ws) :
    vs.length = ws.length := by
  have hv' : DistinctValues (e :: l) k vs :=
    { distinct := hv.distinct
      interned := fun x hx => by
        obtain ⟨t, q, r, hm⟩ := hv.interned x hx
        exact ⟨t, q, r, List.mem_cons_of_mem _ hm⟩
      all := fun t q v r hm => by
        rcases List.mem_cons.mp hm with rfl | hm
        · exact absurd rfl (h q v)
        · exact hv.all t q v r hm }
  exact Nat.le_antisymm (hv'.length_le hw) (hw.length_le hv')

/-- The count in the demo is 3: `⟨5,_⟩` (twice), `⟨8,0⟩`, `⟨0,0⟩` (twice); the panicked `⟨9,0⟩` and the values of other
pools do not count. -/
example : ∃ s, Reach Demo.cfg s ∧ ∃ t newer older, s.log = newer ++ ⟨t, .len 0, .num 3⟩ :: older ∧ older.length = 8 := by
  obtain ⟨s, h, c⟩ := exec_check (cfg := Demo.cfg) (l := Demo.script.map Demo.Cmd.act)
    (fun s => match s.log with
      | _ :: _ :: _ :: _ :: _ :: _ :: ⟨_, .len k, r⟩ :: l => decide (k = 0 ∧ r = .num 3 ∧ l.length = 8)
      | _ => false) (by decide)
  refine ⟨s, exec_reach (Demo.lawful _) h, ?_⟩
  split at c
  · rename_i a b c' d e f t k r l hl
    simp only [decide_eq_true_eq] at c
    obtain ⟨rfl, rfl, hlen⟩ := c
    exact ⟨t, [a, b, c', d, e, f], l, hl, hlen⟩
  · cases c

/-- **C27.** `is_interned(q)` is true exactly when some earlier call of the pool interned a value matching `q`. -/
theorem C27_is_interned_exact {cfg : Cfg K V} (lay : cfg.Layout) {s : State K V} (r : Reach cfg s) {t : Tid} {k : K}
    {q : Query V} {a : Ret} {newer older : List (Entry K V)} (h : s.log = newer ++ ⟨t, .query k q, a⟩ :: older) :
    ∃ b, a = .bool b ∧ (b = true ↔ ∃ t' q' v r', ⟨t', .intern k q' v, r'⟩ ∈ older ∧ q.eq v = true) := by
  have hq : (Op.query k q : Op K V).Lawful := r.log_lawful lay _ (by rw [h]; exact List.mem_append_right _ List.mem_cons_self)
  have hs := (r.inv lay).seq
  rw [h] at hs
  obtain ⟨hc, hs'⟩ := hs.sub
  clear hs
  cases a with
  | bool b =>
    refine ⟨b, rfl, ?_⟩
    have hc : b = (interned older k).any (fun x => q.eq x.2) := hc
    rw [hc, List.any_eq_true]
    constructor
    · rintro ⟨x, hx, e⟩
      obtain ⟨l1, l2, t', q', e', _⟩ := kept_first hs' hx
      exact ⟨t', q', x.2, _, by rw [e']; exact List.mem_append_right _ List.mem_cons_self, e⟩
    · rintro ⟨t', q', v, r', hm, e⟩
      obtain ⟨x, hx, _, e'⟩ := hs'.kept hm
      exact ⟨x, hx, by rw [hq.2 _ _ e']; exact e⟩
  | num n => exact hc.elim
  | ptr p => exact hc.elim
  | unit => exact hc.elim

/-- C27 in the words of the API: for a lawful `Borrow`, `is_interned(key)` is true exactly when some earlier call interned
a value whose borrowed form equals the key. -/
theorem C27_borrowed {Q : Type} [BEq Q] [Hashable Q] [EquivBEq Q] [LawfulHashable Q] {borrow : V → Q}
    {cfg : Cfg K V} (lay : cfg.Layout) {s : State K V} (r : Reach cfg s) {t : Tid}
    {k : K} {key : Q} {a : Ret} {newer older : List (Entry K V)}
    (h : s.log = newer ++ ⟨t, .query k (.ofBorrow borrow key), a⟩ :: older) :
    ∃ b, a = .bool b ∧ (b = true ↔ ∃ t' q' v r', ⟨t', .intern k q' v, r'⟩ ∈ older ∧ (borrow v == key) = true) :=
  C27_is_interned_exact lay r h

/-- C27, no effect: no step of a thread that is executing `is_interned` changes any pool or any box. -/
theorem C27_no_effect {cfg : Cfg K V} {s s' : State K V} {t : Tid} {a : Nat} {k : K} {q : Query V} {pc : Pc K V}
    (ht : s.threads[t]? = some pc)
    (hpc : pc = .want (.query k q) ∨ pc = .inside (.query k q) ∨ ∃ r, pc = .leave (.query k q) r)
    (h : step cfg s (.run t a) = .ok s') : s'.heap = s.heap ∧ s'.table = s.table := by
  simp only [step, ht] at h
  rcases hpc with rfl | rfl | ⟨r, rfl⟩
  · simp only [run] at h
    split at h
    · cases h
    · cases h; exact ⟨rfl, rfl⟩
  · simp only [run] at h
    split at h
    · cases h; exact ⟨rfl, rfl⟩
    · cases h
  · simp only [run] at h
    cases h; exact ⟨rfl, rfl⟩

/-- In the demo one query answers true and one false. -/
example : ∃ s, Reach Demo.cfg s ∧ (∃ t q newer older, s.log = newer ++ ⟨t, .query 0 q, .bool true⟩ :: older) ∧
    (∃ t q newer older, s.log = newer ++ ⟨t, .query 0 q, .bool false⟩ :: older) := by
  have key : ∀ (l : List (Entry Nat Demo.Val)) (b : Bool), l.any (fun e => match e.op, e.ret with
      | .query k _, r => decide (k = 0 ∧ r = .bool b)
      | _, _ => false) = true → ∃ t q newer older, l = newer ++ ⟨t, .query 0 q, .bool b⟩ :: older := by
    intro l b h
    obtain ⟨⟨t, o, r⟩, he, c⟩ := List.any_eq_true.mp h
    cases o with
    | query k q =>
      simp only [decide_eq_true_eq] at c
      obtain ⟨rfl, rfl⟩ := c
      obtain ⟨l1, l2, e⟩ := List.append_of_mem he
      exact ⟨t, q, l1, l2, e⟩
    | _ => cases c
  obtain ⟨s, h, c⟩ := exec_check (cfg := Demo.cfg) (l := Demo.script.map Demo.Cmd.act)
    (fun s => s.log.any (fun e => match e.op, e.ret with
      | .query k _, r => decide (k = 0 ∧ r = .bool true)
      | _, _ => false) && s.log.any (fun e => match e.op, e.ret with
      | .query k _, r => decide (k = 0 ∧ r = .bool false)
      | _, _ => false)) (by decide)
  rw [Bool.and_eq_true] at c
  exact ⟨s, exec_reach (Demo.lawful _) h, key _ _ c.1, key _ _ c.2⟩

/-- **C34, atomicity.** The calls that took effect form a history in which each call gives the right sequential answer
after the ones before it; each thread's calls appear in it in program order, and exactly those that returned (with the
result they returned) or are about to; a later history extends an earlier one, so calls that returned before another was
made come before it. -/
theorem C34_linearizable {cfg : Cfg K V} (lay : cfg.Layout) {s s' : State K V} (r : Reach cfg s) (st : Steps cfg s s') :
    Sequential s.log ∧
    (∀ t : Tid, ofThread t s.log = ((s.threads[t]?).bind (entryOf t)).toList ++ ofThread t s.done) ∧
    ∃ l, s'.log = l ++ s.log :=
  ⟨(r.inv lay).seq, r.threadLog, st.log.1⟩

/-- C34, calls take effect while they hold the lock of their pool. -/
theorem C34_effect_under_lock {cfg : Cfg K V} (lay : cfg.Layout) {s s' : State K V} (r : Reach cfg s) {a : Act K V}
    (hl : a.Lawful) (h : step cfg s a = .ok s') (hlog : s'.log ≠ s.log) :
    ∃ e, s'.log = e :: s.log ∧ s.lock (cfg.lockOf e.op.pool) = some e.tid ∧
      s'.lock (cfg.lockOf e.op.pool) = some e.tid := by
  have I' := (r.step hl h).inv lay
  cases step_kind h with
  | same h1 => exact absurd h1 hlog
  | spawn h1 => exact absurd h1 hlog
  | quiet _ _ _ _ _ _ h1 => exact absurd h1 hlog
  | leave _ _ _ _ h1 => exact absurd h1 hlog
  | commit t pc o r' hpc e h1 h2 h3 =>
    have l' : s'.lock (cfg.lockOf o.pool) = some t :=
      I'.holder t (.leave o r') _ (by rw [h3]; exact getElem?_set_self' hpc) rfl
    refine ⟨_, h1, ?_, l'⟩
    show s.lock (cfg.lockOf o.pool) = some t
    cases a with
    | spawn => cases h; exact absurd rfl hlog
    | call u o' =>
      simp only [step] at h
      split at h
      · split at h
        · cases h
        · cases h; exact absurd rfl hlog
      · cases h
    | run u a =>
      simp only [step] at h
      split at h
      · rename_i pc' hu
        cases pc' with
        | idle => cases h
        | want o' =>
          simp only [run] at h
          split at h
          · cases h
          · cases h; exact absurd rfl hlog
        | inside o' =>
          simp only [run] at h
          split at h
          · cases o' with
            | intern k q v =>
              simp only at h
              cases hf : find s k q with
              | some p => rw [hf] at h; cases h; exact absurd rfl hlog
              | none => rw [hf] at h; cases h; exact absurd rfl hlog
            | query k q => simp only at h; cases h; exact l'
            | len k => simp only at h; cases h; exact l'
            | clear k =>
              simp only at h
              split at h
              · cases h
              · cases h; exact l'
          · cases h
        | build k q v =>
          simp only [run] at h
          split at h
          · cases h
          · cases h; exact absurd rfl hlog
        | insert k q v p =>
          simp only [run] at h
          split at h
          · cases hf : find s k (.ofVal v) with
            | some p' =>
              rw [hf] at h
              by_cases ho : cfg.owns k = true
              · simp only [ho, if_true] at h
                cases h; exact l'
              · simp only [ho] at h
                cases h; exact l'
            | none => rw [hf] at h; cases h; exact l'
          · cases h
        | dropArg k q v p => cases h; exact l'
        | leave o' r'' => cases h; exact absurd rfl hlog
      · cases h
    | panic u =>
      simp only [step] at h
      split at h
      · rename_i pc' hu
        cases pc' <;> cases h <;> exact absurd rfl hlog
      · cases h
    | dropArena k =>
      simp only [step] at h
      split at h
      · cases h; exact absurd rfl hlog
      · cases h
    | read k p => exact hl.elim

/-- A thread in the middle of a call that holds its lock can always step. -/
theorem holder_steps {cfg : Cfg K V} (lay : cfg.Layout) {s : State K V} (r : Reach cfg s) {t : Tid} {pc : Pc K V}
    (ht : s.threads[t]? = some pc) {i : Nat} (hi : pc.holds cfg = some i) : ∃ a s', step cfg s (.run t a) = .ok s' := by
  have I := r.inv lay
  have hok := I.pcs t pc ht
  simp only [step, ht]
  cases pc with
  | idle => cases hi
  | want o => cases hi
  | inside o =>
    simp only [run, I.tableOk, if_true]
    refine ⟨0, ?_⟩
    cases o with
    | intern k q v =>
      simp only
      cases hf : find s k q with
      | some p => exact ⟨_, rfl⟩
      | none => exact ⟨_, rfl⟩
    | query k q => exact ⟨_, rfl⟩
    | len k => exact ⟨_, rfl⟩
    | clear k => exact hok.elim
  | build k q v =>
    obtain ⟨a, addr, h⟩ := exists_fresh cfg s k v
    exact ⟨a, by simp only [run, h]; exact ⟨_, rfl⟩⟩
  | insert k q v p =>
    simp only [run, I.tableOk, if_true]
    refine ⟨0, ?_⟩
    cases hf : find s k (.ofVal v) with
    | some p' => exact ⟨_, rfl⟩
    | none => exact ⟨_, rfl⟩
  | dropArg k q v p => exact ⟨0, _, rfl⟩
  | leave o r' => exact ⟨0, _, rfl⟩

/-- **C34, deadlock freedom.** Whenever a call is unfinished some thread can take a step. -/
theorem C34_deadlock_free {cfg : Cfg K V} (lay : cfg.Layout) {s : State K V} (r : Reach cfg s)
    (h : ∃ (t : Tid) (pc : Pc K V), s.threads[t]? = some pc ∧ pc ≠ .idle) : ∃ t a s', step cfg s (.run t a) = .ok s' := by
  have I := r.inv lay
  obtain ⟨t, pc, ht, hne⟩ := h
  cases hh : pc.holds cfg with
  | some i =>
    obtain ⟨a, s', h⟩ := holder_steps lay r ht hh
    exact ⟨t, a, s', h⟩
  | none =>
    cases pc with
    | want o =>
      cases hl : s.lock (cfg.lockOf o.pool) with
      | none => exact ⟨t, 0, by simp only [step, ht, run, hl]; exact ⟨_, rfl⟩⟩
      | some u =>
        obtain ⟨pu, hu, hi⟩ := I.held _ u hl
        obtain ⟨a, s', h⟩ := holder_steps lay r hu hi
        exact ⟨u, a, s', h⟩
    | idle => exact absurd rfl hne
    | _ => cases hh

/-- In the demo, after both threads have called and thread 1 has taken the lock, thread 0 is blocked, thread 1 is not. -/
example : ∃ s, Reach Demo.cfg s ∧ (∃ (t : Tid) (pc : Pc Nat Demo.Val), s.threads[t]? = some pc ∧ pc ≠ .idle) ∧
    (step Demo.cfg s (.run 0 0)).get?.isNone = true := by
  obtain ⟨s, h, c⟩ := exec_check (cfg := Demo.cfg) (l := (Demo.script.take 5).map Demo.Cmd.act)
    (fun s => (match s.threads with
      | .want _ :: _ => true
      | _ => false) && (step Demo.cfg s (.run 0 0)).get?.isNone) (by decide)
  rw [Bool.and_eq_true] at c
  refine ⟨s, exec_reach (Demo.lawful _) h, ?_, c.2⟩
  have c1 := c.1
  split at c1
  · rename_i o l hl
    exact ⟨0, .want o, by rw [hl]; rfl, fun e => by cases e⟩
  · cases c1

end Pool
