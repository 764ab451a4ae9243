import Verif.Arc.WildCover
/-!
What `e.insert(())` (arc.rs:254, arc_dst.rs:103) does inside dashmap 5: `VacantEntry::insert` keeps a bitwise copy `c` of the key, calls
`HashMap::insert(key, ())`, then `HashMap::get_key_value(&c).unwrap()`, and forgets `c`. Both calls look the key up with the user's
`Hash` and `Eq`. (This copy of the key is also why dashmap fails Miri with `Box` keys, see `just_dashmap`, arc.rs:610-623.)

`Arc.run` performs the insertion as one step that always succeeds. Here the two lookups may have any answer.
-/
namespace Arc
variable {V : Type}
namespace Ins

/-- The second lookup finds nothing, so that `unwrap` panics, or user code panics in it: unwinding drops the copy `c`, which frees the
box that the table holds; releases the guard; drops the handle `p` created at arc.rs:251-253. Simplification: the fields of the freed
value are not dropped (the next step of this thread is undefined behaviour anyway). -/
def dangling (s : State V) (t : Tid) (sh : Nat) (b : Addr) : State V :=
  ({ s with table := b :: s.table, heap := free s.heap b }.unlock sh).setThread t { pc := .dropSub b }

/-- `VacantEntry::insert`; `before` is the answer of the lookup in `HashMap::insert`, `after` the one of `get_key_value`, `done` the result
of an undisturbed insertion. If the first lookup finds an equal key, `HashMap::insert` drops the new one, that is, frees the
box, and `get_key_value(&c)` reads freed memory. -/
def insert (before after : Option Addr) (done : Res (State V)) (s : State V) (t : Tid) (sh : Nat) (b : Addr) : Res (State V) :=
  match before with
  | some _ => .ub
  | none => match after with
    | some _ => done
    | none => .ok (dangling s t sh b)

/-- User code panics in the second lookup of the insertion that thread `t` performs. -/
def panicReadBack (s : State V) (t : Tid) (th : Thread V) : Res (State V) := match th.pc with
  | .newVacant _ sh b => .ok (dangling s t sh b)
  | _ => .blocked

theorem dangling_get (s : State V) (t : Tid) (sh : Nat) (b : Addr) : get (dangling s t sh b).heap b = none := by
  show get (free s.heap b) b = none
  rw [get_free, if_pos rfl]

theorem dangling_deref (s : State V) (t : Tid) (sh : Nat) (b : Addr) : deref (dangling s t sh b) b = none := by
  simp only [deref, dangling_get, Option.map_none]

theorem dangling_thread {s : State V} {t : Tid} {th : Thread V} (ht : s.threads[t]? = some th) (sh : Nat) (b : Addr) :
    (dangling s t sh b).threads[t]? = some { pc := .dropSub b } := by
  show (s.threads.set t _)[t]? = _
  rw [set_getElem? _ _ _ _ _ ht, if_pos rfl]

variable [BEq V] [Hashable V]

/-- As `Arc.run`, with the lookups of the insertion (arc.rs:254, arc_dst.rs:103). -/
def run (cfg : Cfg V) (s : State V) (t : Tid) (th : Thread V) (a : Addr) : Res (State V) :=
  match th.pc with
  | .newVacant _ sh b =>
    match get s.heap b with
    | none => .ub
    | some x =>
      if !tableOk s then .ub
      else insert (find s x.data) (find { s with table := b :: s.table } x.data) (Arc.run cfg s t th a) s t sh b
  | _ => Arc.run cfg s t th a

/-- As `Arc.step`. -/
def step (cfg : Cfg V) (s : State V) : Act V → Res (State V)
  | .run t a =>
    match s.threads[t]? with
    | none => .blocked
    | some th => run cfg s t th a
  | act => Arc.step cfg s act

/-- Run a list of actions one after another. -/
def exec (cfg : Cfg V) (s : State V) : List (Act V) → Res (State V)
  | [] => .ok s
  | a :: as => match step cfg s a with
    | .ok s' => exec cfg s' as
    | .blocked => .blocked
    | .ub => .ub

/-- Executions in which every action is allowed by `may`. -/
inductive Reach (cfg : Cfg V) (may : State V → Act V → Prop) : State V → Prop
  | init : Reach cfg may init
  | step {s s' : State V} {a : Act V} : Reach cfg may s → a.Sane → may s a → step cfg s a = .ok s' → Small cfg s' → Reach cfg may s'

/-- The action inserts nothing, or a value that equals itself. -/
def InsertsSelfEqual (s : State V) : Act V → Prop
  | .run t _ => ∀ th ∈ s.threads[t]?, ∀ c sh b, th.pc = .newVacant c sh b → (c.val == c.val) = true
  | _ => True

/-- The action is not a call of `new` with a value that does not equal itself. -/
def SuppliesSelfEqual : Act V → Prop
  | .new _ v _ => (v == v) = true
  | _ => True

/-! ### Adversarial lookups -/

/-- As `Wild.run`; `found` is the answer of the first lookup of an insertion, `after` the one of the second. -/
def wildRun (sh : Nat) (found after : Option Addr) (cfg : Cfg V) (s : State V) (t : Tid) (th : Thread V) (a : Addr) : Res (State V) :=
  match th.pc with
  | .newVacant _ sh b => if !tableOk s then .ub else insert found after (Arc.run cfg s t th a) s t sh b
  | _ => Wild.run sh found cfg s t th a

/-- As `Wild.step`. -/
def wildStep (sh : Nat) (found after : Option Addr) (cfg : Cfg V) (s : State V) : Act V → Res (State V)
  | .run t a =>
    match s.threads[t]? with
    | none => .blocked
    | some th => wildRun sh found after cfg s t th a
  | act => Arc.step cfg s act

/-- What is asked of the lookups: as in `Wild.Answer`; and those of an insertion agree that the key is not there before and is
there after. -/
def Answer (home : Addr → Nat) (s : State V) (sh : Nat) (found after : Option Addr) (act : Act V) : Prop :=
  Wild.Answer home s sh found act ∧ match act with
  | .run t _ => ∀ th ∈ s.threads[t]?, ∀ c sh b, th.pc = .newVacant c sh b → found = none ∧ after ≠ none
  | _ => True

/-- As `Wild.Reach`. -/
inductive WildReach (cfg : Cfg V) : (Addr → Nat) → State V → Prop
  | init {home} : WildReach cfg home init
  | step {home s s' a sh found after} : WildReach cfg home s → a.Sane → Answer home s sh found after a →
      wildStep sh found after cfg s a = .ok s' → Small cfg s' → WildReach cfg (Wild.rehome home s a) s'
  | store {home s path p x v} : WildReach cfg home s → borrow cfg s path = .ok p → get s.heap p = some x →
      cfg.kids v = cfg.kids x.data → WildReach cfg home { s with heap := setData s.heap p v }

theorem wildStep_eq {cfg : Cfg V} {home} {s : State V} (hI : Wild.Inv cfg home s) {sh found after} {a : Act V}
    (h : Answer home s sh found after a) : wildStep sh found after cfg s a = Wild.step sh found cfg s a := by
  cases a with
  | run t a =>
    cases ht : s.threads[t]? with
    | none => simp only [wildStep, Wild.step, ht]
    | some th =>
      simp only [wildStep, Wild.step, ht]
      unfold wildRun
      cases hpc : th.pc <;> simp only
      case newVacant c sh' b =>
        obtain ⟨e1, e2⟩ := h.2 th ht c sh' b hpc
        cases after with
        | none => exact absurd rfl e2
        | some r => subst e1; simp [hI.tableOk, insert, Wild.run, hpc]
  | _ => rfl

theorem WildReach.wild {cfg : Cfg V} (hv : cfg.Valid) {home} {s : State V} (h : WildReach cfg home s) : Wild.Reach cfg home s := by
  induction h with
  | init => exact .init
  | step _ hs ha he hS ih => exact ih.step hs ha.1 ((wildStep_eq (ih.inv hv) ha).symm.trans he) hS
  | store _ h1 h2 h3 ih => exact ih.store h1 h2 h3

/-! ### Deterministic `Eq` and `Hash`, without laws -/

/-- A thread about to insert has found no equal element, and there still is none. -/
def Absent (s : State V) : Prop :=
  ∀ (t : Tid) (th : Thread V) c sh b, s.threads[t]? = some th → th.pc = .newVacant c sh b →
    ∀ r x, r ∈ s.table → get s.heap r = some x → keyEq x.data c.val = false

theorem keyEq_none {s : State V} {v : V} (h : find s v = none) {r : Addr} {x : Cell V} (hr : r ∈ s.table) (hx : get s.heap r = some x) :
    keyEq x.data v = false := by
  have := List.find?_eq_none.mp h r hr
  rw [hx] at this
  simpa using this

theorem keyEq_shard {cfg : Cfg V} {x v : V} (h : keyEq x v = true) : cfg.shardOf x = cfg.shardOf v := by
  simp only [keyEq, Bool.and_eq_true, beq_iff_eq] at h
  unfold Cfg.shardOf
  rw [h.1]

theorem absent_step {cfg : Cfg V} {home} {s s' : State V} {act : Act V} (hI : Wild.Inv cfg home s) (hH : HomeOk cfg home s)
    (hD : Absent s) (hsane : act.Sane) (h : Arc.step cfg s act = .ok s') : Absent s' := by
  obtain ⟨h1, h2⟩ := step_effect hI hsane h
  have key : ∀ (u : Tid) thu c' sh' b', s'.threads[u]? = some thu → thu.pc = .newVacant c' sh' b' →
      ∀ r x, r ∈ s.table → get s.heap r = some x → keyEq x.data c'.val = false := by
    intro u thu c' sh' b' hu hp r x hr hx
    rcases h2 u thu c' sh' b' hu hp with hu' | ⟨th', ht', hpc', y, hy, _, hf, _⟩
    · exact hD u thu c' sh' b' hu' hp r x hr hx
    · have hpi' := (hI.th u th' ht').pc
      rw [hpc'] at hpi'
      rw [hpi'.2.2] at hy; injection hy with hy; subst hy
      exact keyEq_none hf hr hx
  intro u thu c' sh' b' hu hp r x hr hx
  rcases h1 with ⟨t, a, th, c, sh, b, rfl, ht, hpc, e1, e2, e3⟩ | hk
  · have hpi := (hI.th t th ht).pc
    rw [hpc] at hpi
    have hsh := hH.2 t th c sh b ht hpc
    have hlk : s.locks sh = some t := (hI.lk sh t).mpr ⟨th, ht, by rw [hpc]; rfl⟩
    rw [e1] at hr
    rw [e2] at hx
    rcases List.mem_cons.mp hr with hr | hr
    · subst hr
      rw [hpi.2.2] at hx; injection hx with hx; subst hx
      cases hc : keyEq (⟨1, c.val⟩ : Cell V).data c'.val with
      | false => rfl
      | true =>
        exfalso
        have hs : cfg.shardOf c.val = cfg.shardOf c'.val := keyEq_shard hc
        rcases h2 u thu c' sh' b' hu hp with hu' | ⟨th', ht', hpc', y, hy, e, _, hl⟩
        · have hsh' := hH.2 u thu c' sh' b' hu' hp
          have : s.locks sh' = some u := (hI.lk sh' u).mpr ⟨thu, hu', by rw [hp]; rfl⟩
          rw [hsh', ← hs, ← hsh, hlk] at this
          injection this with this; subst this
          rw [e3, set_getElem? _ _ _ _ _ ht, if_pos rfl] at hu
          injection hu with hu; subst hu; cases hp
        · have hpi' := (hI.th u th' ht').pc
          rw [hpc'] at hpi'
          rw [hpi'.2.2] at hy; injection hy with hy; subst hy
          rw [e, ← hs, ← hsh, hlk] at hl; cases hl
    · exact key u thu c' sh' b' hu hp r x hr hx
  · obtain ⟨k1, k2⟩ := hk r hr
    rw [hx] at k2
    cases hg : get s.heap r with
    | none => rw [hg] at k2; cases k2
    | some y =>
      rw [hg] at k2
      have e : x.data = y.data := Option.some.inj k2
      rw [e]
      exact key u thu c' sh' b' hu hp r y k1 hg

theorem _root_.Arc.SelfReach.absent {cfg : Cfg V} (hv : cfg.Valid) {s : State V} (h : SelfReach cfg s) : Absent s := by
  induction h with
  | init => intro t th c sh b ht; cases ht
  | step h1 hs _ he _ ih =>
    obtain ⟨home, hw, hH⟩ := h1.wild hv
    exact absent_step (hw.inv hv) hH ih hs he

/-- The lookups of an insertion, with deterministic `Eq` and `Hash`: the first finds nothing, the second finds something exactly if the
value equals itself. -/
theorem lookups {cfg : Cfg V} (hv : cfg.Valid) {s : State V} (h : SelfReach cfg s) {t : Tid} {th : Thread V} {c sh b}
    (ht : s.threads[t]? = some th) (hpc : th.pc = .newVacant c sh b) :
    get s.heap b = some ⟨1, c.val⟩ ∧ tableOk s = true ∧ find s c.val = none ∧
      find { s with table := b :: s.table } c.val = if c.val == c.val then some b else none := by
  obtain ⟨home, hw, hH⟩ := h.wild hv
  have hI := hw.inv hv
  have hpi := (hI.th t th ht).pc
  rw [hpc] at hpi
  have hn : find s c.val = none := by
    refine List.find?_eq_none.mpr fun r hr => ?_
    cases hx : get s.heap r with
    | none => simp
    | some x => simp [h.absent hv t th c sh b ht hpc r x hr hx]
  refine ⟨hpi.2.2, hI.tableOk, hn, ?_⟩
  have : find { s with table := b :: s.table } c.val = if keyEq c.val c.val then some b else find s c.val := by
    simp only [find, List.find?_cons, hpi.2.2]
    cases keyEq c.val c.val <;> rfl
  rw [this, hn]
  simp [keyEq]

theorem run_vacant {cfg : Cfg V} (hv : cfg.Valid) {s : State V} (h : SelfReach cfg s) {t : Tid} {th : Thread V} {c sh b}
    (ht : s.threads[t]? = some th) (hpc : th.pc = .newVacant c sh b) (a : Addr) :
    run cfg s t th a = if c.val == c.val then Arc.run cfg s t th a else .ok (dangling s t sh b) := by
  obtain ⟨h1, h2, h3, h4⟩ := lookups hv h ht hpc
  simp only [run, hpc, h1, h2, h3, h4, insert]
  cases c.val == c.val <;> rfl

theorem step_eq {cfg : Cfg V} (hv : cfg.Valid) {s : State V} (h : SelfReach cfg s) {a : Act V} (hs : InsertsSelfEqual s a) :
    step cfg s a = Arc.step cfg s a := by
  cases a with
  | run t a =>
    cases ht : s.threads[t]? with
    | none => simp only [step, Arc.step, ht]
    | some th =>
      simp only [step, Arc.step, ht]
      cases hpc : th.pc
      case newVacant c sh b => rw [run_vacant hv h ht hpc, hs th ht c sh b hpc, if_pos rfl]
      all_goals simp only [run, hpc]
  | _ => rfl

theorem Reach.self {cfg : Cfg V} (hv : cfg.Valid) {s : State V}
    (h : Reach cfg (fun s a => SelfRemove s a ∧ InsertsSelfEqual s a) s) : SelfReach cfg s := by
  induction h with
  | init => exact .init
  | step _ hs hm he hS ih => exact ih.step hs hm.1 ((step_eq hv ih hm.2).symm.trans he) hS

theorem Reach.mono {cfg : Cfg V} {p q : State V → Act V → Prop} (hpq : ∀ s, Reach cfg p s → ∀ a, p s a → q s a) {s : State V}
    (h : Reach cfg p s) : Reach cfg q s := by
  induction h with
  | init => exact .init
  | step h hs hm he hS ih => exact ih.step hs (hpq _ h _ hm) he hS

/-! ### Where the arguments of the running calls come from -/

omit [BEq V] [Hashable V] in
theorem arg_set {s : State V} {l : List (Thread V)} {t : Tid} {th th' : Thread V} (ht : s.threads[t]? = some th) (hl : l = s.threads.set t th')
    {P : V → Prop} (hP : ∀ (t : Tid) (th : Thread V), s.threads[t]? = some th → ∀ v, th.arg = some v → P v)
    (h : ∀ v, th'.arg = some v → th.arg = some v ∨ P v) :
    ∀ (t : Tid) (th : Thread V), l[t]? = some th → ∀ v, th.arg = some v → P v := by
  intro u thu hu v hv
  rw [hl, set_getElem? _ _ _ _ _ ht] at hu
  split at hu
  · injection hu with hu; subst hu
    rcases h v hv with h | h
    · exact hP t th ht v h
    · exact h
  · exact hP u thu hu v hv

/-- All running calls of `new` have an argument with `P`. -/
def Args (P : V → Prop) (s : State V) : Prop := ∀ (t : Tid) (th : Thread V), s.threads[t]? = some th → ∀ v, th.arg = some v → P v

theorem args_run {cfg : Cfg V} {s s' : State V} {P : V → Prop} (hP : Args P s) {t : Tid} {th : Thread V} {a : Addr}
    (ht : s.threads[t]? = some th) (h : Arc.run cfg s t th a = .ok s') : Args P s' := by
  have none' : ∀ {l : List (Thread V)} {th' : Thread V}, l = s.threads.set t th' → th'.arg = none →
      ∀ (t : Tid) (th : Thread V), l[t]? = some th → ∀ v, th.arg = some v → P v := fun hl hn =>
    arg_set ht hl hP fun v hv => by rw [hn] at hv; cases hv
  have same : ∀ {l : List (Thread V)} {th' : Thread V}, l = s.threads.set t th' → th'.arg = th.arg →
      ∀ (t : Tid) (th : Thread V), l[t]? = some th → ∀ v, th.arg = some v → P v := fun hl hn =>
    arg_set ht hl hP fun v hv => .inl (by rw [← hn]; exact hv)
  unfold Args
  cases hpc : th.pc <;> simp only [Arc.run, hpc] at h <;> repeat' split at h
  all_goals
    first
    | (cases h; done)
    | (injection h with h; subst h
       first
       | exact same rfl rfl
       | exact none' (th' := {}) rfl rfl)

theorem args_step {cfg : Cfg V} {s s' : State V} {P : V → Prop} (hP : Args P s) {a : Act V}
    (ha : ∀ t v d, a = .new t v d → P v) (h : Arc.step cfg s a = .ok s') : Args P s' := by
  cases a with
  | run t a =>
    simp only [Arc.step] at h
    cases ht : s.threads[t]? with
    | none => simp only [ht] at h; cases h
    | some th => simp only [ht] at h; exact args_run hP ht h
  | spawn =>
    simp only [Arc.step] at h
    injection h with h; subst h
    intro u thu hu v hv
    simp only [List.getElem?_append] at hu
    split at hu
    · exact hP u thu hu v hv
    · rw [List.getElem?_singleton] at hu
      split at hu
      · injection hu with hu; subst hu; cases hv
      · cases hu
  | new t v d =>
    simp only [Arc.step] at h
    split at h
    · cases h
    · rename_i th ht
      split at h
      · injection h with h; subst h
        refine arg_set (th' := { pc := .newLoop { val := v, dst := d, conv := none }, arg := some v }) ht rfl hP fun w hw => .inr ?_
        injection hw with hw; subst hw
        exact ha t v d rfl
      · cases h
  | clone t path =>
    simp only [Arc.step] at h
    repeat' split at h
    all_goals first | (cases h; done) | (injection h with h; subst h; exact hP)
  | read t path =>
    simp only [Arc.step] at h
    repeat' split at h
    all_goals first | (cases h; done) | (injection h with h; subst h; exact hP)
  | drop t p =>
    simp only [Arc.step] at h
    split at h
    · cases h
    · rename_i th ht
      split at h
      · injection h with h; subst h
        exact arg_set (th' := { pc := .dropSub p }) ht rfl hP fun w hw => nomatch hw
      · cases h
  | len t lo up =>
    simp only [Arc.step] at h
    split at h
    · cases h
    · rename_i th ht
      split at h
      · injection h with h; subst h
        exact arg_set (th' := { pc := .lenScan lo up 0 }) ht rfl hP fun w hw => nomatch hw
      · cases h
  | shrink t lo up =>
    simp only [Arc.step] at h
    split at h
    · cases h
    · rename_i th ht
      split at h
      · injection h with h; subst h
        exact arg_set (th' := { pc := .shrinkScan lo up }) ht rfl hP fun w hw => nomatch hw
      · cases h
  | panic t =>
    simp only [Arc.step] at h
    split at h
    · cases h
    · rename_i th ht
      cases hpc : th.pc <;> simp only [runPanic, hpc] at h <;> repeat' split at h
      case newLoop c =>
        injection h with h; subst h
        exact arg_set (th' := unwindCall cfg c none none) ht rfl hP fun w hw => nomatch hw
      case newEntry c b =>
        injection h with h; subst h
        exact arg_set (th' := { pc := .dropFree b }) ht rfl hP fun w hw => nomatch hw
      case dropRemove b =>
        injection h with h; subst h
        exact arg_set (th' := { th with pc := .idle }) ht rfl hP fun w hw => .inl hw
      all_goals
        first
        | (cases h; done)
        | (injection h with h; subst h
           exact arg_set (th' := { th with pc := .idle }) ht rfl hP fun w hw => .inl hw)
  | panicInsert t =>
    simp only [Arc.step] at h
    split at h
    · cases h
    · rename_i th ht
      cases hpc : th.pc <;> simp only [runPanicInsert, hpc] at h
      case newVacant c sh b =>
        injection h with h; subst h
        exact arg_set (th' := { pc := .dropSub b }) ht rfl hP fun w hw => nomatch hw
      all_goals cases h

/-- Programs that supply only values that equal themselves insert only such values. -/
theorem Reach.supplied {cfg : Cfg V} (hv : cfg.Valid) {may : State V → Act V → Prop} {s : State V}
    (h : Reach cfg (fun s a => may s a ∧ SuppliesSelfEqual a) s) (hm : ∀ s a, SelfReach cfg s → may s a → SelfRemove s a) :
    Reach cfg (fun s a => SelfRemove s a ∧ InsertsSelfEqual s a) s ∧ Args (fun v => (v == v) = true) s := by
  induction h with
  | init => exact ⟨.init, fun t th ht => nomatch ht⟩
  | @step s s' a _ hs hok he hS ih =>
    obtain ⟨ih, hA⟩ := ih
    have hself := ih.self hv
    have hi : InsertsSelfEqual s a := by
      cases a with
      | run t a =>
        intro th ht c sh b hpc
        obtain ⟨home, hw, _⟩ := hself.wild hv
        have hpi := ((hw.inv hv).th t th ht).pc
        rw [hpc] at hpi
        exact hA t th ht c.val hpi.1.1
      | _ => trivial
    refine ⟨ih.step hs ⟨hm s a hself hok.1, hi⟩ he hS, args_step hA ?_ ((step_eq hv hself hi).symm.trans he)⟩
    rintro t v d rfl
    exact hok.2

end Ins
end Arc
