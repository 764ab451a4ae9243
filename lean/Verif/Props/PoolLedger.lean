import Verif.Pool.LedgerFacts
import Verif.Pool.Demo
import Verif.Props.ArcLedger
/-!
C76: every value supplied to `Intern` or `Arena` is stored or destroyed exactly once. Vocabulary (`supplies`, `destroys`, `values`,
`Ledger`) in `Verif/Pool/Ledger.lean`.
-/
namespace Pool
variable {K V : Type} [DecidableEq K]

/-- The answers an honest lookup gives (`Pool.honest` of `Verif/Pool/Chaos.lean`). -/
def honestAnswer [BEq V] [Hashable V] (x : LateState K V) : Act K V → Option Ptr
  | .run t _ => match x.base.threads[t]? with
    | some pc => honest x.base pc
    | none => none
  | _ => none

theorem lateStepWith_honest [BEq V] [Hashable V] (cfg : Cfg K V) (x : LateState K V) (a : Act K V) :
    Answer x.base (honestAnswer x a) a ∧ lateStepWith (honestAnswer x a) cfg x a = lateStep cfg x a := by
  have key : stepWith (honestAnswer x a) cfg x.base a = step cfg x.base a := by
    cases a with
    | run t b =>
      cases hpc : x.base.threads[t]? with
      | none => simp only [stepWith, step, hpc]
      | some pc => simp only [honestAnswer, stepWith, step, hpc, runWith_honest]
    | _ => rfl
  constructor
  · cases a with
    | run t b =>
      intro p hp pc hpc k hk
      rw [Option.mem_def] at hpc
      simp only [honestAnswer, hpc] at hp
      cases pc with
      | inside o =>
        cases o with
        | intern k' q mk => cases hk; exact List.mem_of_find?_eq_some hp
        | query k' q => cases hk; exact List.mem_of_find?_eq_some hp
        | _ => cases hp
      | insert k' q mk p' => cases hk; exact List.mem_of_find?_eq_some hp
      | _ => cases hp
    | _ => trivial
  · cases a with
    | run t b => simp only [lateStepWith, lateStep, key]; rfl
    | panic t => simp only [lateStepWith, lateStep, key]; rfl
    | _ => simp only [lateStepWith, lateStep, key]

/-- The executions of the ledger contain those of the model with the exact order of steps (`Verif/Pool/Late.lean`), whatever `BEq` and
`Hashable` are. -/
theorem C76_all_user_code_covered [BEq V] [Hashable V] {cfg : Cfg K V} (x : LateState K V) (a : Act K V) :
    ∃ found, Answer x.base found a ∧ lateStepWith found cfg x a = lateStep cfg x a :=
  ⟨_, lateStepWith_honest cfg x a⟩

/-- **C76.** At every point of every execution, the values supplied so far are the values destroyed so far and the values in the care of
the library: arguments of running calls and boxes in memory. Nothing is lost, duplicated or destroyed twice. -/
theorem C76_conserved {byVal : Op K V → Bool} {cfg : Cfg K V} (lay : cfg.Layout) {x : LateState K V} {sup des : List (K × V)}
    (h : Ledger byVal cfg x sup des) : sup.Perm (des ++ x.values byVal) := by
  apply Arc.perm_of_countP
  intro f
  induction h with
  | init => rfl
  | step h1 h2 h3 ih =>
    have := Effect.conserves lay (h1.books lay) (lateStepWith_effect (byVal := byVal) h3) f
    simp only [List.countP_append] at ih ⊢
    omega

/-- **C76.** If no value is supplied twice, none is destroyed twice, and no value that was destroyed is still in memory. -/
theorem C76_at_most_once {byVal : Op K V → Bool} {cfg : Cfg K V} (lay : cfg.Layout) {x : LateState K V} {sup des : List (K × V)}
    (h : Ledger byVal cfg x sup des) (hn : sup.Nodup) :
    des.Nodup ∧ (∀ o ∈ x.base.heap, (o.pool, o.val) ∉ des) ∧ (x.base.heap.map fun o => (o.pool, o.val)).Nodup := by
  have hp := (C76_conserved lay h).nodup_iff.mp hn
  have hd := List.nodup_append.mp hp
  have h2 : (x.base.heap.map Obj.kv).Nodup := (List.nodup_append.mp hd.2.1).2.1
  refine ⟨hd.1, fun o ho hdes => ?_, h2⟩
  exact hd.2.2 _ hdes o.kv (List.mem_append_right _ (List.mem_map_of_mem ho)) rfl

/-- What has become of the argument of a call that has decided to return `r`. -/
def Settled (byVal : Op K V → Bool) (x : LateState K V) (des : List (K × V)) (o : Op K V) (r : Ret) : Prop :=
  ∀ k q v, o = .intern k q v → byVal o = true → (k, v) ∈ des ∨ ∃ p, r = .ptr p ∧ ⟨k, p, v⟩ ∈ x.base.heap

theorem Settled.mono {byVal : Op K V → Bool} {cfg : Cfg K V} (lay : cfg.Layout) {x x' : LateState K V} {sup des des' : List (K × V)}
    (B : Books cfg x) (he : Effect byVal cfg x x' sup des) {o : Op K V} {r : Ret} (h : Settled byVal x des' o r) :
    Settled byVal x' (des ++ des') o r := by
  intro k q v ho hb
  rcases h k q v ho hb with h | ⟨p, hr, h⟩
  · exact .inl (List.mem_append_right _ h)
  · rcases he.box lay B h with h | h
    · exact .inr ⟨p, hr, h⟩
    · exact .inl (List.mem_append_left _ h)

theorem settled_of_arg {byVal : Op K V → Bool} {x : LateState K V} {des des' : List (K × V)} {o : Op K V} {r : Ret}
    (h : ∀ y ∈ o.arg byVal, y ∈ des) : Settled byVal x (des ++ des') o r := by
  intro k q v ho hb
  subst ho
  exact .inl (List.mem_append_left _ (h _ (by simp [Op.arg, hb])))

theorem Ledger.settled {byVal : Op K V → Bool} {cfg : Cfg K V} (lay : cfg.Layout) {x : LateState K V} {sup des : List (K × V)}
    (h : Ledger byVal cfg x sup des) : (∀ e ∈ x.base.done, Settled byVal x des e.op e.ret) ∧
      ∀ o r, Pc.leave o r ∈ x.base.threads → Settled byVal x des o r := by
  induction h with
  | init => exact ⟨(fun e he => nomatch he), (fun o r h => nomatch h)⟩
  | @step x x' sup des a found h1 h2 h3 ih =>
    have B := h1.books lay
    have E := lateStepWith_effect (byVal := byVal) h3
    have mono : ∀ {o : Op K V} {r : Ret}, Settled byVal x des o r →
        Settled byVal x' (destroys byVal found cfg x a ++ des) o r := fun h => h.mono lay B E
    generalize hds : destroys byVal found cfg x a = ds at E mono
    generalize supplies byVal x a = sp at E
    have keep : ∀ {t : Tid} {pc pc' : Pc K V}, x.base.threads[t]? = some pc → x'.base.threads = x.base.threads.set t pc' →
        (∀ o r, pc' = .leave o r → Settled byVal x' (ds ++ des) o r) →
        ∀ o r, Pc.leave o r ∈ x'.base.threads → Settled byVal x' (ds ++ des) o r := by
      intro t pc pc' ht hth hn o r hm
      rw [hth] at hm
      rcases mem_set_cases ht hm with e | ⟨u, _, hu⟩
      · exact hn o r e.symm
      · exact mono (ih.2 o r (List.mem_of_getElem? hu))
    cases E with
    | same hx _ _ => subst hx; exact ⟨fun e he => mono (ih.1 e he), fun o r hm => mono (ih.2 o r hm)⟩
    | spawn hx _ _ =>
      subst hx
      refine ⟨fun e he => mono (ih.1 e he), fun o r hm => ?_⟩
      rcases List.mem_append.mp hm with hm | hm
      · exact mono (ih.2 o r hm)
      · simp at hm
    | move t pc pc' ht h1 h2 hth hheap htab hgone hlate hpool hacc hdone hleave =>
      refine ⟨fun e he => ?_, keep ht hth fun o r e => settled_of_arg (hleave o r e)⟩
      rcases hdone e he with he | he
      · exact mono (ih.1 e he)
      · exact mono (ih.2 e.op e.ret (he ▸ List.mem_of_getElem? ht))
    | alloc t k q v p ht hx hi hz ha hsup hdes =>
      subst hx
      exact ⟨fun e he => mono (ih.1 e he), keep ht rfl fun o r e => nomatch e⟩
    | link t k q v p ht hx hsup hdes =>
      subst hx
      refine ⟨fun e he => mono (ih.1 e he), keep ht rfl fun o r e => ?_⟩
      cases e
      intro k' q' v' ho _
      cases ho
      exact .inr ⟨p, rfl, B.ins k q v p (List.mem_of_getElem? ht)⟩
    | toss t k q v p pc' ht hpc hth hheap htab hgone hlate hdone hsup hdes =>
      refine ⟨fun e he => mono (ih.1 e (hdone ▸ he)), keep ht hth fun o r e => ?_⟩
      rcases hpc with rfl | rfl
      · cases e
      · cases e
        intro k' q' v' ho _
        cases ho
        have hin := B.ins k q v p (List.mem_of_getElem? ht)
        by_cases hk : cfg.owns k = true
        · rw [if_pos hk] at hdes
          exact .inl (List.mem_append_left _ (by rw [hdes]; exact List.mem_cons_self))
        · rw [if_neg hk] at hheap
          exact .inr ⟨p, rfl, by rw [hheap]; exact hin⟩
    | push t k q v p ht hx hsup hdes =>
      subst hx
      exact ⟨fun e he => mono (ih.1 e he), keep ht rfl fun o r e => nomatch e⟩
    | pop t e hf hlate hbase hsup hdes =>
      obtain ⟨d, hb, hd⟩ := hbase
      refine ⟨fun e' he' => ?_, fun o r hm => mono (ih.2 o r (by rw [hb] at hm; exact hm))⟩
      rw [hb] at he'
      rcases hd e' he' with h | rfl
      · exact mono (ih.1 e' h)
      · exact settled_of_arg (by rw [hdes]; exact fun y hy => hy)
    | dropArena k hok hk hl hidle hx hsup hdes =>
      subst hx
      exact ⟨fun e he => mono (ih.1 e he), fun o r hm => mono (ih.2 o r hm)⟩

/-- **C76.** When a call that took its argument by value has returned, the argument has been destroyed or it is the value behind the
returned handle. -/
theorem C76_returned {byVal : Op K V → Bool} {cfg : Cfg K V} (lay : cfg.Layout) {x : LateState K V} {sup des : List (K × V)}
    (h : Ledger byVal cfg x sup des) {e : Entry K V} (he : e ∈ x.base.done) {k : K} {q : Query V} {v : V}
    (hop : e.op = .intern k q v) (hb : byVal e.op = true) :
    (k, v) ∈ des ∨ ∃ p, e.ret = .ptr p ∧ deref x.base k p = some v := by
  rcases (h.settled lay).1 e he k q v hop hb with h' | ⟨p, hr, hm⟩
  · exact .inl h'
  · refine .inr ⟨p, hr, ?_⟩
    cases hf : x.base.heap.find? (Obj.is k p) with
    | none =>
      exact absurd (Obj.is_iff.mpr ⟨rfl, rfl⟩) (List.find?_eq_none.mp hf _ hm)
    | some o =>
      obtain ⟨h1, h2⟩ := Obj.is_iff.mp (List.find?_some hf)
      have := (h.books lay).same lay (List.mem_of_find?_eq_some hf) hm h1 h2
      rw [deref, hf, this]; rfl

/-- The values of an arena's boxes are those of the elements of its set, if no call is running on it. -/
theorem Books.elements {cfg : Cfg K V} (lay : cfg.Layout) {x : LateState K V} (B : Books cfg x) {k : K} (hk : cfg.owns k = true)
    (hi : ∀ pc ∈ x.base.threads, pc.pool? ≠ some k) :
    ((x.base.heap.map Obj.kv).filter fun y => decide (y.1 = k)).Perm
      (((x.base.table k).filterMap (deref x.base k)).map fun v => (k, v)) := by
  apply Arc.perm_of_countP
  intro f
  have hno : ∀ p, x.base.threads.countP (Pc.isInsert k p) = 0 := by
    intro p
    rw [List.countP_eq_zero]
    intro pc hm hi'
    obtain ⟨q, v, rfl⟩ := isInsert_iff.mp hi'
    exact hi _ hm rfl
  have hcnt : ∀ p, x.base.heap.countP (Obj.is k p) = (x.base.table k).count p := by
    intro p; rw [B.owned k hk p, hno]; rfl
  have h1 := countP_freeAll (fun y => f y && decide (y.1 = k)) k (deref x.base k) (x.base.table k) x.base.heap
    (fun p => by rw [hcnt]; omega) (fun o ho hok => by
      cases hf : x.base.heap.find? (Obj.is k o.ptr) with
      | none =>
        have := List.find?_eq_none.mp hf o ho
        rw [Obj.is_iff.mpr ⟨hok, rfl⟩] at this
        exact absurd rfl this
      | some o' =>
        obtain ⟨h2, h3⟩ := Obj.is_iff.mp (List.find?_some hf)
        have := B.same lay (List.mem_of_find?_eq_some hf) ho (h2.trans hok.symm) h3
        rw [deref, hf, this]; rfl)
  have h2 : (((x.base.table k).foldl (fun h p => free h k p) x.base.heap).map Obj.kv).countP
      (fun y => f y && decide (y.1 = k)) = 0 := by
    rw [List.countP_eq_zero]
    intro y hy hf
    obtain ⟨o, ho, rfl⟩ := List.mem_map.mp hy
    simp only [Bool.and_eq_true, decide_eq_true_eq] at hf
    have := foldl_free_count_any k _ _ hcnt o.ptr
    rw [List.countP_eq_zero] at this
    exact this o ho (Obj.is_iff.mpr ⟨hf.2, rfl⟩)
  rw [h2] at h1
  rw [List.countP_filter]
  have h3 : (((x.base.table k).filterMap (deref x.base k)).map fun v => (k, v)).countP (fun y => f y && decide (y.1 = k)) =
      (((x.base.table k).filterMap (deref x.base k)).map fun v => (k, v)).countP f := by
    apply List.countP_congr
    intro y hy
    obtain ⟨v, _, rfl⟩ := List.mem_map.mp hy
    simp
  omega

theorem filter_values {byVal : Op K V → Bool} {x : LateState K V} {k : K}
    (hi : ∀ pc ∈ x.base.threads, pc.pool? ≠ some k) (hl : ∀ e ∈ x.late, e.op.pool ≠ k) :
    (x.values byVal).filter (fun y => decide (y.1 = k)) = (x.base.heap.map Obj.kv).filter fun y => decide (y.1 = k) := by
  have h1 : (x.base.threads.flatMap (Pc.arg byVal)).filter (fun y => decide (y.1 = k)) = [] := by
    rw [List.filter_eq_nil_iff]
    intro y hy he
    obtain ⟨pc, hpc, hy⟩ := List.mem_flatMap.mp hy
    simp only [decide_eq_true_eq] at he
    apply hi pc hpc
    cases pc with
    | want o => exact congrArg some ((Op.arg_pool hy).symm.trans he)
    | inside o => exact congrArg some ((Op.arg_pool hy).symm.trans he)
    | build k' q v => exact congrArg some ((Op.arg_pool (o := .intern k' q v) hy).symm.trans he)
    | dropArg k' q v p => exact congrArg some ((Op.arg_pool (o := .intern k' q v) hy).symm.trans he)
    | _ => cases hy
  have h2 : (x.late.flatMap fun e => e.op.arg byVal).filter (fun y => decide (y.1 = k)) = [] := by
    rw [List.filter_eq_nil_iff]
    intro y hy he
    obtain ⟨e, hm, hy⟩ := List.mem_flatMap.mp hy
    simp only [decide_eq_true_eq] at he
    exact hl e hm ((Op.arg_pool hy).symm.trans he)
  rw [LateState.values, List.filter_append, List.filter_append, h1, h2]
  rfl

/-- **C76.** When no call is running on an arena, the values supplied to it are those destroyed and the elements of its set. -/
theorem C76_arena_quiescent {byVal : Op K V → Bool} {cfg : Cfg K V} (lay : cfg.Layout) {x : LateState K V} {sup des : List (K × V)}
    (h : Ledger byVal cfg x sup des) {k : K} (hk : cfg.owns k = true) (hi : ∀ pc ∈ x.base.threads, pc.pool? ≠ some k)
    (hl : ∀ e ∈ x.late, e.op.pool ≠ k) :
    (sup.filter fun y => decide (y.1 = k)).Perm
      ((des.filter fun y => decide (y.1 = k)) ++ ((x.base.table k).filterMap (deref x.base k)).map fun v => (k, v)) := by
  have h1 := (C76_conserved lay h).filter fun y => decide (y.1 = k)
  rw [List.filter_append, filter_values hi hl] at h1
  exact h1.trans (List.Perm.append_left _ ((h.books lay).elements lay hk hi))

/-- **C76.** When an arena has been dropped, every value supplied to it has been destroyed, and as often as it was supplied. -/
theorem C76_arena_dropped {byVal : Op K V → Bool} {cfg : Cfg K V} (lay : cfg.Layout) {x : LateState K V} {sup des : List (K × V)}
    (h : Ledger byVal cfg x sup des) {k : K} (hk : k ∈ x.base.gone) :
    (sup.filter fun y => decide (y.1 = k)).Perm (des.filter fun y => decide (y.1 = k)) := by
  obtain ⟨g1, g2, g3, g4⟩ := (h.books lay).gone k hk
  have := C76_arena_quiescent lay h g1 g3 g4
  rw [g2] at this
  simpa using this

/-- **C76.** When no call is running at all, the values supplied are those destroyed and those in memory. -/
theorem C76_quiescent {byVal : Op K V → Bool} {cfg : Cfg K V} (lay : cfg.Layout) {x : LateState K V} {sup des : List (K × V)}
    (h : Ledger byVal cfg x sup des) (hi : ∀ pc ∈ x.base.threads, pc = .idle) (hl : x.late = []) :
    sup.Perm (des ++ x.base.heap.map fun o => (o.pool, o.val)) := by
  have h1 := C76_conserved lay h
  have h2 : x.base.threads.flatMap (Pc.arg byVal) = [] := by
    rw [List.flatMap_eq_nil_iff]
    intro pc hpc
    rw [hi pc hpc]; rfl
  rw [LateState.values, h2, hl] at h1
  exact h1

/-- **C76 (`Intern`).** No step destroys a value that was put into memory for an `Intern` pool. -/
theorem C76_intern_kept {cfg : Cfg K V} {x x' : LateState K V} {a : Act K V} {found : Option Ptr}
    (h : lateStepWith found cfg x a = .ok x') {o : Obj K V} (ho : o ∈ x.base.heap) (hk : cfg.owns o.pool = false) :
    o ∈ x'.base.heap := by
  cases lateStepWith_effect (byVal := fun _ => false) h with
  | same hx h1 h2 => exact hx ▸ ho
  | spawn hx h1 h2 => exact hx ▸ ho
  | move t pc pc' ht h1 h2 hth hheap htab hgone hlate hpool hacc hdone hleave => exact hheap ▸ ho
  | alloc t k q v p ht hx hi hz ha hsup hdes => subst hx; exact List.mem_cons_of_mem _ ho
  | link t k q v p ht hx hsup hdes => subst hx; exact ho
  | toss t k q v p pc' ht hpc hth hheap htab hgone hlate hdone hsup hdes =>
    rw [hheap]
    split
    · rename_i hok
      rcases mem_free_or (k := k) (p := p) ho with h | h
      · exact h
      · rw [(Obj.is_iff.mp h).1, hok] at hk; cases hk
    · exact ho
  | push t k q v p ht hx hsup hdes => subst hx; exact ho
  | pop t e hf hlate hbase hsup hdes =>
    obtain ⟨d, hb, _⟩ := hbase
    rw [hb]; exact ho
  | dropArena k hok hk' hl hidle hx hsup hdes =>
    subst hx
    have e : o.pool ≠ k := by rintro rfl; rw [hok] at hk; cases hk
    have h1 : o ∈ x.base.heap.filter (fun o => decide (o.pool ≠ k)) := List.mem_filter.mpr ⟨ho, by simpa using e⟩
    rw [← foldl_free_rest k (x.base.table k)] at h1
    exact (List.mem_filter.mp h1).1

/-! ### Non-vacuity -/
namespace Demo

def answerOk (x : LateState Nat Val) (found : Option Ptr) (t : Tid) : Bool := match found with
  | none => true
  | some p => match x.base.threads[t]? with
    | some pc => match pc.pool? with
      | some k => (x.base.table k).contains p
      | none => true
    | none => true

def lookupOk (x : LateState Nat Val) (found : Option Ptr) : Cmd → Bool
  | .run t _ => answerOk x found t
  | _ => true

/-- Run a script, each command with the answer of the lookup, collecting the ledger. -/
def books (byVal : Op Nat Val → Bool) (x : LateState Nat Val) (sup des : List (Nat × Val)) :
    List (Option Ptr × Cmd) → Option (LateState Nat Val × List (Nat × Val) × List (Nat × Val))
  | [] => some (x, sup, des)
  | (found, c) :: l =>
    if lookupOk x found c then
      match lateStepWith found cfg x (Cmd.act c) with
      | .ok x' => books byVal x' (supplies byVal x (Cmd.act c) ++ sup) (destroys byVal found cfg x (Cmd.act c) ++ des) l
      | _ => none
    else none

theorem books_ok {byVal : Op Nat Val → Bool} : ∀ (l : List (Option Ptr × Cmd)) {x y : LateState Nat Val}
    {sup des sup' des' : List (Nat × Val)}, Ledger byVal cfg x sup des → books byVal x sup des l = some (y, sup', des') →
    Ledger byVal cfg y sup' des'
  | [], x, y, sup, des, sup', des', h, e => by cases e; exact h
  | (found, c) :: l, x, y, sup, des, sup', des', h, e => by
    simp only [books] at e
    split at e
    · rename_i hok
      split at e
      · rename_i x' hs
        refine books_ok l (.step h ?_ hs) e
        cases c with
        | run t a =>
          intro p hp pc hpc k hk
          cases hp
          simp only [lookupOk, answerOk, Option.mem_def.mp hpc, Option.mem_def.mp hk] at hok
          exact List.contains_iff_mem.mp hok
        | _ => trivial
      · cases e
    · cases e

/-- Calls on odd classes take a reference. -/
def byVal : Op Nat Val → Bool
  | .intern _ _ v => v.cls % 2 = 0
  | _ => false

def plain (l : List Cmd) : List (Option Ptr × Cmd) := l.map fun c => (none, c)

/-- `Intern` pool 0: a miss by value, a hit by value, a miss by reference, a hit by reference. Arena 2: a miss and a hit by value, a
lookup that lies so that the box made after it is thrown away by the second one, a call whose construction panics; then the arena is
dropped. A destructor panics on the way. -/
def ledgerScript : List (Option Ptr × Cmd) :=
  plain ([.spawn, .spawn] ++ miss 0 0 ⟨4, 1⟩ 1000) ++
  [(none, .new 0 0 ⟨4, 2⟩), (none, .run 0 0), (some ⟨1000, 0⟩, .run 0 0), (none, .run 0 0), (none, .run 0 0)] ++
  plain (miss 1 0 ⟨5, 1⟩ 2000) ++
  [(none, .new 0 0 ⟨5, 2⟩), (none, .run 0 0), (some ⟨2000, 0⟩, .run 0 0), (none, .run 0 0), (none, .run 0 0)] ++
  plain (miss 0 2 ⟨6, 1⟩ 3000) ++
  [(none, .new 0 2 ⟨6, 2⟩), (none, .run 0 0), (some ⟨3000, 0⟩, .run 0 0), (none, .run 0 0), (none, .run 0 0)] ++
  [(none, .new 1 2 ⟨6, 3⟩), (none, .run 1 0), (some ⟨3000, 0⟩, .run 1 0), (none, .run 1 0), (none, .panic 1)] ++
  [(none, .new 1 2 ⟨8, 1⟩), (none, .run 1 0), (none, .run 1 0), (none, .run 1 4000), (some ⟨3000, 0⟩, .run 1 0), (none, .run 1 0)] ++
  [(none, .new 1 2 ⟨8, 2⟩), (none, .run 1 0), (none, .run 1 0), (none, .panic 1)]

def ledgerSup : List (Nat × Val) :=
  [(2, ⟨8, 2⟩), (2, ⟨8, 1⟩), (2, ⟨6, 3⟩), (2, ⟨6, 2⟩), (2, ⟨6, 1⟩), (0, ⟨5, 1⟩), (0, ⟨4, 2⟩), (0, ⟨4, 1⟩)]

example : ∃ x, Ledger byVal cfg x ledgerSup [(2, ⟨8, 2⟩), (2, ⟨8, 1⟩), (2, ⟨6, 3⟩), (2, ⟨6, 2⟩), (0, ⟨4, 2⟩)] ∧
    x.base.heap.map Obj.kv = [(2, ⟨6, 1⟩), (0, ⟨5, 1⟩), (0, ⟨4, 1⟩)] ∧ x.base.done.length = 7 ∧ ledgerSup.Nodup ∧
    (∀ pc ∈ x.base.threads, pc.pool? = none) ∧ x.late.length = 0 := by
  have h : ∃ x, books byVal lateInit [] [] ledgerScript =
      some (x, ledgerSup, [(2, ⟨8, 2⟩), (2, ⟨8, 1⟩), (2, ⟨6, 3⟩), (2, ⟨6, 2⟩), (0, ⟨4, 2⟩)]) ∧
      x.base.heap.map Obj.kv = [(2, ⟨6, 1⟩), (0, ⟨5, 1⟩), (0, ⟨4, 1⟩)] ∧ x.base.done.length = 7 ∧
      (∀ pc ∈ x.base.threads, pc.pool? = none) ∧ x.late.length = 0 := by
    refine ⟨_, rfl, by decide, by decide, by decide, by decide⟩
  obtain ⟨x, h1, h2, h3, h4, h5⟩ := h
  exact ⟨x, books_ok _ .init h1, h2, h3, by decide, h4, h5⟩

/-- The same with the arena dropped in the end. -/
example : ∃ x, Ledger byVal cfg x ledgerSup
    [(2, ⟨6, 1⟩), (2, ⟨8, 2⟩), (2, ⟨8, 1⟩), (2, ⟨6, 3⟩), (2, ⟨6, 2⟩), (0, ⟨4, 2⟩)] ∧ 2 ∈ x.base.gone := by
  have h : ∃ x, books byVal lateInit [] [] (ledgerScript ++ [(none, .dropArena 2)]) =
      some (x, ledgerSup, [(2, ⟨6, 1⟩), (2, ⟨8, 2⟩), (2, ⟨8, 1⟩), (2, ⟨6, 3⟩), (2, ⟨6, 2⟩), (0, ⟨4, 2⟩)]) ∧ 2 ∈ x.base.gone := by
    refine ⟨_, rfl, by decide⟩
  obtain ⟨x, h1, h2⟩ := h
  exact ⟨x, books_ok _ .init h1, h2⟩

end Demo
end Pool
