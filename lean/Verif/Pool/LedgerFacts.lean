import Verif.Pool.Ledger
import Verif.Pool.Step3
/-! Book-keeping of the values given to `Intern` and `Arena` (C76): what each kind of step does. -/
namespace Pool
variable {K V : Type} [DecidableEq K]

/-! ### Lists -/

theorem countP_args_set {α β : Type} (g : β → List α) (f : α → Bool) :
    ∀ (l : List β) (t : Nat) (x y : β), l[t]? = some x →
    ((l.set t y).flatMap g).countP f + (g x).countP f = (l.flatMap g).countP f + (g y).countP f
  | [], t, x, y, h => by simp at h
  | z :: l, 0, x, y, h => by
    simp only [List.getElem?_cons_zero, Option.some.injEq] at h
    subst h; simp only [List.set_cons_zero, List.flatMap_cons, List.countP_append]; omega
  | z :: l, t + 1, x, y, h => by
    simp only [List.getElem?_cons_succ] at h
    have := countP_args_set g f l t x y h
    simp only [List.set_cons_succ, List.flatMap_cons, List.countP_append]; omega

theorem countP_args_eraseP {α β : Type} (g : β → List α) (f : α → Bool) (P : β → Bool) :
    ∀ (l : List β) (e : β), l.find? P = some e →
    ((l.eraseP P).flatMap g).countP f + (g e).countP f = (l.flatMap g).countP f
  | [], e, h => by simp at h
  | z :: l, e, h => by
    rw [List.find?_cons] at h
    rw [List.eraseP_cons]
    cases hz : P z with
    | true =>
      rw [hz] at h
      injection h with h
      subst h
      simp only [cond_true, List.flatMap_cons, List.countP_append]; omega
    | false =>
      rw [hz] at h
      have := countP_args_eraseP g f P l e h
      simp only [cond_false, List.flatMap_cons, List.countP_append]; omega

/-- What freeing a box takes away. -/
theorem kv_free (f : K × V → Bool) (k : K) (p : Ptr) (v : V) : ∀ (h : List (Obj K V)), 0 < h.countP (Obj.is k p) →
    (∀ o ∈ h, o.is k p = true → o.val = v) →
    ((free h k p).map Obj.kv).countP f + [(k, v)].countP f = (h.map Obj.kv).countP f
  | [], h0, _ => by simp at h0
  | o :: h, h0, hv => by
    unfold free
    rw [List.eraseP_cons]
    cases ho : Obj.is k p o with
    | true =>
      have h1 := hv o List.mem_cons_self ho
      have h2 : o.pool = k := by simp only [Obj.is, decide_eq_true_eq] at ho; exact ho.1
      have e : o.kv = (k, v) := by rw [Obj.kv, h1, h2]
      simp only [cond_true, List.map_cons, List.countP_cons, e, List.countP_nil]; omega
    | false =>
      rw [List.countP_cons, ho] at h0
      have := kv_free f k p v h (by simpa using h0) (fun o ho => hv o (List.mem_cons_of_mem _ ho))
      unfold free at this
      simp only [cond_false, List.map_cons, List.countP_cons] at this ⊢; omega

theorem mem_free_or {h : List (Obj K V)} {k : K} {p : Ptr} {o : Obj K V} (ho : o ∈ h) : o ∈ free h k p ∨ o.is k p = true := by
  cases hi : o.is k p with
  | true => exact .inr rfl
  | false => exact .inl ((List.mem_eraseP_of_neg (by simp [hi])).mpr ho)

/-! ### Kinds of steps -/

/-- What a step does, in terms of memory, sets, threads and the ledger. -/
inductive Effect (byVal : Op K V → Bool) (cfg : Cfg K V) (x x' : LateState K V) (sup des : List (K × V)) : Prop where
  | same : x' = x → sup = [] → des = [] → Effect byVal cfg x x' sup des
  | spawn : x' = { x with base := { x.base with threads := x.base.threads ++ [.idle] } } → sup = [] → des = [] →
      Effect byVal cfg x x' sup des
  /-- Only the program counter of one thread changes. -/
  | move (t : Tid) (pc pc' : Pc K V) (ht : x.base.threads[t]? = some pc) (h1 : ∀ k p, pc.isInsert k p = false)
      (h2 : ∀ k p, pc'.isInsert k p = false) (hth : x'.base.threads = x.base.threads.set t pc')
      (hheap : x'.base.heap = x.base.heap) (htab : ∀ k, cfg.owns k = true → x'.base.table k = x.base.table k)
      (hgone : x'.base.gone = x.base.gone) (hlate : x'.late = x.late)
      (hpool : ∀ k, pc'.pool? = some k → pc.pool? = some k ∨ k ∉ x.base.gone)
      (hacc : ∀ f, (pc'.arg byVal).countP f + des.countP f = (pc.arg byVal).countP f + sup.countP f)
      (hdone : ∀ e ∈ x'.base.done, e ∈ x.base.done ∨ pc = .leave e.op e.ret)
      (hleave : ∀ o r, pc' = .leave o r → ∀ y ∈ o.arg byVal, y ∈ des) : Effect byVal cfg x x' sup des
  | alloc (t : Tid) (k : K) (q : Query V) (v : V) (p : Ptr) (ht : x.base.threads[t]? = some (.build k q v))
      (hx : x' = { x with base := { x.base with heap := ⟨k, p, v⟩ :: x.base.heap }.at t (.insert k q v p) })
      (hi : p.info = cfg.info k v) (hz : cfg.zst k v = true → p.addr = cfg.dangle k v)
      (ha : cfg.zst k v = false → ∀ o ∈ x.base.heap, cfg.zst o.pool o.val = false → p.addr ≠ o.ptr.addr)
      (hsup : sup = if byVal (.intern k q v) then [] else [(k, v)]) (hdes : des = []) : Effect byVal cfg x x' sup des
  | link (t : Tid) (k : K) (q : Query V) (v : V) (p : Ptr) (ht : x.base.threads[t]? = some (.insert k q v p))
      (hx : x' = { x with base := (x.base.setTable k (p :: x.base.table k)).commit t (.intern k q v) (.ptr p) })
      (hsup : sup = []) (hdes : des = []) : Effect byVal cfg x x' sup des
  /-- A new box is not inserted after all. -/
  | toss (t : Tid) (k : K) (q : Query V) (v : V) (p : Ptr) (pc' : Pc K V) (ht : x.base.threads[t]? = some (.insert k q v p))
      (hpc : pc' = .idle ∨ pc' = .leave (.intern k q v) (.ptr p))
      (hth : x'.base.threads = x.base.threads.set t pc')
      (hheap : x'.base.heap = if cfg.owns k then free x.base.heap k p else x.base.heap) (htab : x'.base.table = x.base.table)
      (hgone : x'.base.gone = x.base.gone) (hlate : x'.late = x.late) (hdone : x'.base.done = x.base.done)
      (hsup : sup = []) (hdes : des = if cfg.owns k then [(k, v)] else []) : Effect byVal cfg x x' sup des
  | push (t : Tid) (k : K) (q : Query V) (v : V) (p : Ptr) (ht : x.base.threads[t]? = some (.dropArg k q v p))
      (hx : x' = { base := { (x.base.unlock (cfg.lockOf k)).at t .idle with
                             log := { tid := t, op := .intern k q v, ret := .ptr p } :: x.base.log },
                   late := { tid := t, op := .intern k q v, ret := .ptr p } :: x.late })
      (hsup : sup = []) (hdes : des = []) : Effect byVal cfg x x' sup des
  | pop (t : Tid) (e : Entry K V) (hf : x.late.find? (fun e => decide (e.tid = t)) = some e)
      (hlate : x'.late = x.late.eraseP (fun e => decide (e.tid = t)))
      (hbase : ∃ d, x'.base = x.base.withDone d ∧ ∀ e' ∈ d, e' ∈ x.base.done ∨ e' = e)
      (hsup : sup = []) (hdes : des = e.op.arg byVal) : Effect byVal cfg x x' sup des
  | dropArena (k : K) (ho : cfg.owns k = true) (hk : k ∉ x.base.gone) (hl : ∀ e ∈ x.late, e.op.pool ≠ k)
      (hidle : ∀ pc ∈ x.base.threads, pc.pool? ≠ some k)
      (hx : x' = { x with base := { (x.base.setTable k []) with
        heap := (x.base.table k).foldl (fun h p => free h k p) x.base.heap, gone := k :: x.base.gone } })
      (hsup : sup = []) (hdes : des = ((x.base.table k).filterMap (deref x.base k)).map fun v => (k, v)) :
      Effect byVal cfg x x' sup des

theorem Op.arg_pool {byVal : Op K V → Bool} {o : Op K V} {y : K × V} (h : y ∈ o.arg byVal) : y.1 = o.pool := by
  cases o with
  | intern k q v =>
    simp only [Op.arg] at h
    split at h
    · simp only [List.mem_singleton] at h; subst h; rfl
    · cases h
  | _ => cases h

/-- Every step is of one of these kinds. -/
theorem lateStepWith_effect {byVal : Op K V → Bool} {cfg : Cfg K V} {x x' : LateState K V} {a : Act K V} {found : Option Ptr}
    (h : lateStepWith found cfg x a = .ok x') :
    Effect byVal cfg x x' (supplies byVal x a) (destroys byVal found cfg x a) := by
  cases a with
  | spawn =>
    obtain ⟨s, h1, rfl⟩ := lift_ok (x := x) (r := stepWith found cfg x.base .spawn) h
    cases h1
    exact .spawn rfl rfl rfl
  | read k p =>
    obtain ⟨s, h1, rfl⟩ := lift_ok (x := x) (r := stepWith found cfg x.base (.read k p)) h
    simp only [stepWith] at h1
    split at h1
    · cases h1; exact .same rfl rfl rfl
    · cases h1
  | call t o =>
    obtain ⟨s, h1, rfl⟩ := lift_ok (x := x) (r := stepWith found cfg x.base (.call t o)) h
    simp only [stepWith] at h1
    split at h1
    · rename_i ht
      split at h1
      · cases h1
      · rename_i hg
        cases h1
        refine .move t .idle (.want o) ht (fun _ _ => rfl) (fun _ _ => rfl) rfl rfl (fun _ _ => rfl) rfl rfl ?_ ?_
          (fun e he => .inl he) ?_
        · intro k hk
          cases hk
          exact .inr hg
        · intro f
          simp only [supplies, destroys, Pc.arg, List.countP_nil]; omega
        · intro o r e; cases e
    · cases h1
  | dropArena k =>
    simp only [lateStepWith] at h
    split at h
    · cases h
    · rename_i hl
      obtain ⟨s, h1, rfl⟩ := lift_ok h
      simp only [stepWith] at h1
      split at h1
      · rename_i hc
        simp only [Bool.and_eq_true, Bool.not_eq_true', decide_eq_false_iff_not, List.all_eq_true, decide_eq_true_eq] at hc
        cases h1
        refine .dropArena k hc.1.1 hc.1.2 ?_ hc.2 rfl rfl rfl
        intro e he hp
        apply hl
        rw [List.any_eq_true]
        exact ⟨e, he, by simpa using hp⟩
      · cases h1
  | panic t =>
    simp only [lateStepWith] at h
    have base : ∀ pc, x.base.threads[t]? = some pc → pc ≠ .idle → (∀ k q v p, pc = .dropArg k q v p → cfg.owns k = false) →
        x.lift (stepWith found cfg x.base (.panic t)) = .ok x' →
        Effect byVal cfg x x' (supplies byVal x (.panic t)) (destroys byVal found cfg x (.panic t)) := by
      intro pc ht hni hda h
      obtain ⟨s, h1, rfl⟩ := lift_ok h
      simp only [stepWith, ht] at h1
      have mv : (∀ k p, pc.isInsert k p = false) → destroys byVal found cfg x (.panic t) = pc.arg byVal →
          s.threads = x.base.threads.set t .idle → s.heap = x.base.heap → s.table = x.base.table → s.gone = x.base.gone →
          s.done = x.base.done →
          Effect byVal cfg x { x with base := s } (supplies byVal x (.panic t)) (destroys byVal found cfg x (.panic t)) := by
        intro h1 h2 e1 e2 e3 e4 e5
        refine .move t pc .idle ht h1 (fun _ _ => rfl) e1 e2 (fun _ _ => by rw [e3]) e4 rfl (fun k hk => by cases hk) ?_
          (fun e he => .inl (e5 ▸ he)) (fun o r e => by cases e)
        intro f
        rw [h2]
        simp only [supplies, Pc.arg, List.countP_nil]; omega
      cases pc with
      | idle => exact absurd rfl hni
      | want o => cases h1
      | inside o =>
        cases h1
        exact mv (fun _ _ => rfl) (by simp only [destroys, ht]) rfl rfl rfl rfl rfl
      | build k q v =>
        cases h1
        exact mv (fun _ _ => rfl) (by simp only [destroys, ht]) rfl rfl rfl rfl rfl
      | insert k q v p =>
        cases h1
        exact .toss t k q v p .idle ht (.inl rfl) rfl rfl rfl rfl rfl rfl rfl (by simp only [destroys, ht])
      | dropArg k q v p =>
        cases h1
        exact mv (fun _ _ => rfl) (by simp only [destroys, ht]) rfl rfl rfl rfl rfl
      | leave o r => cases h1
    cases ht : x.base.threads[t]? with
    | none =>
      simp only [ht] at h
      obtain ⟨s, h1, rfl⟩ := lift_ok h
      simp only [stepWith, ht] at h1
      cases h1
    | some pc =>
      simp only [ht] at h
      cases pc with
      | idle =>
        simp only at h
        split at h
        · rename_i e hf
          cases h
          exact .pop t e hf rfl ⟨x.base.done, rfl, fun e' he => .inl he⟩ rfl (by simp only [destroys, ht, hf])
        · cases h
      | dropArg k q v p =>
        simp only at h
        split at h
        · cases h
        · rename_i hk
          exact base _ ht (by simp) (fun k' q' v' p' e => by cases e; simpa using hk) h
      | _ => exact base _ ht (by simp) (by simp) h
  | run t n =>
    simp only [lateStepWith] at h
    have base : ∀ pc, x.base.threads[t]? = some pc → pc ≠ .idle → (∀ k q v p, pc = .dropArg k q v p → cfg.owns k = false) →
        x.lift (stepWith found cfg x.base (.run t n)) = .ok x' →
        Effect byVal cfg x x' (supplies byVal x (.run t n)) (destroys byVal found cfg x (.run t n)) := by
      intro pc ht hni hda h
      obtain ⟨s, h1, rfl⟩ := lift_ok h
      simp only [stepWith, ht] at h1
      cases pc with
      | idle => exact absurd rfl hni
      | want o =>
        simp only [runWith] at h1
        split at h1
        · cases h1
        · cases h1
          refine .move t _ (.inside o) ht (fun _ _ => rfl) (fun _ _ => rfl) rfl rfl (fun _ _ => rfl) rfl rfl (fun k hk => .inl hk)
            ?_ (fun e he => .inl he) (fun o r e => by cases e)
          intro f
          simp only [supplies, destroys, ht, Pc.arg]
      | inside o =>
        simp only [runWith] at h1
        split at h1
        · have hd : destroys byVal found cfg x (.run t n) = [] := by simp only [destroys, ht]
          have hs : supplies byVal x (.run t n) = [] := by simp only [supplies, ht]
          cases o with
          | intern k q v =>
            cases found with
            | some p =>
              cases h1
              refine .move t _ (.dropArg k q v p) ht (fun _ _ => rfl) (fun _ _ => rfl) rfl rfl (fun _ _ => rfl) rfl rfl
                (fun k hk => .inl hk) ?_ (fun e he => .inl he) (fun o r e => by cases e)
              intro f; rw [hd, hs]; rfl
            | none =>
              cases h1
              refine .move t _ (.build k q v) ht (fun _ _ => rfl) (fun _ _ => rfl) rfl rfl (fun _ _ => rfl) rfl rfl
                (fun k hk => .inl hk) ?_ (fun e he => .inl he) (fun o r e => by cases e)
              intro f; rw [hd, hs]; rfl
          | query k q =>
            cases h1
            refine .move t _ (.leave (.query k q) (.bool found.isSome)) ht (fun _ _ => rfl) (fun _ _ => rfl) rfl rfl (fun _ _ => rfl)
              rfl rfl (fun k hk => .inl hk) ?_ (fun e he => .inl he) (fun o r e y hy => by cases e; cases hy)
            intro f; rw [hd, hs]; rfl
          | len k =>
            cases h1
            refine .move t _ (.leave (.len k) (.num (x.base.table k).length)) ht (fun _ _ => rfl) (fun _ _ => rfl) rfl rfl
              (fun _ _ => rfl) rfl rfl (fun k hk => .inl hk) ?_ (fun e he => .inl he) (fun o r e y hy => by cases e; cases hy)
            intro f; rw [hd, hs]; rfl
          | clear k =>
            simp only at h1
            split at h1
            · cases h1
            · rename_i hno
              cases h1
              refine .move t _ (.leave (.clear k) .unit) ht (fun _ _ => rfl) (fun _ _ => rfl) rfl rfl ?_ rfl rfl
                (fun k hk => .inl hk) ?_ (fun e he => .inl he) (fun o r e y hy => by cases e; cases hy)
              · intro j hj
                have : j ≠ k := by rintro rfl; exact hno hj
                simp only [State.commit, State.setTable, if_neg this]
              · intro f; rw [hd, hs]; rfl
        · cases h1
      | build k q v =>
        simp only [runWith] at h1
        split at h1
        · cases h1
        · rename_i addr ha
          cases h1
          refine .alloc t k q v ⟨addr, cfg.info k v⟩ ht rfl rfl ?_ ?_ (by simp only [supplies, ht]) (by simp only [destroys, ht])
          · intro hz
            simp only [allocAt, hz, if_true, Option.some.injEq] at ha
            exact ha.symm
          · intro hz o ho hzo
            simp only [allocAt, hz, Bool.false_eq_true, if_false] at ha
            split at ha
            · rename_i hc
              cases ha
              have := List.all_eq_true.mp hc.2 o ho
              simp only [hzo, Bool.false_or, bne_iff_ne, ne_eq] at this
              exact fun e => this e.symm
            · cases ha
      | insert k q v p =>
        simp only [runWith] at h1
        split at h1
        · cases found with
          | some p0 =>
            simp only at h1
            injection h1 with h1
            subst h1
            have hd : destroys byVal (some p0) cfg x (.run t n) = if cfg.owns k then [(k, v)] else [] := by
              simp only [destroys, ht, Option.isSome_some, Bool.and_true]
            refine .toss t k q v p (.leave (.intern k q v) (.ptr p)) ht (.inr rfl) ?_ ?_ ?_ ?_ rfl ?_
              (by simp only [supplies, ht]) hd <;> (dsimp only; split <;> rfl)
          | none =>
            cases h1
            exact .link t k q v p ht rfl (by simp only [supplies, ht]) (by simp [destroys, ht])
        · cases h1
      | dropArg k q v p =>
        have hno := hda k q v p rfl
        cases h1
        refine .move t _ (.leave (.intern k q v) (.ptr p)) ht (fun _ _ => rfl) (fun _ _ => rfl) rfl rfl (fun _ _ => rfl) rfl rfl
          (fun k hk => .inl hk) ?_ (fun e he => .inl he) ?_
        · intro f
          simp only [supplies, destroys, ht, hno, Pc.arg, List.countP_nil, Bool.false_eq_true, if_false]; omega
        · intro o r e y hy
          cases e
          simp only [destroys, ht, hno, Bool.false_eq_true, if_false]
          exact hy
      | leave o r =>
        cases h1
        refine .move t _ .idle ht (fun _ _ => rfl) (fun _ _ => rfl) rfl rfl (fun _ _ => rfl) rfl rfl (fun k hk => by cases hk)
          ?_ ?_ (fun o r e => by cases e)
        · intro f; simp only [supplies, destroys, ht, Pc.arg]
        · intro e he
          rcases List.mem_cons.mp he with rfl | he
          · exact .inr rfl
          · exact .inl he
    cases ht : x.base.threads[t]? with
    | none =>
      simp only [ht] at h
      obtain ⟨s, h1, rfl⟩ := lift_ok h
      simp only [stepWith, ht] at h1
      cases h1
    | some pc =>
      simp only [ht] at h
      cases pc with
      | idle =>
        simp only at h
        split at h
        · rename_i e hf
          cases h
          refine .pop t e hf rfl ⟨e :: x.base.done, rfl, fun e' he => ?_⟩ (by simp only [supplies, ht]) (by simp only [destroys, ht, hf])
          rcases List.mem_cons.mp he with rfl | he
          · exact .inr rfl
          · exact .inl he
        · cases h
      | dropArg k q v p =>
        simp only at h
        split at h
        · rename_i hk
          cases h
          exact .push t k q v p ht rfl (by simp only [supplies, ht]) (by simp [destroys, ht, hk])
        · rename_i hk
          exact base _ ht (by simp) (fun k' q' v' p' e => by cases e; simpa using hk) h
      | _ => exact base _ ht (by simp) (by simp) h

/-! ### Invariant -/

/-- Facts about memory that hold whatever user code does. -/
structure Books (cfg : Cfg K V) (x : LateState K V) : Prop where
  shape : ∀ o ∈ x.base.heap, o.ptr.info = cfg.info o.pool o.val ∧
    (cfg.zst o.pool o.val = true → o.ptr.addr = cfg.dangle o.pool o.val)
  addrs : x.base.heap.Pairwise fun o o' => cfg.zst o.pool o.val = false → cfg.zst o'.pool o'.val = false →
    o.ptr.addr ≠ o'.ptr.addr
  /-- every box of an arena is in its set or about to be inserted, once -/
  owned : ∀ k, cfg.owns k = true → ∀ p, x.base.heap.countP (Obj.is k p) =
    (x.base.table k).count p + x.base.threads.countP (Pc.isInsert k p)
  ins : ∀ k q v p, Pc.insert k q v p ∈ x.base.threads → ⟨k, p, v⟩ ∈ x.base.heap
  gone : ∀ k ∈ x.base.gone, cfg.owns k = true ∧ x.base.table k = [] ∧ (∀ pc ∈ x.base.threads, pc.pool? ≠ some k) ∧
    ∀ e ∈ x.late, e.op.pool ≠ k

theorem Books.same {cfg : Cfg K V} {x : LateState K V} (B : Books cfg x) (lay : cfg.Layout) {o o' : Obj K V} (h : o ∈ x.base.heap)
    (h' : o' ∈ x.base.heap) (hk : o.pool = o'.pool) (hp : o.ptr = o'.ptr) : o = o' := by
  obtain ⟨k, p, v⟩ := o
  obtain ⟨k', p', v'⟩ := o'
  cases hk; cases hp
  have := same_val (s := x.base) lay B.shape B.addrs h h'
  rw [this]

theorem Obj.is_iff {k : K} {p : Ptr} {o : Obj K V} : o.is k p = true ↔ o.pool = k ∧ o.ptr = p := by
  simp only [Obj.is, decide_eq_true_eq]

theorem isInsert_iff {k : K} {p : Ptr} {pc : Pc K V} : pc.isInsert k p = true ↔ ∃ q v, pc = .insert k q v p := by
  constructor
  · intro h
    cases pc with
    | insert k' q v p' =>
      simp only [Pc.isInsert, decide_eq_true_eq] at h
      exact ⟨q, v, by rw [h.1, h.2]⟩
    | _ => cases h
  · rintro ⟨q, v, rfl⟩; simp [Pc.isInsert]

/-- The box of a thread that is about to insert. -/
theorem Books.insert_box {cfg : Cfg K V} {x : LateState K V} (B : Books cfg x) (lay : cfg.Layout) {t : Tid} {k : K} {q : Query V} {v : V}
    {p : Ptr} (ht : x.base.threads[t]? = some (.insert k q v p)) :
    0 < x.base.heap.countP (Obj.is k p) ∧ ∀ o ∈ x.base.heap, o.is k p = true → o.val = v := by
  have hm := B.ins k q v p (List.mem_of_getElem? ht)
  refine ⟨List.countP_pos_iff.mpr ⟨_, hm, Obj.is_iff.mpr ⟨rfl, rfl⟩⟩, fun o ho hi => ?_⟩
  obtain ⟨h1, h2⟩ := Obj.is_iff.mp hi
  rw [B.same lay ho hm h1 h2]

theorem count_free_any {h : List (Obj K V)} {k : K} {p : Ptr} (hm : 0 < h.countP (Obj.is k p)) (j : K) (p' : Ptr) :
    (free h k p).countP (Obj.is j p') + (if k = j ∧ p = p' then 1 else 0) = h.countP (Obj.is j p') :=
  have : BEq V := ⟨fun _ _ => true⟩
  have : Hashable V := ⟨fun _ => 0⟩
  count_free hm j p'

theorem foldl_free_rest (k : K) (l : List Ptr) (h : List (Obj K V)) :
    (l.foldl (fun h p => free h k p) h).filter (fun o => decide (o.pool ≠ k)) = h.filter (fun o => decide (o.pool ≠ k)) :=
  have : BEq V := ⟨fun _ _ => true⟩
  have : Hashable V := ⟨fun _ => 0⟩
  foldl_free_other k l h

theorem foldl_free_count_any (k : K) (l : List Ptr) (h : List (Obj K V)) (hc : ∀ p, h.countP (Obj.is k p) = l.count p) (p : Ptr) :
    (l.foldl (fun h p => free h k p) h).countP (Obj.is k p) = 0 :=
  have : BEq V := ⟨fun _ _ => true⟩
  have : Hashable V := ⟨fun _ => 0⟩
  foldl_free_count k l h hc p

theorem foldl_free_sublist_any (k : K) (l : List Ptr) (h : List (Obj K V)) : (l.foldl (fun h p => free h k p) h).Sublist h :=
  have : BEq V := ⟨fun _ _ => true⟩
  have : Hashable V := ⟨fun _ => 0⟩
  foldl_free_sublist k l h

/-- What freeing all elements of a set takes away. -/
theorem countP_freeAll (f : K × V → Bool) (k : K) (v : Ptr → Option V) : ∀ (l : List Ptr) (h : List (Obj K V)),
    (∀ p, l.count p ≤ h.countP (Obj.is k p)) → (∀ o ∈ h, o.pool = k → v o.ptr = some o.val) →
    ((l.foldl (fun h p => free h k p) h).map Obj.kv).countP f + ((l.filterMap v).map fun v => (k, v)).countP f =
      (h.map Obj.kv).countP f
  | [], h, _, _ => by simp
  | p :: l, h, hc, hv => by
    have h0 : 0 < h.countP (Obj.is k p) := Nat.lt_of_lt_of_le (by simp) (hc p)
    obtain ⟨o, ho, hi⟩ := List.countP_pos_iff.mp h0
    obtain ⟨h1, h2⟩ := Obj.is_iff.mp hi
    have hvo := hv o ho h1
    rw [h2] at hvo
    have hval : ∀ o' ∈ h, o'.is k p = true → o'.val = o.val := by
      intro o' ho' hi'
      obtain ⟨h3, h4⟩ := Obj.is_iff.mp hi'
      have := hv o' ho' h3
      rw [h4, hvo] at this
      exact (Option.some.inj this).symm
    have hfree := kv_free f k p o.val h h0 hval
    have ih := countP_freeAll f k v l (free h k p) (fun p' => ?_) (fun o' ho' => hv o' (List.mem_of_mem_eraseP ho'))
    · rw [List.foldl_cons, List.filterMap_cons_some hvo, List.map_cons, List.countP_cons]
      rw [List.countP_cons, List.countP_nil] at hfree
      omega
    · have := count_free_any h0 k p'
      have h3 := hc p'
      rw [List.count_cons] at h3
      by_cases e : p = p'
      · subst e
        simp at this h3
        omega
      · rw [if_neg (by rintro ⟨_, rfl⟩; exact e rfl)] at this
        simp [e] at h3
        omega

theorem mem_set_cases {α : Type} {l : List α} {t : Nat} {x y z : α} (ht : l[t]? = some x) (h : z ∈ l.set t y) :
    z = y ∨ ∃ u, u ≠ t ∧ l[u]? = some z := by
  obtain ⟨u, hu⟩ := List.mem_iff_getElem?.mp h
  by_cases e : u = t
  · subst e
    rw [List.getElem?_set_self (List.getElem?_eq_some_iff.mp ht).1] at hu
    exact .inl (Option.some.inj hu).symm
  · rw [List.getElem?_set_ne (Ne.symm e)] at hu
    exact .inr ⟨u, e, hu⟩

theorem Books.effect {byVal : Op K V → Bool} {cfg : Cfg K V} (lay : cfg.Layout) {x x' : LateState K V} {sup des : List (K × V)}
    (B : Books cfg x) (h : Effect byVal cfg x x' sup des) : Books cfg x' := by
  cases h with
  | same hx _ _ => rw [hx]; exact B
  | spawn hx _ _ =>
    subst hx
    exact {
      shape := B.shape, addrs := B.addrs
      owned := fun k hk p => by
        show _ = _ + (x.base.threads ++ [Pc.idle]).countP _
        rw [List.countP_append, B.owned k hk p]; rfl
      ins := fun k q v p hm => by
        rcases List.mem_append.mp hm with hm | hm
        · exact B.ins k q v p hm
        · simp at hm
      gone := fun k hk => ⟨(B.gone k hk).1, (B.gone k hk).2.1, fun pc hm => by
        rcases List.mem_append.mp hm with hm | hm
        · exact (B.gone k hk).2.2.1 pc hm
        · simp only [List.mem_singleton] at hm; subst hm; simp [Pc.pool?], (B.gone k hk).2.2.2⟩ }
  | move t pc pc' ht h1 h2 hth hheap htab hgone hlate hpool hacc hdone hleave =>
    exact {
      shape := hheap ▸ B.shape, addrs := hheap ▸ B.addrs
      owned := fun k hk p => by
        have := countP_set (Pc.isInsert k p) ht (y := pc')
        rw [h1, h2] at this
        rw [hheap, hth, htab k hk, B.owned k hk p]
        simp only [Bool.false_eq_true, if_false] at this
        omega
      ins := fun k q v p hm => by
        rw [hth] at hm
        rw [hheap]
        rcases mem_set_cases ht hm with e | ⟨u, _, hu⟩
        · have := h2 k p
          rw [← e] at this
          simp [Pc.isInsert] at this
        · exact B.ins k q v p (List.mem_of_getElem? hu)
      gone := fun k hk => by
        rw [hgone] at hk
        obtain ⟨g1, g2, g3, g4⟩ := B.gone k hk
        refine ⟨g1, by rw [htab k g1]; exact g2, fun pc0 hm => ?_, hlate ▸ g4⟩
        rw [hth] at hm
        rcases mem_set_cases ht hm with e | ⟨u, _, hu⟩
        · subst e
          intro he
          rcases hpool k he with h | h
          · exact g3 pc (List.mem_of_getElem? ht) h
          · exact h hk
        · exact g3 pc0 (List.mem_of_getElem? hu) }
  | alloc t k q v p ht hx hi hz ha hsup hdes =>
    subst hx
    exact {
      shape := fun o ho => by
        rcases List.mem_cons.mp ho with rfl | ho
        · exact ⟨hi, hz⟩
        · exact B.shape o ho
      addrs := List.Pairwise.cons (fun o ho h1 h2 => ha h1 o ho h2) B.addrs
      owned := fun j hj p' => by
        show (⟨k, p, v⟩ :: x.base.heap : List (Obj K V)).countP _ = _ + (x.base.threads.set t _).countP _
        have := countP_set (Pc.isInsert j p') ht (y := .insert k q v p)
        have hB := B.owned j hj p'
        rw [List.countP_cons]
        have e : Obj.is j p' (⟨k, p, v⟩ : Obj K V) = Pc.isInsert j p' (.insert k q v p : Pc K V) := rfl
        rw [e]
        simp only [show Pc.isInsert j p' (.build k q v : Pc K V) = false from rfl, Bool.false_eq_true, if_false] at this
        show _ = (x.base.table j).count p' + _
        omega
      ins := fun k' q' v' p' hm => by
        rcases mem_set_cases ht hm with e | ⟨u, _, hu⟩
        · cases e; exact List.mem_cons_self
        · exact List.mem_cons_of_mem _ (B.ins k' q' v' p' (List.mem_of_getElem? hu))
      gone := fun j hj => by
        obtain ⟨g1, g2, g3, g4⟩ := B.gone j hj
        refine ⟨g1, g2, fun pc0 hm => ?_, g4⟩
        rcases mem_set_cases ht hm with e | ⟨u, _, hu⟩
        · subst e; exact g3 (.build k q v) (List.mem_of_getElem? ht)
        · exact g3 pc0 (List.mem_of_getElem? hu) }
  | link t k q v p ht hx hsup hdes =>
    subst hx
    have hng : k ∉ x.base.gone := fun hk => (B.gone k hk).2.2.1 _ (List.mem_of_getElem? ht) rfl
    exact {
      shape := B.shape, addrs := B.addrs
      owned := fun j hj p' => by
        show x.base.heap.countP _ = (if j = k then p :: x.base.table k else x.base.table j).count p' + (x.base.threads.set t _).countP _
        have := countP_set (Pc.isInsert j p') ht (y := .leave (.intern k q v) (.ptr p))
        have hB := B.owned j hj p'
        simp only [show Pc.isInsert j p' (.leave (.intern k q v) (.ptr p) : Pc K V) = false from rfl, Bool.false_eq_true,
          if_false] at this
        by_cases e : j = k
        · subst e
          rw [if_pos rfl, List.count_cons]
          by_cases e' : p = p'
          · subst e'
            simp [Pc.isInsert] at this ⊢
            omega
          · simp [Pc.isInsert, e'] at this ⊢
            omega
        · rw [if_neg e]
          simp [Pc.isInsert, Ne.symm e] at this ⊢
          omega
      ins := fun k' q' v' p' hm => by
        rcases mem_set_cases ht hm with e | ⟨u, _, hu⟩
        · cases e
        · exact B.ins k' q' v' p' (List.mem_of_getElem? hu)
      gone := fun j hj => by
        obtain ⟨g1, g2, g3, g4⟩ := B.gone j hj
        have : j ≠ k := by rintro rfl; exact hng hj
        refine ⟨g1, by show (if j = k then _ else _) = _; rw [if_neg this]; exact g2, fun pc0 hm => ?_, g4⟩
        rcases mem_set_cases ht hm with e | ⟨u, _, hu⟩
        · subst e; exact fun e => this (Option.some.inj e).symm
        · exact g3 pc0 (List.mem_of_getElem? hu) }
  | toss t k q v p pc' ht hpc hth hheap htab hgone hlate hdone hsup hdes =>
    have hni : ∀ j p', pc'.isInsert j p' = false := by rcases hpc with rfl | rfl <;> exact fun _ _ => rfl
    have hbox := B.insert_box lay ht
    have hsub : x'.base.heap.Sublist x.base.heap := by
      rw [hheap]; split
      · exact List.eraseP_sublist
      · exact List.Sublist.refl _
    exact {
      shape := fun o ho => B.shape o (hsub.subset ho)
      addrs := B.addrs.sublist hsub
      owned := fun j hj p' => by
        have := countP_set (Pc.isInsert j p') ht (y := pc')
        have hB := B.owned j hj p'
        rw [hni] at this
        simp only [Bool.false_eq_true, if_false] at this
        rw [hheap, htab, hth]
        have hc := count_free_any hbox.1 j p'
        by_cases e : k = j
        · subst e
          rw [if_pos hj]
          by_cases e' : p = p'
          · subst e'
            simp [Pc.isInsert] at this hc
            omega
          · simp [Pc.isInsert, e'] at this hc
            omega
        · simp [Pc.isInsert, e] at this hc
          split <;> omega
      ins := fun k' q' v' p' hm => by
        rw [hth] at hm
        rcases mem_set_cases ht hm with e | ⟨u, hu', hu⟩
        · rcases hpc with rfl | rfl <;> cases e
        · have hin := B.ins k' q' v' p' (List.mem_of_getElem? hu)
          rw [hheap]
          split
          · rename_i hok
            rcases mem_free_or (k := k) (p := p) hin with h | h
            · exact h
            · obtain ⟨h1, h2⟩ := Obj.is_iff.mp h
              dsimp only at h1 h2
              subst h1 h2
              -- two threads are about to insert at the same address, so there are two boxes
              have h2 : 2 ≤ x.base.threads.countP (Pc.isInsert k' p') := by
                have c1 := countP_set (Pc.isInsert k' p') ht (y := .idle)
                have c2 : 0 < (x.base.threads.set t .idle).countP (Pc.isInsert k' p') := by
                  refine List.countP_pos_iff.mpr ⟨_, List.mem_iff_getElem?.mpr ⟨u, ?_⟩, isInsert_iff.mpr ⟨q', v', rfl⟩⟩
                  rw [List.getElem?_set_ne (Ne.symm hu')]; exact hu
                have e1 : Pc.isInsert k' p' (.insert k' q v p' : Pc K V) = true := isInsert_iff.mpr ⟨q, v, rfl⟩
                have e2 : Pc.isInsert k' p' (.idle : Pc K V) = false := rfl
                rw [e1, e2] at c1
                simp only [Bool.false_eq_true, if_false, if_true] at c1
                omega
              have hB := B.owned k' hok p'
              have hc := count_free_any hbox.1 k' p'
              rw [if_pos ⟨rfl, rfl⟩] at hc
              obtain ⟨o, ho, hio⟩ := List.countP_pos_iff.mp (show 0 < (free x.base.heap k' p').countP (Obj.is k' p') by omega)
              obtain ⟨h3, h4⟩ := Obj.is_iff.mp hio
              have := B.same lay (List.mem_of_mem_eraseP ho) hin h3 h4
              rw [← this]; exact ho
          · exact hin
      gone := fun j hj => by
        rw [hgone] at hj
        obtain ⟨g1, g2, g3, g4⟩ := B.gone j hj
        refine ⟨g1, by rw [htab]; exact g2, fun pc0 hm => ?_, hlate ▸ g4⟩
        rw [hth] at hm
        rcases mem_set_cases ht hm with e | ⟨u, _, hu⟩
        · subst e
          rcases hpc with rfl | rfl
          · simp [Pc.pool?]
          · exact g3 (.insert k q v p) (List.mem_of_getElem? ht)
        · exact g3 pc0 (List.mem_of_getElem? hu) }
  | push t k q v p ht hx hsup hdes =>
    subst hx
    exact {
      shape := B.shape, addrs := B.addrs
      owned := fun j hj p' => by
        show x.base.heap.countP _ = (x.base.table j).count p' + (x.base.threads.set t .idle).countP _
        have := countP_set (Pc.isInsert j p') ht (y := .idle)
        have hB := B.owned j hj p'
        simp [Pc.isInsert] at this ⊢
        omega
      ins := fun k' q' v' p' hm => by
        rcases mem_set_cases ht hm with e | ⟨u, _, hu⟩
        · cases e
        · exact B.ins k' q' v' p' (List.mem_of_getElem? hu)
      gone := fun j hj => by
        obtain ⟨g1, g2, g3, g4⟩ := B.gone j hj
        refine ⟨g1, g2, fun pc0 hm => ?_, fun e he => ?_⟩
        · rcases mem_set_cases ht hm with e | ⟨u, _, hu⟩
          · subst e; simp [Pc.pool?]
          · exact g3 pc0 (List.mem_of_getElem? hu)
        · rcases List.mem_cons.mp he with rfl | he
          · exact fun e => g3 _ (List.mem_of_getElem? ht) (congrArg some e)
          · exact g4 e he }
  | pop t e hf hlate hbase hsup hdes =>
    obtain ⟨d, hb, _⟩ := hbase
    exact {
      shape := by rw [hb]; exact B.shape
      addrs := by rw [hb]; exact B.addrs
      owned := by rw [hb]; exact B.owned
      ins := by rw [hb]; exact B.ins
      gone := by
        rw [hb]
        intro k hk
        obtain ⟨g1, g2, g3, g4⟩ := B.gone k hk
        exact ⟨g1, g2, g3, fun e he => g4 e (List.mem_of_mem_eraseP (hlate ▸ he))⟩ }
  | dropArena k ho hk hl hidle hx hsup hdes =>
    subst hx
    have hno : ∀ p, x.base.threads.countP (Pc.isInsert k p) = 0 := by
      intro p
      rw [List.countP_eq_zero]
      intro pc hm hi
      obtain ⟨q, v, rfl⟩ := isInsert_iff.mp hi
      exact hidle _ hm rfl
    have hcnt : ∀ p, x.base.heap.countP (Obj.is k p) = (x.base.table k).count p := by
      intro p; rw [B.owned k ho p, hno]; rfl
    have hoth := foldl_free_rest k (x.base.table k) x.base.heap
    exact {
      shape := fun o ho => B.shape o ((foldl_free_sublist_any k _ _).subset ho)
      addrs := B.addrs.sublist (foldl_free_sublist_any k _ _)
      owned := fun j hj p' => by
        show ((x.base.table k).foldl (fun h p => free h k p) x.base.heap).countP _ = (if j = k then [] else x.base.table j).count p' + _
        by_cases e : j = k
        · subst e
          rw [if_pos rfl, foldl_free_count_any j _ _ hcnt]
          show 0 = _ + x.base.threads.countP _
          rw [hno]; rfl
        · rw [if_neg e]
          have h1 := congrArg (List.countP (Obj.is j p')) hoth
          rw [List.countP_filter, List.countP_filter] at h1
          have h2 : ∀ l : List (Obj K V), l.countP (fun o => Obj.is j p' o && decide (o.pool ≠ k)) = l.countP (Obj.is j p') := by
            intro l
            apply List.countP_congr
            intro o _
            simp only [Bool.and_eq_true, decide_eq_true_eq]
            constructor
            · exact fun h => h.1
            · exact fun h => ⟨h, by rw [(Obj.is_iff.mp h).1]; exact e⟩
          rw [h2, h2] at h1
          rw [h1]; exact B.owned j hj p'
      ins := fun k' q' v' p' hm => by
        have hne : k' ≠ k := by rintro rfl; exact hidle _ hm rfl
        have h1 : (⟨k', p', v'⟩ : Obj K V) ∈ x.base.heap.filter (fun o => decide (o.pool ≠ k)) :=
          List.mem_filter.mpr ⟨B.ins k' q' v' p' hm, by simpa using hne⟩
        rw [← hoth] at h1
        exact (List.mem_filter.mp h1).1
      gone := fun j hj => by
        rcases List.mem_cons.mp hj with rfl | hj
        · exact ⟨ho, by show (if j = j then _ else _) = _; rw [if_pos rfl], hidle, hl⟩
        · obtain ⟨g1, g2, g3, g4⟩ := B.gone j hj
          refine ⟨g1, ?_, g3, g4⟩
          show (if j = k then _ else _) = _
          split
          · rfl
          · exact g2 }

omit [DecidableEq K] in
theorem books_init {cfg : Cfg K V} [DecidableEq K] : Books cfg (lateInit : LateState K V) where
  shape _ h := nomatch h
  addrs := List.Pairwise.nil
  owned _ _ _ := rfl
  ins _ _ _ _ h := nomatch h
  gone _ h := nomatch h

theorem Ledger.books {byVal : Op K V → Bool} {cfg : Cfg K V} (lay : cfg.Layout) {x : LateState K V} {sup des : List (K × V)}
    (h : Ledger byVal cfg x sup des) : Books cfg x := by
  induction h with
  | init => exact books_init
  | step _ _ hs ih => exact ih.effect lay (lateStepWith_effect (byVal := byVal) hs)

/-! ### Conservation -/

/-- No value appears or disappears unless it is supplied or destroyed. -/
theorem Effect.conserves {byVal : Op K V → Bool} {cfg : Cfg K V} (lay : cfg.Layout) {x x' : LateState K V} {sup des : List (K × V)}
    (B : Books cfg x) (h : Effect byVal cfg x x' sup des) (f : K × V → Bool) :
    (x'.values byVal).countP f + des.countP f = (x.values byVal).countP f + sup.countP f := by
  simp only [LateState.values, List.countP_append]
  cases h with
  | same hx h1 h2 => rw [hx, h1, h2]
  | spawn hx h1 h2 =>
    subst hx h1 h2
    simp [List.flatMap_append, Pc.arg]
  | move t pc pc' ht h1 h2 hth hheap htab hgone hlate hpool hacc hdone hleave =>
    have := countP_args_set (Pc.arg byVal) f _ t pc pc' ht
    have := hacc f
    rw [hth, hheap, hlate]
    omega
  | alloc t k q v p ht hx hi hz ha hsup hdes =>
    subst hx hsup hdes
    have := countP_args_set (Pc.arg byVal) f _ t _ (.insert k q v p) ht
    simp only [State.at, List.map_cons, List.countP_cons, Obj.kv, Pc.arg, Op.arg, List.countP_nil] at this ⊢
    split at this <;> simp only [*, if_true, if_false, List.countP_cons, List.countP_nil, Bool.false_eq_true] at this ⊢ <;> omega
  | link t k q v p ht hx hsup hdes =>
    subst hx hsup hdes
    have := countP_args_set (Pc.arg byVal) f _ t _ (.leave (.intern k q v) (.ptr p)) ht
    simp only [State.commit, State.setTable, Pc.arg, List.countP_nil] at this ⊢
    omega
  | toss t k q v p pc' ht hpc hth hheap htab hgone hlate hdone hsup hdes =>
    subst hsup hdes
    have h1 := countP_args_set (Pc.arg byVal) f _ t _ pc' ht
    have h2 : pc'.arg byVal = [] := by rcases hpc with rfl | rfl <;> rfl
    have h3 := B.insert_box lay ht
    have h4 := kv_free f k p v _ h3.1 h3.2
    rw [hth, hheap, hlate]
    rw [h2] at h1
    simp only [Pc.arg, List.countP_nil] at h1
    split
    · simp only [List.countP_nil]; omega
    · simp only [List.countP_nil]; omega
  | push t k q v p ht hx hsup hdes =>
    subst hx hsup hdes
    have := countP_args_set (Pc.arg byVal) f _ t _ .idle ht
    simp only [State.unlock, State.at, Pc.arg, List.countP_nil, List.flatMap_cons, List.countP_append] at this ⊢
    omega
  | pop t e hf hlate hbase hsup hdes =>
    subst hsup hdes
    obtain ⟨d, hb, _⟩ := hbase
    have := countP_args_eraseP (fun e : Entry K V => e.op.arg byVal) f _ _ e hf
    rw [hb, hlate]
    simp only [State.withDone, List.countP_nil]
    omega
  | dropArena k ho hk hl hidle hx hsup hdes =>
    subst hx hsup hdes
    have hno : ∀ p, x.base.threads.countP (Pc.isInsert k p) = 0 := by
      intro p
      rw [List.countP_eq_zero]
      intro pc hm hi
      obtain ⟨q, v, rfl⟩ := isInsert_iff.mp hi
      exact hidle _ hm rfl
    have := countP_freeAll f k (deref x.base k) (x.base.table k) x.base.heap
      (fun p => by rw [B.owned k ho p]; omega) (fun o ho hok => by
        have hex : ∃ o', x.base.heap.find? (Obj.is k o.ptr) = some o' := by
          cases hf : x.base.heap.find? (Obj.is k o.ptr) with
          | some o' => exact ⟨o', rfl⟩
          | none =>
            have := List.find?_eq_none.mp hf o ho
            rw [Obj.is_iff.mpr ⟨hok, rfl⟩] at this
            exact absurd rfl this
        obtain ⟨o', hf⟩ := hex
        have h1 := List.mem_of_find?_eq_some hf
        obtain ⟨h2, h3⟩ := Obj.is_iff.mp (List.find?_some hf)
        have := B.same lay h1 ho (h2.trans hok.symm) h3
        rw [deref, hf, this]; rfl)
    simp only [State.setTable, List.countP_nil]
    omega

/-- A box stays in memory or is destroyed. -/
theorem Effect.box {byVal : Op K V → Bool} {cfg : Cfg K V} (lay : cfg.Layout) {x x' : LateState K V} {sup des : List (K × V)}
    (B : Books cfg x) (h : Effect byVal cfg x x' sup des) {o : Obj K V} (ho : o ∈ x.base.heap) : o ∈ x'.base.heap ∨ o.kv ∈ des := by
  cases h with
  | same hx h1 h2 => exact .inl (hx ▸ ho)
  | spawn hx h1 h2 => exact .inl (hx ▸ ho)
  | move t pc pc' ht h1 h2 hth hheap htab hgone hlate hpool hacc hdone hleave => exact .inl (hheap ▸ ho)
  | alloc t k q v p ht hx hi hz ha hsup hdes => subst hx; exact .inl (List.mem_cons_of_mem _ ho)
  | link t k q v p ht hx hsup hdes => subst hx; exact .inl ho
  | toss t k q v p pc' ht hpc hth hheap htab hgone hlate hdone hsup hdes =>
    rw [hheap, hdes]
    split
    · rcases mem_free_or (k := k) (p := p) ho with h | h
      · exact .inl h
      · have h1 := (B.insert_box lay ht).2 o ho h
        have h2 := (Obj.is_iff.mp h).1
        exact .inr (by rw [Obj.kv, h1, h2]; exact List.mem_cons_self)
    · exact .inl ho
  | push t k q v p ht hx hsup hdes => subst hx; exact .inl ho
  | pop t e hf hlate hbase hsup hdes =>
    obtain ⟨d, hb, _⟩ := hbase
    exact .inl (by rw [hb]; exact ho)
  | dropArena k hok hk hl hidle hx hsup hdes =>
    subst hx
    by_cases e : o.pool = k
    · right
      have hno : x.base.threads.countP (Pc.isInsert k o.ptr) = 0 := by
        rw [List.countP_eq_zero]
        intro pc hm hi
        obtain ⟨q, v, rfl⟩ := isInsert_iff.mp hi
        exact hidle _ hm rfl
      have hc := B.owned k hok o.ptr
      rw [hno] at hc
      have h1 : 0 < x.base.heap.countP (Obj.is k o.ptr) := List.countP_pos_iff.mpr ⟨o, ho, Obj.is_iff.mpr ⟨e, rfl⟩⟩
      have h2 : o.ptr ∈ x.base.table k := List.count_pos_iff.mp (by omega)
      have h3 : deref x.base k o.ptr = some o.val := by
        cases hf : x.base.heap.find? (Obj.is k o.ptr) with
        | none =>
          have := List.find?_eq_none.mp hf o ho
          rw [Obj.is_iff.mpr ⟨e, rfl⟩] at this
          exact absurd rfl this
        | some o' =>
          obtain ⟨h4, h5⟩ := Obj.is_iff.mp (List.find?_some hf)
          have := B.same lay (List.mem_of_find?_eq_some hf) ho (h4.trans e.symm) h5
          rw [deref, hf, this]; rfl
      rw [hdes, List.mem_map]
      exact ⟨o.val, List.mem_filterMap.mpr ⟨o.ptr, h2, h3⟩, by rw [Obj.kv, e]⟩
    · left
      have h1 : o ∈ x.base.heap.filter (fun o => decide (o.pool ≠ k)) := List.mem_filter.mpr ⟨ho, by simpa using e⟩
      rw [← foldl_free_rest k (x.base.table k)] at h1
      exact (List.mem_filter.mp h1).1

end Pool
