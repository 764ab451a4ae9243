import Verif.Src.NewTerm
/-
Who holds a mutex, who waits for one, and what becomes of calls that find a poisoned one.
-/
namespace Src.NewCode
open Arc (Res)
open Pool (Tid Ptr Query Ret Obj Entry)

variable {K V : Type} [DecidableEq K] [BEq V] [Hashable V] {cfg : Cfg K V} {N N' : State K V} {S : PoolCode.State K V} {num : Nat → Nat} {Ls : List (List (K × V))} {D : List (K × V)}
  {m m' : Mem K V} {o : Pool.Op K V} {byRef : Bool} {l : List (K × V)} {f : Fr K V}

/-- The guards in variables. -/
def valLock : Option (Val K V) → Option (Nat × Nat)
  | some (.guard s pos _) => some (s, pos)
  | _ => none

def itemLock : It K V → Option (Nat × Nat)
  | .glue (.unlock s pos _) => some (s, pos)
  | _ => none

omit [DecidableEq K] [BEq V] [Hashable V] in
theorem locksOf_eq (f : Fr K V) : locksOf f = (f.scopes.flatMap fun sc => sc.filterMap fun x => valLock x.2) ++ f.items.filterMap itemLock := by
  simp only [locksOf]
  congr 1

omit [DecidableEq K] [BEq V] [Hashable V] in
theorem vr_lock {x : Val K V} {y : PoolCode.Val K V} (h : VR x y) : valLock (some x) = none := by cases h <;> rfl

omit [DecidableEq K] [BEq V] [Hashable V] in
theorem values_lock {sc : List (Var × Option (Val K V))} {g : List (K × V)} (h : (sc.flatMap fun x => x.2.toList.flatMap glue) = g.map (fun y => .value y.1 y.2)) :
    sc.filterMap (fun x => valLock x.2) = [] := by
  rw [List.filterMap_eq_nil_iff]
  rintro ⟨x, v⟩ hx
  cases v with
  | none => rfl
  | some v =>
    cases v with
    | guard s pos was =>
      exfalso
      have : Glue.unlock s pos was ∈ g.map (fun y => (Glue.value y.1 y.2 : Glue K V)) := by
        rw [← h]; exact List.mem_flatMap.mpr ⟨_, hx, by simp [glue]⟩
      obtain ⟨_, _, e⟩ := List.mem_map.mp this
      cases e
    | _ => rfl

omit [DecidableEq K] [BEq V] [Hashable V] in
theorem refused_lock {scs : Scopes Var (Val K V)} {J : List (It K V)} (h : Refused l scs J) :
    (scs.flatMap fun sc => sc.filterMap fun x => valLock x.2) ++ J.filterMap itemLock = [] := by
  induction h with
  | nil => rfl
  | stmt _ ih => simpa [itemLock] using ih
  | close hg _ ih =>
    simp only [List.flatMap_cons, values_lock hg, List.nil_append, List.filterMap_cons, itemLock]
    exact ih
  | value _ ih => simpa [itemLock] using ih
  | user _ ih => simpa [itemLock] using ih

omit [DecidableEq K] [BEq V] [Hashable V] in
theorem bare_lock {P : Glue K V → Prop} (hP : ∀ s pos was, ¬ P (.unlock s pos was)) {scs : Scopes Var (Val K V)} {J : List (It K V)} (h : Wind P scs J) : J.filterMap itemLock = [] := by
  induction h with
  | nil => rfl
  | stmt _ ih => simpa [itemLock] using ih
  | close _ _ ih => simpa [itemLock] using ih
  | @glue _ g _ hg _ ih =>
    cases g with
    | unlock s pos was => exact absurd hg (hP _ _ _)
    | _ => simpa [itemLock] using ih

omit [DecidableEq K] [BEq V] [Hashable V] in
theorem valLock_cell (s pos : Nat) : valLock (some (.cell s pos) : Option (Val K V)) = none := rfl
omit [DecidableEq K] [BEq V] [Hashable V] in
theorem valLock_num (n : Nat) : valLock (some (.num n) : Option (Val K V)) = none := rfl
omit [DecidableEq K] [BEq V] [Hashable V] in
theorem valLock_none : valLock (none : Option (Val K V)) = none := rfl
omit [DecidableEq K] [BEq V] [Hashable V] in
theorem itemLock_stmt (s : St K) : itemLock (.stmt s : It K V) = none := rfl
omit [DecidableEq K] [BEq V] [Hashable V] in
theorem itemLock_close : itemLock (.close : It K V) = none := rfl

set_option linter.unusedSimpArgs false in
/-- A function that has not taken the mutex of its type holds none. -/
theorem Pre.locks (h : Pre cfg m o byRef l f) : locksOf f = [] := by
  rw [locksOf_eq]
  cases h with
  | refused _ _ hr => exact refused_lock hr
  | @found _ _ _ _ n J _ hc hb _ =>
    have := bare_lock (fun _ _ _ => id) hb
    cases n <;> simp only [bot, locked, List.flatMap_cons, List.flatMap_nil, List.filterMap_cons, List.filterMap_nil, valLock_cell, valLock_num, vr_lock hc.arg, Option.toList_none,
      Option.toList_some, List.map_cons, List.map_nil, List.nil_append, List.cons_append, List.append_nil, itemLock_stmt, itemLock_close, this]
  | start hc => simp only [rest1, List.flatMap_cons, List.flatMap_nil, List.filterMap_cons, List.filterMap_nil, valLock_none, valLock_num, vr_lock hc.arg, itemLock_stmt, itemLock_close, List.append_nil]
  | miss hc => simp only [rest1, List.flatMap_cons, List.flatMap_nil, List.filterMap_cons, List.filterMap_nil, valLock_none, valLock_num, vr_lock hc.arg, itemLock_stmt, itemLock_close, List.append_nil]
  | push hc => simp only [rest1, List.flatMap_cons, List.flatMap_nil, List.filterMap_cons, List.filterMap_nil, valLock_none, valLock_num, vr_lock hc.arg, itemLock_stmt, itemLock_close, List.append_nil]
  | again hc _ _ =>
    simp only [rest1, List.tail_cons, List.flatMap_cons, List.flatMap_nil, List.filterMap_cons, List.filterMap_nil, valLock_none, valLock_num, vr_lock hc.arg, itemLock_stmt, itemLock_close, List.append_nil]

omit [DecidableEq K] [BEq V] [Hashable V] in
theorem gr_unlock {g : Glue K V} {i : Nat} : ¬ GR g (.unlock i) := by intro h; cases h

omit [DecidableEq K] [BEq V] [Hashable V] in
theorem all2_mem {α β : Type} {R : α → β → Prop} {l : List α} {l' : List β} (h : All2 R l l') {b : β} (hb : b ∈ l') : ∃ a ∈ l, R a b := by
  induction h with
  | nil => cases hb
  | cons h1 _ ih =>
    rcases List.mem_cons.mp hb with rfl | hb
    · exact ⟨_, List.mem_cons_self, h1⟩
    · obtain ⟨a, g1, g2⟩ := ih hb
      exact ⟨a, List.mem_cons_of_mem _ g1, g2⟩

omit [DecidableEq K] [BEq V] [Hashable V] in
theorem vr_unlock {x : Val K V} {y : PoolCode.Val K V} (h : VR x y) (i : Nat) : .unlock i ∉ PoolCode.glue y := by cases h <;> simp [PoolCode.glue]

/-- The lock that the corresponding function of the second program holds is the one of its type. -/
theorem Post.unlocks {pos : Nat} {was : Bool} {p : PoolCode.Fr K V} (h : Post cfg o byRef pos was f p) {i : Nat} (hi : .unlock i ∈ PoolCode.owed p) :
    i = cfg.typeId o.pool ∧ p.items ≠ [] := by
  have scope : ∀ {y : Option (PoolCode.Val K V)}, (∀ v, y = some v → .unlock i ∉ PoolCode.glue v) →
      .unlock i ∈ PoolCode.scGlue [(.m, some (.guard (cfg.typeId o.pool))), (.f, y)] → i = cfg.typeId o.pool := by
    intro y hy h
    simp only [PoolCode.scGlue, List.flatMap_cons, List.flatMap_nil, List.append_nil, Option.toList_some, PoolCode.glue, List.singleton_append, List.mem_cons] at h
    rcases h with h | h
    · cases h; rfl
    · obtain ⟨v, hv, hg⟩ := List.mem_flatMap.mp h
      exact absurd hg (hy v (Option.mem_toList.mp hv))
  cases h with
  | locked hc _ =>
    refine ⟨?_, by simp⟩
    simp only [PoolCode.owed, PoolCode.scsGlue, List.flatMap_cons, List.flatMap_nil, List.append_nil] at hi
    refine scope (y := some _) (fun v e => by cases e; exact vr_unlock hc.arg i) ?_
    simpa [PoolCode.itGlue] using hi
  | closure hc _ =>
    refine ⟨?_, by simp⟩
    simp only [PoolCode.owed, PoolCode.scsGlue, List.flatMap_cons, List.flatMap_nil, List.append_nil, List.mem_append] at hi
    rcases hi with hi | hi | hi
    · exfalso
      obtain ⟨x, hx, e⟩ := List.mem_filterMap.mp hi
      simp only [List.mem_cons, List.mem_append, List.mem_map, List.not_mem_nil, or_false] at hx
      rcases hx with rfl | ⟨s, _, rfl⟩ | rfl | rfl <;> cases e
    · cases hi
    · exact scope (y := some _) (fun v e => by cases e; exact vr_unlock hc.arg i) hi
  | body hB hI _ _ _ =>
    refine ⟨?_, by simp⟩
    simp only [PoolCode.owed, PoolCode.scsGlue, List.flatMap_append, List.flatMap_cons, List.flatMap_nil, List.append_nil, List.mem_append] at hi
    rcases hi with hi | hi | hi
    · exfalso
      obtain ⟨x, hx, e⟩ := List.mem_filterMap.mp hi
      rcases List.mem_append.mp hx with hx | hx
      · obtain ⟨a, _, ha⟩ := all2_mem hI hx
        cases ha with
        | stmt _ => cases e
        | close => cases e
        | glue hg => cases e; exact gr_unlock hg
      · simp only [List.mem_singleton] at hx
        subst hx; cases e
    · exfalso
      obtain ⟨sc, hsc, hg⟩ := List.mem_flatMap.mp hi
      obtain ⟨sc0, _, hs⟩ := all2_mem hB hsc
      obtain ⟨x, hx, hg⟩ := List.mem_flatMap.mp hg
      obtain ⟨x0, _, hb⟩ := all2_mem hs hx
      obtain ⟨v, hv, hg⟩ := List.mem_flatMap.mp hg
      have hv : x.2 = some v := Option.mem_toList.mp hv
      have ho := hb.2.2.1
      rw [hv] at ho
      generalize x0.2 = z at ho
      cases ho with
      | some h => exact vr_unlock h i hg
    · exact scope (y := none) (fun v e => by cases e) hi
  | unlock _ _ =>
    refine ⟨?_, by simp⟩
    simp only [PoolCode.owed, PoolCode.scsGlue, List.flatMap_nil, List.append_nil, List.filterMap_cons, PoolCode.itGlue, List.filterMap_nil, List.mem_singleton] at hi
    cases hi; rfl
  | over _ _ => simp [PoolCode.owed, PoolCode.scsGlue] at hi

/-- The function of the first program for one of the second. -/
theorem StackR.find {nx : Nat} {cs : List (Running K V)} {ps : List (PoolCode.Running K V)} {L : List (K × V)} (h : StackR cfg m nx num cs ps L)
    {p : PoolCode.Running K V} (hp : p ∈ ps) : ∃ c ∈ cs, ∃ pos was, First cfg m c.op.pool pos ∧ Post cfg c.op c.byRef pos was c.frame p.frame := by
  induction h with
  | nil => cases hp
  | pre _ _ _ _ _ ih =>
    obtain ⟨c, hc, g⟩ := ih hp
    exact ⟨c, List.mem_cons_of_mem _ hc, g⟩
  | post h1 h2 _ _ _ _ _ ih =>
    rcases List.mem_cons.mp hp with rfl | hp
    · exact ⟨_, List.mem_cons_self, _, _, h1, h2⟩
    · obtain ⟨c, hc, g⟩ := ih hp
      exact ⟨c, List.mem_cons_of_mem _ hc, g⟩

/-- A function that has not taken its mutex can take a step, or it waits for the mutex, which is held. -/
theorem Pre.go (h : Pre cfg m o byRef l f) (hm : m'.cells = m.cells) (t : Tid) : NewCode.refused cfg m f = true ∨ (∃ a r, (lang cfg).run m' t a [f] = .ok r) ∨
    ∃ d, firstCell cfg m o.pool = some d ∧ d.owner.isSome = true := by
  have find : ∀ (sc : Scopes Var (Val K V)) k, pushed sc ≤ (m'.cells (cfg.shard k)).length → ∃ d, exec cfg m' t (m'.cells (cfg.shard k)).length sc (.find k) = .ok d := by
    intro sc k hle
    simp only [exec]
    rw [if_neg (by omega)]
    split <;> exact ⟨_, rfl⟩
  cases h with
  | @start x body y body' hc =>
    right; left
    obtain ⟨d, hd⟩ := find [[(.f, some x)]] o.pool (by simp [pushed, Scopes.get, scopeGet])
    exact ⟨_, _, by rw [Lang.run]; simp only [Bool.false_eq_true, if_false, Lang.stmt]; rw [hd]⟩
  | @found x body y body' n J pos hc hb hf =>
    obtain ⟨d, k1, k2, k3⟩ := hf.cell
    by_cases ho : d.owner.isSome = true
    · exact .inr (.inr ⟨d, k3, ho⟩)
    · by_cases hp : d.poisoned = true
      · left
        simp only [NewCode.refused, locked, List.map_cons, List.cons_append, Bool.not_false, Bool.true_and, Lang.opOf, panics, Scopes.get, scopeGet, if_true, k1]
        have : d.owner.isNone = true := by cases hx : d.owner <;> simp_all
        simp only [this, hp, Bool.and_self, if_true]
        rfl
      · right; left
        refine ⟨0, ?_⟩
        simp only [Lang.run, locked, List.map_cons, List.cons_append, Bool.false_eq_true, if_false, Lang.stmt, exec, Scopes.get, scopeGet, if_true, cell_of hm, k1, ho, hp, Bool.or_self]
        exact ⟨_, rfl⟩
  | miss hc => exact .inr (.inl ⟨0, _, rfl⟩)
  | push hc => exact .inr (.inl ⟨0, _, rfl⟩)
  | @again x body y body' n hc h1 h2 =>
    right; left
    obtain ⟨d, hd⟩ := find [[(.n, some (.num n)), (.f, some x)]] o.pool (by
      simp only [pushed, Scopes.get, scopeGet, if_true, hm]; simpa [tids] using h1)
    exact ⟨_, _, by rw [rest1, List.tail_cons, Lang.run]; simp only [Bool.false_eq_true, if_false, Lang.stmt]; rw [hd]⟩
  | refused h1 h2 h3 =>
    right; left
    refine ⟨0, ?_⟩
    simp only [Lang.run, h1, if_true]
    generalize hs : f.scopes = scs at h3
    generalize f.items = J at h3
    cases h3 with
    | nil => exact ⟨_, rfl⟩
    | stmt _ => exact ⟨_, rfl⟩
    | close _ _ => exact ⟨_, rfl⟩
    | value _ => exact ⟨_, rfl⟩
    | user _ => exact ⟨_, rfl⟩

section
variable [EquivBEq V] [LawfulHashable V]

/-- A mutex that is held belongs to a call of the thread that holds it. -/
theorem Reach.lock_of (lay : cfg.Layout) (h : Reach cfg N) {s i : Nat} {d : Cell} {t : Tid} (hd : N.mem.cell s i = some d) (ht : d.owner = some t) :
    ∃ cs, N.threads[t]? = some cs ∧ ∃ c ∈ cs, (s, i) ∈ locksOf c.frame ∧ cfg.shard c.op.pool = s ∧ cfg.typeId c.op.pool = d.tid := by
  have hC := h.cells lay
  obtain ⟨k, rfl, hk⟩ := hC.typed s i d hd
  have hf : First cfg N.mem k i := (hC.spare k i d hd hk).resolve_right fun g => by rw [ht] at g; cases g.2.1
  obtain ⟨S, num, Ls, D, h1, h2⟩ := h.nsim lay
  obtain ⟨d', k1, k2, k3⟩ := hf.cell
  rw [hd] at k1; cases k1
  have hl : S.mem.lock (cfg.typeId k) = some t := by rw [h1.mem.lock k, k3]; exact ht
  obtain ⟨s', g1, _⟩ := h2.sim lay.memory
  obtain ⟨ps, hps, p, hp, hi⟩ := g1.lock_of hl
  have hlt : t < N.threads.length := by rw [← h1.len]; exact (List.getElem?_eq_some_iff.mp hps).1
  obtain ⟨ps', L, e1, e2, hst⟩ := h1.stacks t _ (List.getElem?_eq_getElem hlt)
  rw [hps] at e1; cases e1
  obtain ⟨c, hc, pos, was, hcf, hcp⟩ := hst.find hp
  obtain ⟨e3, e4⟩ := hcp.unlocks (PoolCode.mem_locksOf.mp hi)
  have hkc : k = c.op.pool := lay.types _ _ e3
  subst hkc
  rw [hcf.unique hf] at hcp
  exact ⟨_, List.getElem?_eq_getElem hlt, c, hc, (hcp.held e4).2, rfl, hk.symm⟩

omit [DecidableEq K] [BEq V] [Hashable V] [EquivBEq V] [LawfulHashable V] in
theorem fresh_exists (S : PoolCode.State K V) : ∃ a, PoolCode.Fresh S a := by
  refine ⟨((S.mem.heap ++ S.mem.husks).map fun o => o.ptr.addr).sum + 1, by omega, ?_, ?_⟩
  · intro o ho e
    have := PoolCode.sum_mem (List.mem_map_of_mem (f := fun o : Obj K V => o.ptr.addr) (List.mem_append_left S.mem.husks ho))
    omega
  · intro o ho e
    have := PoolCode.sum_mem (List.mem_map_of_mem (f := fun o : Obj K V => o.ptr.addr) (List.mem_append_right S.mem.heap ho))
    omega

/-- The innermost function of a thread can take a step, or it waits for the mutex of its type, which is held, and holds none itself. -/
theorem Reach.step_or_wait (lay : cfg.Layout) (h : Reach cfg N) {t : Tid} {c : Running K V} {cs : List (Running K V)} (ht : N.threads[t]? = some (c :: cs)) :
    (∃ a N', NewCode.step cfg N (.run t a) = .ok N') ∨ ((∃ d, tableOf cfg N c.op.pool = some d ∧ d.owner.isSome = true) ∧ locksOf c.frame = []) := by
  obtain ⟨S, num, Ls, D, h1, h2⟩ := h.nsim lay
  obtain ⟨ps, L, hps, hL, hst⟩ := h1.stacks t _ ht
  cases hst with
  | @pre _ _ _ l L g1 g2 g3 g4 g5 =>
    by_cases hr : refused cfg N.mem c.frame = true
    · left
      obtain ⟨f', e1, _⟩ := panic_pre g1 hr (m' := N.seen (c :: cs)) rfl
      exact ⟨0, _, by simp only [NewCode.step, ht, hr, if_true, unwind, e1]; rfl⟩
    · rcases g1.go (m' := N.seen (c :: cs)) rfl t with e | ⟨a, r, e⟩ | e
      · exact absurd e hr
      · left
        obtain ⟨m1, fs, x⟩ := r
        cases fs with
        | nil => exact ⟨a, _, by simp only [NewCode.step, ht, hr, if_false, e, Bool.false_eq_true]; rfl⟩
        | cons f fs => exact ⟨a, _, by simp only [NewCode.step, ht, hr, if_false, e, Bool.false_eq_true]; rfl⟩
      · exact .inr ⟨e, g1.locks⟩
  | @post _ _ p ps _ pos g1 g2 g3 g4 g5 g6 g7 =>
    left
    have hex : ∃ a r, (PoolCode.lang cfg.pool).run S.mem t a [p.frame] = .ok r := by
      by_cases hi : p.frame.items = []
      · exact ⟨0, _, by simp only [Lang.run, hi]; rfl⟩
      · obtain ⟨s, k1, k2⟩ := h2.sim lay.memory
        rcases k1.step_or_wait lay.memory k2 hps with hs | ⟨_, hno⟩
        · obtain ⟨a, ha⟩ := fresh_exists S
          obtain ⟨S', hS⟩ := hs a ha
          refine ⟨a, ?_⟩
          simp only [PoolCode.step, hps] at hS
          generalize (PoolCode.lang cfg.pool).run S.mem t a [p.frame] = Y at hS ⊢
          cases Y with
          | ok r => exact ⟨r, rfl⟩
          | blocked => cases hS
          | ub => cases hS
        · have := PoolCode.mem_locksOf.mpr (g2.held hi).1
          rw [hno] at this; cases this
    obtain ⟨a, r, hY⟩ := hex
    have hm : MR cfg (N.seen (c :: cs)) S.mem := h1.mem.of_eq rfl rfl rfl rfl rfl rfl rfl
    have hout := run_post lay hm (g1.grows (grows_of rfl)) g2 (pool_close lay h2 hps g5) t a
    rw [hY] at hout
    refine ⟨a, ?_⟩
    simp only [NewCode.step, ht, g2.refused, Bool.false_eq_true, if_false]
    generalize (lang cfg).run (N.seen (c :: cs)) t a [c.frame] = X at hout
    cases hout with
    | both _ _ _ => exact ⟨_, rfl⟩
    | skip _ _ => exact ⟨_, rfl⟩
    | pop _ => exact ⟨_, rfl⟩

/-- With a hierarchy of types, some thread can go on. -/
theorem Reach.progress (lay : cfg.Layout) (h : Reach cfg N) {rank : K → Nat} (hk : Ranked rank N) (hq : ¬ Quiet N) : ∃ t a N', NewCode.step cfg N (.run t a) = .ok N' := by
  have next : ∀ (t : Tid) (c : Running K V) cs, N.threads[t]? = some (c :: cs) → (∃ t a N', NewCode.step cfg N (.run t a) = .ok N') ∨
      ∃ (u : Tid) (d : Running K V) (ds : List (Running K V)), N.threads[u]? = some (d :: ds) ∧ rank c.op.pool < rank d.op.pool := by
    intro t c cs ht
    rcases h.step_or_wait lay ht with hs | ⟨⟨d, hd, ho⟩, _⟩
    · exact .inl ⟨t, hs⟩
    · obtain ⟨u, hu⟩ := Option.isSome_iff_exists.mp ho
      obtain ⟨pos, hf, hcell⟩ := firstCell_first hd
      obtain ⟨ds, hds, c', hc', hlk, _, hty⟩ := h.lock_of lay hcell hu
      obtain ⟨d1, k1, k2, k3⟩ := hf.cell
      rw [hcell] at k1; cases k1
      have hpool : c'.op.pool = c.op.pool := lay.types _ _ (by rw [hty, k2])
      cases ds with
      | nil => cases hc'
      | cons d0 ds =>
        rcases List.mem_cons.mp hc' with rfl | hm
        · rcases h.step_or_wait lay hds with hs | ⟨_, hno⟩
          · exact .inl ⟨u, hs⟩
          · rw [hno] at hlk; cases hlk
        · refine .inr ⟨u, d0, ds, hds, ?_⟩
          rw [← hpool]
          exact (List.pairwise_cons.mp (hk _ (List.mem_of_getElem? hds))).1 c' hm (List.ne_nil_of_mem hlk)
  have key : ∀ n (t : Tid) (c : Running K V) cs, N.threads[t]? = some (c :: cs) →
      (N.calls.map fun c => rank c.op.pool).sum ≤ n + rank c.op.pool → ∃ t a N', NewCode.step cfg N (.run t a) = .ok N' := by
    intro n
    induction n with
    | zero =>
      intro t c cs ht hle
      rcases next t c cs ht with hs | ⟨u, d, ds, hu, hlt⟩
      · exact hs
      · have := PoolCode.sum_mem (List.mem_map_of_mem (f := fun c : Running K V => rank c.op.pool)
          (List.mem_flatten.mpr ⟨_, List.mem_of_getElem? hu, List.mem_cons_self⟩))
        simp only [State.calls] at hle
        omega
    | succ n ih =>
      intro t c cs ht hle
      rcases next t c cs ht with hs | ⟨u, d, ds, hu, hlt⟩
      · exact hs
      · exact ih u d ds hu (by omega)
  simp only [Quiet, Classical.not_forall] at hq
  obtain ⟨cs, hm, hne⟩ := hq
  obtain ⟨t, ht⟩ := List.mem_iff_getElem?.mp hm
  cases cs with
  | nil => exact absurd rfl hne
  | cons c cs => exact key _ t c cs ht (Nat.le_add_right _ _)

theorem ret_next (lay : cfg.Layout) (h : Reach cfg N) {e : Entry K V} (he : Returned N e) : e.tid < N.next := by
  obtain ⟨S, num, Ls, D, h1, h2⟩ := h.nsim lay
  obtain ⟨e', g1, rfl⟩ := h1.rets e he
  exact h1.fresh _ (ret_lt lay h2 g1)

/-- Calls that are made when the mutex of their type is poisoned never take it, and never return. -/
theorem Later.late (lay : cfg.Layout) (hr : Reach cfg N) (hl : Later cfg N N') {k : K} (hp : Poisoned cfg N k) :
    (∀ c ∈ N'.calls, N.next ≤ c.id → c.op.pool = k → ∃ l, Pre cfg N'.mem c.op c.byRef l c.frame) ∧ ∀ e, Returned N' e → N.next ≤ e.tid → e.op.pool ≠ k := by
  induction hl with
  | refl =>
    refine ⟨fun c hc hn => ?_, fun e he hn => ?_⟩
    · have := hr.ids.lt _ _ (hr.ids.called c hc); omega
    · exact absurd (ret_next lay hr he) (Nat.not_lt.mpr hn)
  | @step N1 N2 act h1 hlaw hs ih =>
    obtain ⟨ih1, ih2⟩ := ih
    have hr1 := h1.reach hr
    have hk := hr1.kind lay hs
    have hpz : Poisoned cfg N1 k := by
      obtain ⟨d, g1, g2⟩ := hp
      exact ⟨d, by rw [h1.frozen lay hr ⟨d, g1, g2⟩]; exact g1, g2⟩
    have hold : ∀ c ∈ N1.calls, N.next ≤ c.id → c.op.pool = k → ∃ l, Pre cfg N2.mem c.op c.byRef l c.frame := by
      intro c hc hn hck
      obtain ⟨l, hl⟩ := ih1 c hc hn hck
      exact ⟨l, hl.grows hk.grows⟩
    -- the thread `t` has a new frame
    have swap : ∀ {t : Tid} {cs : List (Running K V)} {c : Running K V} {f : Fr K V}, N1.threads[t]? = some (c :: cs) →
        N2.threads = N1.threads.set t ({ c with frame := f } :: cs) → (N.next ≤ c.id → c.op.pool = k → ∃ l, Pre cfg N2.mem c.op c.byRef l f) →
        ∀ c ∈ N2.calls, N.next ≤ c.id → c.op.pool = k → ∃ l, Pre cfg N2.mem c.op c.byRef l c.frame := by
      intro t cs c f ht e hf c0 hc0 hn hck
      obtain ⟨x, y, k1, k2⟩ := PoolCode.flatten_set ht
      rw [State.calls, e, k2] at hc0
      simp only [List.mem_append, List.mem_cons] at hc0
      rcases hc0 with hc0 | (rfl | hc0) | hc0
      · exact hold c0 (by rw [State.calls, k1]; simp [hc0]) hn hck
      · exact hf hn hck
      · exact hold c0 (by rw [State.calls, k1]; simp [hc0]) hn hck
      · exact hold c0 (by rw [State.calls, k1]; simp [hc0]) hn hck
    cases act with
    | spawn =>
      cases hs
      refine ⟨?_, ih2⟩
      intro c hc
      refine hold c ?_
      simpa [State.calls] using hc
    | call t o byRef unw =>
      simp only [NewCode.step] at hs
      split at hs
      · rename_i cs f ht hf
        split at hs
        · cases hs
          refine ⟨?_, ?_⟩
          · intro c0 hc0 hn hck
            obtain ⟨x, y, k1, k2⟩ := PoolCode.flatten_set ht
            simp only [State.calls, k2, List.mem_append, List.mem_cons] at hc0
            rcases hc0 with hc0 | (rfl | hc0) | hc0
            · exact hold c0 (by rw [State.calls, k1]; simp [hc0]) hn hck
            · exact ⟨_, pre_start hf _⟩
            · exact hold c0 (by rw [State.calls, k1]; simp [hc0]) hn hck
            · exact hold c0 (by rw [State.calls, k1]; simp [hc0]) hn hck
          · intro e he
            exact ih2 e (by simpa [Returned] using he)
        · cases hs
      · cases hs
    | panic t =>
      simp only [NewCode.step] at hs
      split at hs
      · rename_i c cs ht
        split at hs
        · rename_i hu
          simp only [unwind] at hs
          split at hs <;> cases hs
          rename_i f fs hf
          refine ⟨swap ht rfl fun hn hck => ?_, ih2⟩
          exfalso
          obtain ⟨l, hl⟩ := ih1 c (List.mem_flatten.mpr ⟨_, List.mem_of_getElem? ht, List.mem_cons_self⟩) hn hck
          have := hl.user hu
          simp only [Lang.panic, List.any_cons, this, Bool.true_or, if_true] at hf
          cases hf
        · cases hs
      · cases hs
    | run t a =>
      have hs0 := hs
      simp only [NewCode.step] at hs
      split at hs
      · rename_i c cs ht
        have hmem : c ∈ N1.calls := List.mem_flatten.mpr ⟨_, List.mem_of_getElem? ht, List.mem_cons_self⟩
        by_cases hc : N.next ≤ c.id ∧ c.op.pool = k
        · obtain ⟨hn, hck⟩ := hc
          obtain ⟨l, h1⟩ := ih1 c hmem hn hck
          split at hs
          · rename_i hrf
            obtain ⟨f', e1, e2⟩ := panic_pre h1 hrf (m' := N1.seen (c :: cs)) rfl
            simp only [unwind, e1] at hs
            cases hs
            exact ⟨swap ht rfl fun _ _ => ⟨l, e2⟩, ih2⟩
          · have hout := run_pre (h1.grows (m' := N1.seen (c :: cs)) (grows_of rfl)) t a
            generalize (lang cfg).run (N1.seen (c :: cs)) t a [c.frame] = X at hs hout
            cases hout with
            | go hp _ => cases hs; exact ⟨swap ht rfl fun _ _ => ⟨_, hp⟩, ih2⟩
            | push hp _ => cases hs; exact ⟨swap ht rfl fun _ _ => ⟨_, hp⟩, ih2⟩
            | view => cases hs
            | @die f' x l' hl hp e => cases hs; exact ⟨swap ht rfl fun _ _ => ⟨_, hp.grows (grows_of rfl)⟩, ih2⟩
            | @lock f' pos cell hl hf hc ho hpo _ _ hp =>
              exfalso
              obtain ⟨d, g1, g2⟩ := hpz
              obtain ⟨d1, k1, k2, k3⟩ := hf.cell
              rw [hc] at k1; cases k1
              rw [hck] at k3
              rw [show firstCell cfg (N1.seen (c :: cs)) k = some d from g1] at k3
              cases k3
              rw [g2] at hpo; cases hpo
            | pop hl hpn =>
              cases hs
              refine ⟨?_, ?_⟩
              · intro c0 hc0
                obtain ⟨x, y, k1, k2⟩ := PoolCode.flatten_set ht
                simp only [State.calls, k2, List.mem_append] at hc0
                refine hold c0 ?_
                rw [State.calls, k1]
                simp only [List.mem_append, List.mem_cons]
                rcases hc0 with hc0 | hc0 | hc0
                · exact .inl hc0
                · exact .inr (.inl (.inr hc0))
                · exact .inr (.inr hc0)
              · intro e he
                refine ih2 e ?_
                simpa [Returned, ends, hpn] using he
        · split at hs
          · simp only [unwind] at hs
            split at hs <;> cases hs
            exact ⟨swap ht rfl fun a b => absurd ⟨a, b⟩ hc, ih2⟩
          · split at hs <;> cases hs
            · rename_i m1 r _
              refine ⟨?_, ?_⟩
              · intro c0 hc0
                obtain ⟨x, y, k1, k2⟩ := PoolCode.flatten_set ht
                simp only [State.calls, k2, List.mem_append] at hc0
                refine hold c0 ?_
                rw [State.calls, k1]
                simp only [List.mem_append, List.mem_cons]
                rcases hc0 with hc0 | hc0 | hc0
                · exact .inl hc0
                · exact .inr (.inl (.inr hc0))
                · exact .inr (.inr hc0)
              · intro e he hn
                rcases List.mem_append.mp he with he | he
                · simp only [ends] at he
                  split at he
                  · simp at he
                  · simp only [List.mem_map, Event.ret.injEq] at he
                    obtain ⟨r', _, rfl⟩ := he
                    exact fun hk => hc ⟨hn, hk⟩
                · exact ih2 e he hn
            · exact ⟨swap ht rfl fun a b => absurd ⟨a, b⟩ hc, ih2⟩
      · cases hs

end
end Src.NewCode
