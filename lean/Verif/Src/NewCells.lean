import Verif.Src.NewReach
/-
What a step does to the vectors, and what follows for the mutexes.
-/
namespace Src.NewCode
open Arc (Res)
open Pool (Tid Ptr Query Ret Obj Entry)

variable {K V : Type} [DecidableEq K] [BEq V] [Hashable V] {cfg : Cfg K V} {N N' : State K V} {S : PoolCode.State K V} {num : Nat → Nat} {Ls : List (List (K × V))} {D : List (K × V)}

/-- What a running function can do to the vectors; `t` is its thread, `c` the call, and `cs` the calls around it. -/
inductive CM (cfg : Cfg K V) (t : Tid) (c : Running K V) (cs : List (Running K V)) (m m' : Mem K V) : Prop
  | same : m'.cells = m.cells → CM cfg t c cs m m'
  | push : m'.cells = (m.push (cfg.shard c.op.pool) { tid := cfg.typeId c.op.pool, set := [], owner := none, poisoned := false }).cells → CM cfg t c cs m m'
  | lock {pos : Nat} {d : Cell} : First cfg m c.op.pool pos → m.cell (cfg.shard c.op.pool) pos = some d → d.owner = none → d.poisoned = false →
      m'.cells = (m.setCell (cfg.shard c.op.pool) pos { d with owner := some t }).cells → CM cfg t c cs m m'
  | insert {pos : Nat} {d : Cell} {p : Ptr} : First cfg m c.op.pool pos → m.cell (cfg.shard c.op.pool) pos = some d → d.owner = some t →
      m'.cells = (m.setCell (cfg.shard c.op.pool) pos { d with set := p :: d.set }).cells → CM cfg t c cs m m'
  | unlock {pos : Nat} {d : Cell} : First cfg m c.op.pool pos → m.cell (cfg.shard c.op.pool) pos = some d → d.owner = some t →
      m'.cells = (m.setCell (cfg.shard c.op.pool) pos { d with owner := none, poisoned := d.poisoned || (c.frame.panicking && !(c.unw || unwinding cs)) }).cells →
      CM cfg t c cs m m'

/-- What a step does. -/
inductive Kind (cfg : Cfg K V) (N N' : State K V) : Prop
  | spawn : N'.threads = N.threads ++ [[]] → N'.mem.cells = N.mem.cells → N'.hist = N.hist → Kind cfg N N'
  | call {t : Tid} {cs : List (Running K V)} {c : Running K V} : N.threads[t]? = some cs → c.id = N.next → start cfg c.op c.byRef = some c.frame →
      N'.threads = N.threads.set t (c :: cs) → N'.mem.cells = N.mem.cells → N'.hist = .call c.id c.op :: N.hist → Kind cfg N N'
  | panic {t : Tid} {cs : List (Running K V)} {c : Running K V} {f : Fr K V} : N.threads[t]? = some (c :: cs) → f.panicking = true →
      N'.threads = N.threads.set t ({ c with frame := f } :: cs) → N'.mem.cells = N.mem.cells → N'.hist = N.hist → Kind cfg N N'
  | run {t : Tid} {cs : List (Running K V)} {c : Running K V} {f : Fr K V} : N.threads[t]? = some (c :: cs) → f.panicking = c.frame.panicking →
      N'.threads = N.threads.set t ({ c with frame := f } :: cs) → CM cfg t c cs N.mem N'.mem → N'.hist = N.hist → Kind cfg N N'
  | pop {t : Tid} {cs : List (Running K V)} {c : Running K V} : N.threads[t]? = some (c :: cs) →
      N'.threads = N.threads.set t cs → N'.mem.cells = N.mem.cells → N'.hist = ends c c.frame.ret ++ N.hist → Kind cfg N N'

omit [DecidableEq K] [BEq V] [Hashable V] in
theorem setCell_cells {m m2 : Mem K V} (h : m.cells = m2.cells) (s pos : Nat) (c : Cell) : (m.setCell s pos c).cells = (m2.setCell s pos c).cells := by
  simp only [Mem.setCell, h]

omit [DecidableEq K] [BEq V] [Hashable V] in
theorem mem_owed_item {f : PoolCode.Fr K V} {g : PoolCode.Glue K V} (h : .glue g ∈ f.items) : g ∈ PoolCode.owed f :=
  List.mem_append_left _ (List.mem_filterMap.mpr ⟨_, h, rfl⟩)

omit [DecidableEq K] [BEq V] [Hashable V] in
theorem mem_owed_scope {f : PoolCode.Fr K V} {sc : List (PoolCode.Var × Option (PoolCode.Val K V))} {x : PoolCode.Var} {v : PoolCode.Val K V} {g : PoolCode.Glue K V}
    (h : sc ∈ f.scopes) (hx : (x, some v) ∈ sc) (hg : g ∈ PoolCode.glue v) : g ∈ PoolCode.owed f :=
  List.mem_append_right _ (List.mem_flatMap.mpr ⟨sc, h, List.mem_flatMap.mpr ⟨_, hx, by simpa using hg⟩⟩)

/-- Until it is over, such a function holds the lock. -/
theorem Post.held {o : Pool.Op K V} {byRef : Bool} {pos : Nat} {was : Bool} {f : Fr K V} {p : PoolCode.Fr K V} (h : Post cfg o byRef pos was f p) (hi : p.items ≠ []) :
    .unlock (cfg.typeId o.pool) ∈ PoolCode.owed p ∧ (cfg.shard o.pool, pos) ∈ locksOf f := by
  cases h with
  | @locked _ y _ _ _ _ _ _ =>
    exact ⟨mem_owed_scope (sc := [(.m, some (.guard (cfg.typeId o.pool))), (.f, some y)]) (x := .m) (v := .guard (cfg.typeId o.pool)) (by simp) (by simp) (by simp [PoolCode.glue]),
      by simp [locksOf]⟩
  | @closure _ y _ _ _ _ _ _ =>
    exact ⟨mem_owed_scope (sc := [(.m, some (.guard (cfg.typeId o.pool))), (.f, some y)]) (x := .m) (v := .guard (cfg.typeId o.pool)) (by simp) (by simp) (by simp [PoolCode.glue]),
      by simp [locksOf]⟩
  | body _ _ _ _ _ =>
    exact ⟨mem_owed_scope (sc := [(.m, some (.guard (cfg.typeId o.pool))), (.f, none)]) (x := .m) (v := .guard (cfg.typeId o.pool)) (by simp) (by simp) (by simp [PoolCode.glue]),
      by simp [locksOf]⟩
  | unlock _ _ => exact ⟨mem_owed_item (by simp), by simp [locksOf]⟩
  | over _ _ => exact absurd rfl hi

section
variable [EquivBEq V] [LawfulHashable V]

/-- The mutex of the type is held by the thread. -/
theorem NSim.owner (lay : cfg.Layout) (h : NSim cfg N S num Ls D) (hr : PoolCode.Reach cfg.pool S) {t : Tid} {p : PoolCode.Running K V} {ps : List (PoolCode.Running K V)}
    (hps : S.threads[t]? = some ps) (hp : p ∈ ps) {k : K} (hu : .unlock (cfg.typeId k) ∈ PoolCode.owed p.frame) {pos : Nat} (hf : First cfg N.mem k pos) {d : Cell}
    (hd : N.mem.cell (cfg.shard k) pos = some d) : d.owner = some t := by
  obtain ⟨s, h1, _⟩ := hr.sim lay.memory
  have hl := h1.holder t ps hps p hp _ hu
  rw [h.mem.lock k] at hl
  obtain ⟨c, k1, k2, k3⟩ := hf.cell
  rw [hd] at k1; cases k1
  rw [k3] at hl
  exact hl

theorem step_kind (lay : cfg.Layout) (h : NSim cfg N S num Ls D) (hr : PoolCode.Reach cfg.pool S) {act : Act K V} (hs : step cfg N act = .ok N') : Kind cfg N N' := by
  cases act with
  | spawn => cases hs; exact .spawn rfl rfl rfl
  | call t o byRef unw =>
    simp only [step] at hs
    split at hs
    · rename_i cs f ht hf
      split at hs
      · cases hs; exact .call ht rfl hf rfl rfl rfl
      · cases hs
    · cases hs
  | panic t =>
    simp only [step] at hs
    split at hs
    · rename_i c cs ht
      split at hs
      · rename_i hu
        obtain ⟨ps, L, hps, hL, hst⟩ := h.stacks t _ ht
        cases hst with
        | pre h1 _ _ _ _ =>
          exfalso
          have := h1.user hu
          simp only [unwind, Lang.panic, List.any_cons, this, Bool.true_or, if_true] at hs
          cases hs
        | @post _ _ p ps _ pos h1 h2 h3 h4 h5 h6 h7 =>
          have hb := panic_post h2 hu (N.seen (c :: cs)) S.mem
          simp only [unwind] at hs
          generalize hX : (lang cfg).panic (N.seen (c :: cs)) [c.frame] = X at hs hb
          generalize hY : (PoolCode.lang cfg.pool).panic S.mem [p.frame] = Y at hb
          cases hb with
          | blocked => cases hs
          | ub => cases hs
          | ok hb =>
            obtain ⟨f', p', rfl, rfl, hpn, hp⟩ := hb
            cases hs
            exact .panic ht hpn rfl rfl rfl
      · cases hs
    · cases hs
  | run t a =>
    simp only [step] at hs
    split at hs
    · rename_i c cs ht
      obtain ⟨ps, L, hps, hL, hst⟩ := h.stacks t _ ht
      cases hst with
      | @pre _ _ _ l L h1 h2 h3 h4 h5 =>
        split at hs
        · rename_i hrf
          simp only [unwind] at hs
          split at hs <;> cases hs
          rename_i f' fs' he
          refine .panic ht ?_ rfl rfl rfl
          simp only [Lang.panic] at he
          repeat' split at he
          all_goals cases he
          all_goals rfl
        · have hout := run_pre (h1.grows (m' := N.seen (c :: cs)) (grows_of rfl)) t a
          generalize (lang cfg).run (N.seen (c :: cs)) t a [c.frame] = X at hs hout
          cases hout with
          | go hp e => cases hs; exact .run ht e rfl (.same rfl) rfl
          | push hp e => cases hs; exact .run ht e rfl (.push rfl) rfl
          | view => cases hs
          | @die f' x l' hl hp e => cases hs; exact .run ht e rfl (.same rfl) rfl
          | pop hl hpn => cases hs; exact .pop ht rfl rfl rfl
          | @lock f' pos cell hl hf hc ho hpo e1 e2 hp => cases hs; exact .run ht (e2.trans e1.symm) rfl (.lock hf hc ho hpo rfl) rfl
      | @post _ _ p ps _ pos h1 h2 h3 h4 h5 h6 h7 =>
        rw [h2.refused] at hs
        simp only [Bool.false_eq_true, if_false] at hs
        have hm : MR cfg (N.seen (c :: cs)) S.mem := h.mem.of_eq rfl rfl rfl rfl rfl rfl rfl
        have hout := run_post lay hm (h1.grows (grows_of rfl)) h2 (pool_close lay hr hps h5) t a
        generalize hX : (lang cfg).run (N.seen (c :: cs)) t a [c.frame] = X at hs hout
        generalize hY : (PoolCode.lang cfg.pool).run S.mem t a [p.frame] = Y at hout
        cases hout with
        | blocked => cases hs
        | ub => cases hs
        | skip e hp => cases hs; exact .run ht e rfl (.same rfl) rfl
        | pop hor => cases hs; exact .pop ht rfl rfl rfl
        | @both m' n' f' p' hmv e hp =>
          cases hs
          have hne : p.frame.items ≠ [] := by
            intro hi
            simp only [Lang.run, hi] at hY
            cases hY
          have hown : ∀ d, N.mem.cell (cfg.shard c.op.pool) pos = some d → d.owner = some t := fun d hd =>
            h.owner lay hr hps List.mem_cons_self (h2.held hne).1 h1 hd
          refine .run ht e rfl ?_ rfl
          cases hmv.cells with
          | same g => exact .same g
          | insert q g1 g2 => exact .insert h1 g1 (hown _ g1) g2
          | @unlock d g1 g2 =>
            refine .unlock h1 g1 (hown _ g1) (g2.trans ?_)
            have : ((N.seen (c :: cs)).panicking && !(c.unw || unwinding cs)) = (c.frame.panicking && !(c.unw || unwinding cs)) := by
              simp only [State.seen, unwinding, List.any_cons]
              cases c.unw <;> cases c.frame.panicking <;> cases cs.any (fun c => c.unw || c.frame.panicking) <;> rfl
            rw [this]
            rfl
    · cases hs

theorem no_ub (lay : cfg.Layout) (h : NSim cfg N S num Ls D) (hr : PoolCode.Reach cfg.pool S) (act : Act K V) : step cfg N act ≠ .ub := by
  cases act with
  | spawn => simp [step]
  | call t o byRef unw => simp only [step]; repeat' split <;> simp
  | panic t =>
    intro hs
    simp only [step] at hs
    split at hs
    · rename_i c cs ht
      split at hs
      · simp only [unwind, Lang.panic] at hs
        repeat' split at hs
        all_goals cases hs
        all_goals (rename_i he; repeat' split at he)
        all_goals cases he
      · cases hs
    · cases hs
  | run t a =>
    intro hs
    simp only [step] at hs
    split at hs
    · rename_i c cs ht
      obtain ⟨ps, L, hps, hL, hst⟩ := h.stacks t _ ht
      cases hst with
      | @pre _ _ _ l L h1 h2 h3 h4 h5 =>
        split at hs
        · rename_i hrf
          obtain ⟨f', e1, e2⟩ := panic_pre h1 hrf (m' := N.seen (c :: cs)) rfl
          simp only [unwind, e1] at hs
          cases hs
        · have hout := run_pre (h1.grows (m' := N.seen (c :: cs)) (grows_of rfl)) t a
          generalize (lang cfg).run (N.seen (c :: cs)) t a [c.frame] = X at hs hout
          cases hout <;> cases hs
      | @post _ _ p ps _ pos h1 h2 h3 h4 h5 h6 h7 =>
        rw [h2.refused] at hs
        simp only [Bool.false_eq_true, if_false] at hs
        have hm : MR cfg (N.seen (c :: cs)) S.mem := h.mem.of_eq rfl rfl rfl rfl rfl rfl rfl
        have hout := run_post lay hm (h1.grows (grows_of rfl)) h2 (pool_close lay hr hps h5) t a
        generalize hX : (lang cfg).run (N.seen (c :: cs)) t a [c.frame] = X at hs hout
        generalize hY : (PoolCode.lang cfg.pool).run S.mem t a [p.frame] = Y at hout
        cases hout with
        | ub =>
          obtain ⟨s, g1, g2⟩ := hr.sim lay.memory
          refine (PoolCode.sim_run lay.memory g1 g2 t a).1 ?_
          simp only [PoolCode.step, hps, hY]
        | _ => cases hs
    · cases hs

theorem Reach.nsim (lay : cfg.Layout) (h : Reach cfg N) : ∃ S num Ls D, NSim cfg N S num Ls D ∧ PoolCode.Reach cfg.pool S := by
  induction h with
  | init => exact ⟨_, _, _, _, nsim_init, .init⟩
  | step hr hl hs ih =>
    obtain ⟨S, num, Ls, D, h1, h2⟩ := ih
    obtain ⟨S', num', Ls', D', h3, h4⟩ := nsim_step lay h1 hr.ids h2 hl hs
    refine ⟨S', num', Ls', D', h3, ?_⟩
    clear h3
    induction h4 with
    | refl => exact h2
    | step _ a b ih => exact .step ih a b

theorem Later.nsim (lay : cfg.Layout) (hr : Reach cfg N) (h : NSim cfg N S num Ls D) (hS : PoolCode.Reach cfg.pool S) (hl : Later cfg N N') :
    Reach cfg N' ∧ ∃ S' num' Ls' D', NSim cfg N' S' num' Ls' D' ∧ PoolCode.Reach cfg.pool S' ∧ PoolCode.Later cfg.pool S S' := by
  induction hl with
  | refl => exact ⟨hr, S, num, Ls, D, h, hS, .refl S⟩
  | step _ hl hs ih =>
    obtain ⟨g0, S1, num1, Ls1, D1, g1, g2, g3⟩ := ih
    obtain ⟨S', num', Ls', D', h3, h4⟩ := nsim_step lay g1 g0.ids g2 hl hs
    refine ⟨.step g0 hl hs, S', num', Ls', D', h3, ?_⟩
    clear h3
    induction h4 with
    | refl => exact ⟨g2, g3⟩
    | step _ a b ih => exact ⟨.step ih.1 a b, .step ih.2 a b⟩

end
end Src.NewCode
