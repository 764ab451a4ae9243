import Verif.Src.PoolSim
/-
One step of a function of the code, seen from the model.
-/
namespace Src.PoolCode
open Arc (Res)
open Pool (Tid Ptr Query Ret Obj Cfg Entry Pc)

variable {K V : Type} [DecidableEq K]

/-! ### Memory -/

theorem find?_filter_of {α : Type} {p q : α → Bool} (h : ∀ x, p x = true → q x = true) (l : List α) : (l.filter q).find? p = l.find? p := by
  induction l with
  | nil => rfl
  | cons a l ih =>
    cases hq : q a with
    | true =>
      rw [List.filter_cons_of_pos hq, List.find?_cons, List.find?_cons, ih]
    | false =>
      have hp : p a = false := by
        cases hp : p a with
        | false => rfl
        | true => rw [h a hp] at hq; cases hq
      rw [List.filter_cons_of_neg (by simp [hq]), List.find?_cons, hp, ih]

theorem eraseP_filter_of {α : Type} {p q : α → Bool} (h : ∀ x, p x = true → q x = true) (l : List α) :
    (l.filter q).eraseP p = (l.eraseP p).filter q := by
  induction l with
  | nil => rfl
  | cons a l ih =>
    cases hq : q a with
    | true =>
      rw [List.filter_cons_of_pos hq]
      cases hp : p a with
      | true => rw [List.eraseP_cons_of_pos hp, List.eraseP_cons_of_pos hp]
      | false => rw [List.eraseP_cons_of_neg (by simp [hp]), List.eraseP_cons_of_neg (by simp [hp]), List.filter_cons_of_pos hq, ih]
    | false =>
      have hp : p a = false := by
        cases hp : p a with
        | false => rfl
        | true => rw [h a hp] at hq; cases hq
      rw [List.filter_cons_of_neg (by simp [hq]), List.eraseP_cons_of_neg (by simp [hp]), List.filter_cons_of_neg (by simp [hq]), ih]

theorem eraseP_filter_not {α : Type} {p q : α → Bool} (h : ∀ x, p x = true → q x = false) (l : List α) :
    (l.eraseP p).filter q = l.filter q := by
  induction l with
  | nil => rfl
  | cons a l ih =>
    cases hp : p a with
    | true => rw [List.eraseP_cons_of_pos hp, List.filter_cons_of_neg (by simp [h a hp])]
    | false =>
      rw [List.eraseP_cons_of_neg (by simp [hp])]
      cases hq : q a with
      | true => rw [List.filter_cons_of_pos hq, List.filter_cons_of_pos hq, ih]
      | false => rw [List.filter_cons_of_neg (by simp [hq]), List.filter_cons_of_neg (by simp [hq]), ih]

section
variable {cfg : Cfg K V} {gone : List K} {m : Mem K V} {s : Pool.State K V} {k : K}

theorem is_alive (hk : k ∉ gone) (p : Ptr) (o : Obj K V) (h : Obj.is k p o = true) : decide (o.pool ∉ gone) = true := by
  simp only [Obj.is, decide_eq_true_eq] at h
  simp [h.1, hk]

theorem Shared.deref (hs : Shared gone m s) (hk : k ∉ gone) (p : Ptr) : Pool.deref m.view k p = Pool.deref s k p := by
  simp only [Pool.deref, Mem.view, hs.heap]
  rw [find?_filter_of (is_alive hk p)]

theorem Shared.find [Hashable V] (hs : Shared gone m s) (hk : k ∉ gone) (q : Query V) : Pool.find m.view k q = Pool.find s k q := by
  have e : m.view.table k = s.table k := by rw [hs.table]; rfl
  simp only [Pool.find, e, hs.deref hk]

theorem Shared.tableOk (hs : Shared gone m s) (hk : k ∉ gone) : Pool.tableOk m.view k = Pool.tableOk s k := by
  have e : m.view.table k = s.table k := by rw [hs.table]; rfl
  simp only [Pool.tableOk, e, hs.deref hk]

theorem Shared.alloc (hs : Shared gone m s) {v : V} {a addr : Nat} (h : Pool.allocAt cfg m.used k v a = some addr) :
    Pool.allocAt cfg s k v a = some addr := by
  simp only [Pool.allocAt] at h ⊢
  cases hz : cfg.zst k v with
  | true => rw [hz] at h; simpa using h
  | false =>
    rw [hz] at h
    simp only [Bool.false_eq_true, if_false] at h ⊢
    split at h
    · rename_i hc
      have hall : s.heap.all (fun o => cfg.zst o.pool o.val || o.ptr.addr != a) = true := by
        rw [List.all_eq_true] at hc ⊢
        intro o ho
        rw [hs.heap] at ho
        exact hc.2 o (List.mem_append_left _ (List.mem_filter.mp ho).1)
      rw [if_pos ⟨hc.1, hall⟩]
      exact h
    · cases h

end

/-- Some steps of thread `id` of the model. -/
inductive Own [BEq V] [Hashable V] (cfg : Cfg K V) (id : Nat) : Pool.State K V → Pool.State K V → Prop
  | refl (s : Pool.State K V) : Own cfg id s s
  | run {s s' s'' : Pool.State K V} {a : Nat} : Own cfg id s s' → Pool.step cfg s' (.run id a) = .ok s'' → Own cfg id s s''
  | panic {s s' s'' : Pool.State K V} : Own cfg id s s' → Pool.step cfg s' (.panic id) = .ok s'' → Own cfg id s s''

variable [BEq V] [Hashable V]

/-- What a step of the code is in the model. -/
structure Eff (cfg : Cfg K V) (gone : List K) (id : Nat) (c : Call K V) (m : Mem K V) (s : Pool.State K V) (f : Fr K V)
    (m' : Mem K V) (f' : Fr K V) : Prop where
  sim : ∃ s' pc', Own cfg id s s' ∧ s'.threads = s.threads.set id pc' ∧ Shared gone m' s' ∧ Rel cfg id s'.done c f' pc'
  other : ∀ k ∈ gone, c.pool ≠ k → ∀ p, m'.heap.countP (Obj.is k p) = m.heap.countP (Obj.is k p)
  pend : ∀ k, c = .dropArena k → f'.panicking = false → (∀ p, m.heap.countP (Obj.is k p) = (pend k f).count p) →
    ∀ p, m'.heap.countP (Obj.is k p) = (pend k f').count p

/-- The possible outcomes of a step: it never goes wrong, and it is only blocked by a mutex that is held or because the allocator has
returned an address that is not free. -/
inductive Out (cfg : Cfg K V) (gone : List K) (id : Nat) (c : Call K V) (m : Mem K V) (s : Pool.State K V) (a : Nat) (f : Fr K V) (pc : Pc K V) :
    Res (Mem K V × List (Fr K V) × Option (Val K V)) → Prop
  | ok {m' : Mem K V} {f' : Fr K V} : Eff cfg gone id c m s f m' f' → Out cfg gone id c m s a f pc (.ok (m', [f'], none))
  | pop : pc = .idle → f.items = [] → (f.panicking = false → match c with
        | .op o _ => ∃ x r, f.ret = some x ∧ toRet x = some r ∧ { tid := id, op := o, ret := r } ∈ s.done
        | .dropArena k => pend k f = []) →
      Out cfg gone id c m s a f pc (.ok (m, [], f.ret))
  | wait {o : Pool.Op K V} : pc = .want o → (m.lock (cfg.lockOf o.pool)).isSome = true → Out cfg gone id c m s a f pc .blocked
  | alloc {k : K} {v : V} : Pool.allocAt cfg m.used k v a = none → Out cfg gone id c m s a f pc .blocked

section
variable {cfg : Cfg K V} {gone : List K} {id : Nat} {m : Mem K V} {s : Pool.State K V} {a : Nat} {f f' : Fr K V} {pc : Pc K V}
  {X : Res (Mem K V × List (Fr K V) × Option (Val K V))} {o : Pool.Op K V} {byRef : Bool}

omit [DecidableEq K] [BEq V] [Hashable V] in
theorem set_self (ht : s.threads[id]? = some pc) : s.threads.set id pc = s.threads := by
  apply List.ext_getElem?
  intro i
  rw [List.getElem?_set]
  split
  · rename_i e; subst e
    split
    · exact ht.symm
    · rename_i h; rw [List.getElem?_eq_none (by omega)]
  · rfl

theorem Out.still {m' : Mem K V} (ht : s.threads[id]? = some pc) (hs : Shared gone m s) (hR : Rel cfg id s.done (.op o byRef) f' pc)
    (h : X = .ok (m', [f'], none)) (e1 : m'.heap = m.heap := by rfl) (e2 : m'.table = m.table := by rfl) :
    Out cfg gone id (.op o byRef) m s a f pc X := by
  subst h
  exact .ok ⟨⟨s, pc, .refl s, (set_self ht).symm, ⟨by rw [e1]; exact hs.heap, by rw [e2]; exact hs.table, hs.gone⟩, hR⟩,
    fun _ _ _ _ => by rw [e1], fun _ h => by cases h⟩

/-- One step of the model that does not touch boxes of arenas that are being dropped. -/
theorem Out.base {s' : Pool.State K V} {m' : Mem K V} {a' : Nat} {pc' : Pc K V} (ht : s.threads[id]? = some pc)
    (hb : Pool.run cfg s id a' pc = .ok s') (h1 : s'.threads = s.threads.set id pc') (h2 : Shared gone m' s')
    (hR : Rel cfg id s'.done (.op o byRef) f' pc') (hh : ∀ k ∈ gone, ∀ p, m'.heap.countP (Obj.is k p) = m.heap.countP (Obj.is k p))
    (h : X = .ok (m', [f'], none)) : Out cfg gone id (.op o byRef) m s a f pc X := by
  subst h
  refine .ok ⟨⟨s', pc', .run (.refl s) (a := a') ?_, h1, h2, hR⟩, fun k hk _ p => hh k hk p, fun _ h => by cases h⟩
  simp only [Pool.step, ht]; exact hb

/-- An equal value is not in the set when a new one is inserted. -/
theorem find_ins (I : Pool.Inv cfg s) {k : K} {q : Query V} {v : V} {p : Ptr} (ht : s.threads[id]? = some (.insert k q v p)) :
    Pool.find s k (.ofVal v) = none := by
  obtain ⟨_, h2, _⟩ := I.pcs id _ ht
  cases hf : Pool.find s k (.ofVal v) with
  | none => rfl
  | some p' =>
    obtain ⟨h3, x, h4, _, h6⟩ := Pool.find_hit hf
    have : (x == v) = true := h6
    rw [h2 p' h3 x h4] at this; cases this

theorem run_at (I : Pool.Inv cfg s) (lay : cfg.Layout) (ht : s.threads[id]? = some pc) (hs : Shared gone m s)
    (hl : ∀ i, m.lock i = none → s.lock i = none) (t : Tid)
    {scs : Scopes Var (Val K V)} {items : List (It K V)} (h : At cfg o byRef scs items pc) :
    Out cfg gone id (.op o byRef) m s a { scopes := scs, items := items } pc
      ((lang cfg).run m t a [{ scopes := scs, items := items }]) := by
  have alive : ∀ k, pc.pool? = some k → k ∉ gone := fun k hk => by rw [← hs.gone]; exact I.alive id pc k ht hk
  have same : ∀ k ∈ gone, ∀ p, m.heap.countP (Obj.is k p) = m.heap.countP (Obj.is k p) := fun _ _ _ => rfl
  cases h with
  | @want o byRef f hst =>
    cases hlk : m.lock (cfg.lockOf o.pool) with
    | some u =>
      have e : (lang cfg).run m t a [{ scopes := f.scopes, items := f.items }] = .blocked := by
        cases o with
        | intern k q v =>
          simp only [start] at hst
          cases ho : cfg.owns k <;> rw [ho] at hst <;> cases hst <;>
            simp [Lang.run, Lang.enter, Lang.stmt, exec, arenaCode, internCode, withLock, (show m.lock (cfg.lockOf k) = some u from hlk)]
        | query k q =>
          simp only [start] at hst
          cases ho : cfg.owns k <;> rw [ho] at hst <;> cases hst
          simp [Lang.run, Lang.enter, Lang.stmt, exec, queryCode, withLock, (show m.lock (cfg.lockOf k) = some u from hlk)]
        | len k =>
          simp only [start] at hst
          cases ho : cfg.owns k <;> rw [ho] at hst <;> cases hst
          simp [Lang.run, Lang.enter, Lang.stmt, exec, lenCode, withLock, (show m.lock (cfg.lockOf k) = some u from hlk)]
        | clear k => cases hst
      rw [e]
      exact .wait rfl (by rw [hlk]; rfl)
    | none =>
      have hb : Pool.run cfg s id a (.want o) =
          .ok ({ s with lock := fun j => if j = cfg.lockOf o.pool then some id else s.lock j }.at id (.inside o)) := by
        simp [Pool.run, hl _ hlk]
      have key : ∀ f', At cfg o byRef f'.scopes f'.items (.inside o) → f'.exiting = false → f'.ret = none → f'.panicking = false →
          (lang cfg).run m t a [{ scopes := f.scopes, items := f.items }] =
            .ok ({ m with lock := fun j => if j = cfg.lockOf o.pool then some t else m.lock j }, [f'], none) →
          Out cfg gone id (.op o byRef) m s a { scopes := f.scopes, items := f.items } (.want o)
            ((lang cfg).run m t a [{ scopes := f.scopes, items := f.items }]) := by
        intro f' h1 h2 h3 h4 h5
        refine Out.base ht hb rfl ⟨hs.heap, hs.table, hs.gone⟩ (f' := f')
          (m' := { m with lock := fun j => if j = cfg.lockOf o.pool then some t else m.lock j }) ?_ (fun _ _ _ => rfl) h5
        obtain ⟨a, b, c, d, e⟩ := f'
        cases h2; cases h3; cases h4
        exact .at h1
      cases o with
      | intern k q v =>
        have hlk' : m.lock (cfg.lockOf k) = none := hlk
        simp only [start] at hst
        cases ho : cfg.owns k with
        | true =>
          rw [ho] at hst
          simp only [if_true] at hst
          have e := Option.some.inj hst
          subst e
          refine key { scopes := _, items := _ } (.look ho) rfl rfl rfl ?_
          cases byRef <;> simp [Lang.run, Lang.enter, Lang.stmt, exec, arenaCode, hlk'] <;> and_intros <;> rfl
        | false =>
          rw [ho] at hst
          have e := Option.some.inj hst
          subst e
          refine key { scopes := _, items := _ } (.block (.intern ho)) rfl rfl rfl ?_
          cases byRef <;> simp [Lang.run, Lang.enter, Lang.stmt, exec, internCode, withLock, hlk'] <;> and_intros <;> rfl
      | query k q =>
        have hlk' : m.lock (cfg.lockOf k) = none := hlk
        simp only [start] at hst
        cases ho : cfg.owns k with
        | true => rw [ho] at hst; cases hst
        | false =>
          rw [ho] at hst
          have e := Option.some.inj hst
          subst e
          refine key { scopes := _, items := _ } (.block (.query ho)) rfl rfl rfl ?_
          simp [Lang.run, Lang.enter, Lang.stmt, exec, queryCode, withLock, hlk'] <;> and_intros <;> rfl
      | len k =>
        have hlk' : m.lock (cfg.lockOf k) = none := hlk
        simp only [start] at hst
        cases ho : cfg.owns k with
        | true => rw [ho] at hst; cases hst
        | false =>
          rw [ho] at hst
          have e := Option.some.inj hst
          subst e
          refine key { scopes := _, items := _ } (.block (.len ho)) rfl rfl rfl ?_
          simp [Lang.run, Lang.enter, Lang.stmt, exec, lenCode, withLock, hlk'] <;> and_intros <;> rfl
      | clear k => cases hst
  | block hb => exact .still ht hs (.at (.closure hb)) rfl
  | closure hb =>
    cases hb with
    | @intern k q v byRef ho =>
      refine .still (m' := m) ht hs (.at (.look ho)) ?_
      cases byRef <;> rfl
    | query ho => exact .still ht hs (.at (.qlook ho)) rfl
    | len ho => exact .still ht hs (.at (.len ho)) rfl
  | @look k q v own byRef ho =>
    have hk := alive k rfl
    have hok : Pool.tableOk m.view k = true := by rw [hs.tableOk hk]; exact I.tableOk k
    have hok' : Pool.tableOk s (Pool.Op.intern k q v).pool = true := I.tableOk k
    cases hf : Pool.find s k q with
    | some p =>
      have hb : Pool.run cfg s id a (.inside (.intern k q v)) = .ok (s.at id (.dropArg k q v p)) := by
        simp only [Pool.run, hok', if_true, hf]
      refine Out.base ht hb rfl ⟨hs.heap, hs.table, hs.gone⟩ (.at (.hit ho)) same ?_
      rw [← hs.find hk] at hf
      cases own <;> cases byRef <;> simp [Lang.run, Lang.stmt, exec, topSc, argV, Scopes.get, scopeGet, hok, hf]
    | none =>
      have hb : Pool.run cfg s id a (.inside (.intern k q v)) = .ok (s.at id (.build k q v)) := by
        simp only [Pool.run, hok', if_true, hf]
      refine Out.base ht hb rfl ⟨hs.heap, hs.table, hs.gone⟩ (.at (.miss ho)) same ?_
      rw [← hs.find hk] at hf
      cases own <;> cases byRef <;> simp [Lang.run, Lang.stmt, exec, topSc, argV, Scopes.get, scopeGet, hok, hf]
  | @hit k q v own byRef p ho =>
    cases own with
    | true =>
      exact .still (m' := m) ht hs (.at (.hit2 ho)) rfl
    | false =>
      refine .still (m' := m) (f' := { scopes := _, items := _, exiting := true, ret := some (.ptr p) }) ht hs ?_ rfl
      refine .leave (G1 := glue (argV byRef k q v)) (G2 := []) rfl rfl rfl rfl (.inr ⟨k, q, v, p, rfl, rfl, rfl⟩) ?_ ?_ rfl ?_
      · cases byRef <;> rfl
      · cases byRef <;> rfl
      · intro h
        rw [show cfg.owns (Pool.Op.intern k q v).pool = false from ho] at h
        rcases h with h | h <;> cases h
  | @hit2 k q v byRef p ho =>
    refine .still (m' := m) (f' := { scopes := _, items := _, exiting := true, ret := some (.ptr p) }) ht hs ?_ rfl
    refine .leave (G1 := []) (G2 := glue (argV byRef k q v)) rfl rfl rfl rfl (.inr ⟨k, q, v, p, rfl, rfl, rfl⟩) ?_ rfl ?_ (fun _ => rfl)
    · cases byRef <;> rfl
    · cases byRef <;> rfl
  | @miss k q v own byRef ho =>
    cases byRef with
    | true => exact .still (m' := m) ht hs (.at (.from ho)) rfl
    | false => exact .still (m' := m) ht hs (.at (.mk ho)) rfl
  | @«from» k q v own ho =>
    refine .still (m' := { m with born := (k, v) :: m.born }) ht hs (.at (.mk ho)) ?_
    cases own <;> rfl
  | @mk k q v own byRef ho =>
    have hk := alive k rfl
    cases ha : Pool.allocAt cfg m.used k v a with
    | none =>
      have e : (lang cfg).run m t a [{ scopes := mkSc cfg own byRef k q v :: lowSc cfg own k, items := .stmt (.bind .bx (.boxNew (if byRef then .t else .val))) :: ((tailC own k).map .stmt ++ endIt own) }] = .blocked := by
        cases own <;> cases byRef <;> simp [Lang.run, Lang.stmt, exec, mkSc, topSc, Scopes.get, scopeGet, ha]
      rw [e]; exact .alloc ha
    | some addr =>
      have ha' := hs.alloc ha
      have hb : Pool.run cfg s id a (.build k q v) = .ok ({ s with
          heap := { pool := k, ptr := { addr := addr, info := cfg.info k v }, val := v } :: s.heap }.at id
            (.insert k q v { addr := addr, info := cfg.info k v })) := by
        simp only [Pool.run, ha']
      refine Out.base (m' := { m with heap := { pool := k, ptr := { addr := addr, info := cfg.info k v }, val := v } :: m.heap })
        ht hb rfl ⟨?_, hs.table, hs.gone⟩ (.at (.made ho)) ?_ ?_
      · simp only [Pool.State.at, hs.heap]
        rw [List.filter_cons_of_pos (by simp [hk])]
      · intro k' hk' p
        rw [List.countP_cons_of_neg]
        simp only [Obj.is, decide_eq_true_eq]
        rintro ⟨e, _⟩
        exact hk (e ▸ hk')
      · cases own <;> cases byRef <;> simp [Lang.run, Lang.stmt, exec, mkSc, topSc, Scopes.get, scopeGet, ha, Scopes.set, scopeSet, Scopes.declare, madeSc]
  | @made k q v own byRef p ho =>
    refine .still (m' := m) ht hs (.at (.ins ho)) ?_
    cases own <;> cases byRef <;> rfl
  | @ins k q v own byRef p ho =>
    have hk := alive k rfl
    have hok : Pool.tableOk m.view k = true := by rw [hs.tableOk hk]; exact I.tableOk k
    have hok' : Pool.tableOk s k = true := I.tableOk k
    obtain ⟨_, _, hmem⟩ := I.pcs id _ ht
    have hd : Pool.deref m.view k p = some v := by rw [hs.deref hk]; exact (I.deref_iff lay k p v).mpr hmem
    have hf' := find_ins I ht
    have hf : Pool.find m.view k (.ofVal v) = none := by rw [hs.find hk]; exact hf'
    have hb : Pool.run cfg s id a (.insert k q v p) = .ok ((s.setTable k (p :: s.table k)).commit id (.intern k q v) (.ptr p)) := by
      simp only [Pool.run, hok', if_true, hf']
    refine Out.base (m' := { m with table := fun j => if j = k then p :: m.table k else m.table j })
      ht hb rfl ⟨hs.heap, ?_, hs.gone⟩ (.at (.ret ho)) same ?_
    · simp only [Pool.State.commit, Pool.State.setTable, hs.table]
    · cases own <;> cases byRef <;>
        simp [Lang.run, Lang.stmt, exec, madeSc, topSc, Scopes.get, scopeGet, Scopes.set, scopeSet, hok, hd, hf]
  | @ret k q v own byRef p ho =>
    refine .still (m' := m) (f' := { scopes := _, items := _, exiting := true, ret := some (.ptr p) }) ht hs ?_ rfl
    refine .leave (G1 := []) (G2 := []) rfl rfl rfl rfl (.inl rfl) ?_ rfl rfl (fun _ => rfl)
    cases own <;> cases byRef <;> rfl
  | @qlook k q byRef ho =>
    have hk := alive k rfl
    have hok : Pool.tableOk m.view k = true := by rw [hs.tableOk hk]; exact I.tableOk k
    have hok' : Pool.tableOk s (Pool.Op.query k q).pool = true := I.tableOk k
    have hb : Pool.run cfg s id a (.inside (.query k q)) = .ok (s.commit id (.query k q) (.bool (Pool.find s k q).isSome)) := by
      simp only [Pool.run, hok', if_true]
    refine Out.base ht hb rfl ⟨hs.heap, hs.table, hs.gone⟩ (.at (.qret (x := Pool.find m.view k q) ho)) same ?_
    rw [← hs.find hk]
    cases hf : Pool.find m.view k q <;> simp [Lang.run, Lang.stmt, exec, Scopes.get, scopeGet, hok, hf]
  | @qret k q byRef x b ho =>
    refine .still (m' := m) (f' := { scopes := _, items := _, exiting := true, ret := some (.bool b) }) ht hs ?_ rfl
    refine .leave (G1 := []) (G2 := []) rfl rfl rfl rfl (.inl rfl) ?_ rfl rfl (fun _ => rfl)
    cases x <;> rfl
  | @len k byRef ho =>
    have hk := alive k rfl
    have hok' : Pool.tableOk s (Pool.Op.len (V := V) k).pool = true := I.tableOk k
    have hb : Pool.run cfg s id a (.inside (.len k)) = .ok (s.commit id (.len k) (.num (s.table k).length)) := by
      simp only [Pool.run, hok', if_true]
    rw [hs.table] at hb
    refine Out.base (f' := { scopes := _, items := _, exiting := true, ret := some (.num (m.table k).length) }) ht hb rfl
      ⟨hs.heap, hs.table, hs.gone⟩ ?_ same rfl
    exact .leave (G1 := []) (G2 := []) rfl rfl rfl rfl (.inl rfl) rfl rfl rfl (fun _ => rfl)

omit [DecidableEq K] [BEq V] [Hashable V] in
theorem windG_glue (l : List (Glue K V)) (scs : Scopes Var (Val K V)) (r : List (It K V)) : windG scs (l.map .glue ++ r) = l ++ windG scs r := by
  induction l with
  | nil => rfl
  | cons g l ih =>
    cases scs <;> simp only [List.map_cons, List.cons_append, windG] <;> rw [ih]

omit [DecidableEq K] [BEq V] [Hashable V] in
theorem windG_stmt (s : St K) (scs : Scopes Var (Val K V)) (r : List (It K V)) : windG scs (.stmt s :: r) = windG scs r := by
  cases scs <;> rfl

/-- A function on its way out. -/
theorem exit_run (hn : NestedFr f) (he : f.exiting = true) (m : Mem K V) (t : Tid) (a : Nat) :
    (f.items = [] ∧ (lang cfg).run m t a [f] = .ok (m, [], f.ret)) ∨
    (∃ f', (lang cfg).run m t a [f] = .ok (m, [f'], none) ∧ windG f'.scopes f'.items = windG f.scopes f.items ∧ f'.exiting = true ∧
      f'.ret = f.ret ∧ f'.panicking = f.panicking) ∨
    ∃ g r, f.items = .glue g :: r ∧ windG f.scopes f.items = g :: windG f.scopes r := by
  cases hi : f.items with
  | nil => exact .inl ⟨rfl, by simp only [Lang.run, hi]⟩
  | cons i r =>
    cases i with
    | stmt s =>
      refine .inr (.inl ⟨{ f with items := r }, ?_, ?_, he, rfl, rfl⟩)
      · simp only [Lang.run, hi, he, if_true]
      · exact (windG_stmt _ _ _).symm
    | again l =>
      refine .inr (.inl ⟨{ f with items := r }, ?_, ?_, he, rfl, rfl⟩)
      · simp only [Lang.run, hi, he, if_true]
      · cases f.scopes <;> rfl
    | close =>
      rw [NestedFr, hi] at hn
      cases hsc : f.scopes with
      | nil => rw [hsc] at hn; cases hn
      | cons sc scs =>
        refine .inr (.inl ⟨{ f with scopes := scs, items := (lang cfg).scopeGlue sc ++ r }, ?_, ?_, he, rfl, rfl⟩)
        · simp only [Lang.run, hi, hsc]
        · exact windG_glue (scGlue sc) scs r
    | glue g =>
      refine .inr (.inr ⟨g, r, rfl, ?_⟩)
      cases f.scopes <;> rfl

omit [BEq V] [Hashable V] in
theorem find_of_count {h : List (Obj K V)} {k : K} {p : Ptr} (hc : 0 < h.countP (Obj.is k p)) : ∃ o, h.find? (Obj.is k p) = some o := by
  rw [List.countP_pos_iff] at hc
  obtain ⟨o, ho, hp⟩ := hc
  cases hf : h.find? (Obj.is k p) with
  | some o' => exact ⟨o', rfl⟩
  | none => exact absurd hp (by simpa using List.find?_eq_none.mp hf o ho)

omit [BEq V] [Hashable V] in
theorem free_perm {h : List (Obj K V)} {k : K} {p : Ptr} {o : Obj K V} (hf : h.find? (Obj.is k p) = some o) : h.Perm (o :: Pool.free h k p) := by
  induction h with
  | nil => cases hf
  | cons x h ih =>
    rw [List.find?_cons] at hf
    simp only [Pool.free]
    cases hx : Obj.is k p x with
    | true => rw [hx] at hf; cases hf; rw [List.eraseP_cons_of_pos hx]
    | false =>
      rw [hx] at hf
      rw [List.eraseP_cons_of_neg (by simp [hx])]
      exact ((ih hf).cons x).trans (.swap o x _)

omit [BEq V] [Hashable V] in
theorem countP_free {h : List (Obj K V)} {k : K} {p : Ptr} {o : Obj K V} (hf : h.find? (Obj.is k p) = some o) (P : Obj K V → Bool) :
    h.countP P = (Pool.free h k p).countP P + if P o then 1 else 0 := by
  rw [(free_perm hf).countP_eq, List.countP_cons]

omit [BEq V] [Hashable V] in
theorem countP_free_ne {k k' : K} (hne : k ≠ k') (h : List (Obj K V)) (p p' : Ptr) : (Pool.free h k p).countP (Obj.is k' p') = h.countP (Obj.is k' p') := by
  rw [List.countP_eq_length_filter, List.countP_eq_length_filter, Pool.free, eraseP_filter_not]
  intro x hx
  simp only [Obj.is, decide_eq_true_eq, decide_eq_false_iff_not] at hx ⊢
  exact fun h => hne (hx.1.symm.trans h.1)

omit [BEq V] [Hashable V] in
theorem is_of_find {h : List (Obj K V)} {k : K} {p : Ptr} {o : Obj K V} (hf : h.find? (Obj.is k p) = some o) : o.pool = k ∧ o.ptr = p := by
  simpa [Obj.is] using List.find?_some hf

/-- A step that the model does not see. -/
theorem Out.quiet {c : Call K V} {m' : Mem K V} (ht : s.threads[id]? = some pc) (hs : Shared gone m s) (hR : Rel cfg id s.done c f' pc)
    (hc : f'.panicking = true ∨ ∃ o byRef, c = .op o byRef) (h : X = .ok (m', [f'], none)) (e1 : m'.heap = m.heap := by rfl)
    (e2 : m'.table = m.table := by rfl) : Out cfg gone id c m s a f pc X := by
  subst h
  refine .ok ⟨⟨s, pc, .refl s, (set_self ht).symm, ⟨by rw [e1]; exact hs.heap, by rw [e2]; exact hs.table, hs.gone⟩, hR⟩,
    fun _ _ _ _ => by rw [e1], ?_⟩
  intro k hk hp
  rcases hc with hc | ⟨o, b, hc⟩
  · rw [hc] at hp; cases hp
  · rw [hc] at hk; cases hk

/-- Glue that the model does not see. -/
theorem soft_run {g : Glue K V} {r : List (It K V)} (hi : f.items = .glue g :: r) (hg : g.plain = true)
    (hd : ∀ k p, .dealloc k p ∈ owed f → 0 < m.husks.countP (Obj.is k p)) (t : Tid) :
    ∃ (m' : Mem K V) (more : List (Glue K V)), (lang cfg).run m t a [f] = .ok (m', [{ f with items := more.map .glue ++ r }], none) ∧ m'.heap = m.heap ∧ m'.table = m.table ∧
      more.all Glue.soft = true := by
  cases g with
  | value k v => exact ⟨{ m with dead := (k, v) :: m.dead }, [.user], by simp only [Lang.run, hi, drop]; rfl, rfl, rfl, rfl⟩
  | user => exact ⟨m, [], by simp only [Lang.run, hi, drop]; rfl, rfl, rfl, rfl⟩
  | unlock i => exact ⟨{ m with lock := fun j => if j = i then none else m.lock j }, [], by simp only [Lang.run, hi, drop]; rfl, rfl, rfl, rfl⟩
  | destroy k p => cases hg
  | dealloc k p =>
    obtain ⟨o, ho⟩ := find_of_count (hd k p (by simp [owed, hi, itGlue]))
    exact ⟨{ m with husks := Pool.free m.husks k p }, [], by simp only [Lang.run, hi, drop, ho]; rfl, rfl, rfl, rfl⟩

omit [DecidableEq K] [BEq V] [Hashable V] in
theorem soft_plain {l : List (Glue K V)} (h : l.all Glue.soft = true) : l.all Glue.plain = true := by
  rw [List.all_eq_true] at h ⊢
  intro g hg
  have := h g hg
  cases g <;> first | rfl | cases this

/-- The memory of a step of the model that ends the call. -/
theorem finish (ht : s.threads[id]? = some pc) {r : Ret}
    (hpc : pc = .leave o r ∨ ∃ k q v p, o = .intern k q v ∧ r = .ptr p ∧ pc = .dropArg k q v p) :
    ∃ s', Own cfg id s s' ∧ s'.threads = s.threads.set id .idle ∧ s'.heap = s.heap ∧ s'.table = s.table ∧ s'.gone = s.gone ∧
      { tid := id, op := o, ret := r } ∈ s'.done := by
  have leave : ∀ s : Pool.State K V, s.threads[id]? = some (.leave o r) → Pool.step cfg s (.run id 0) = .ok
      { (s.unlock (cfg.lockOf o.pool)).at id .idle with done := { tid := id, op := o, ret := r } :: s.done } := by
    intro s hs; simp only [Pool.step, hs, Pool.run]
  rcases hpc with rfl | ⟨k, q, v, p, rfl, rfl, rfl⟩
  · exact ⟨_, .run (.refl s) (leave s ht), rfl, rfl, rfl, rfl, List.mem_cons_self⟩
  · have h1 : Pool.step cfg s (.run id 0) = .ok (s.commit id (.intern k q v) (.ptr p)) := by simp only [Pool.step, ht, Pool.run]
    have h2 := leave (s.commit id (.intern k q v) (.ptr p)) (Pool.getElem?_set_self' ht)
    refine ⟨_, .run (.run (.refl s) h1) h2, ?_, rfl, rfl, rfl, List.mem_cons_self⟩
    simp [Pool.State.at, Pool.State.unlock, Pool.State.commit]

theorem run_rel {c : Call K V} (I : Pool.Inv cfg s) (lay : cfg.Layout) (ht : s.threads[id]? = some pc) (hs : Shared gone m s)
    (hl : ∀ i, m.lock i = none → s.lock i = none) (t : Tid) (hn : NestedFr f) (hR : Rel cfg id s.done c f pc)
    (hd : ∀ k p, .dealloc k p ∈ owed f → 0 < m.husks.countP (Obj.is k p))
    (hg : ∀ k, c = .dropArena k → k ∈ gone)
    (hp : ∀ k, c = .dropArena k → f.panicking = false → ∀ p, m.heap.countP (Obj.is k p) = (pend k f).count p) :
    Out cfg gone id c m s a f pc ((lang cfg).run m t a [f]) := by
  cases hR with
  | «at» h => exact run_at I lay ht hs hl t h
  | unwind he hpan hw =>
    rcases exit_run (cfg := cfg) hn he m t a with ⟨hi, h⟩ | ⟨f', h, h1, h2, h3, h4⟩ | ⟨g, r, hi, hG⟩
    · rw [h]; exact .pop rfl hi (fun h => by rw [hpan] at h; cases h)
    · exact .quiet ht hs (.unwind h2 (h4.trans hpan) (by rw [h1]; exact hw)) (.inl (h4.trans hpan)) h
    · rw [hG, List.all_cons, Bool.and_eq_true] at hw
      obtain ⟨m', more, h, e1, e2, hm⟩ := soft_run (cfg := cfg) (a := a) hi hw.1 hd t
      refine .quiet (f' := { f with items := more.map .glue ++ r }) ht hs (.unwind he hpan ?_) (.inl hpan) h e1 e2
      show (windG f.scopes _).all _ = true
      rw [windG_glue, List.all_append, soft_plain hm, hw.2]; rfl
  | @unwindBox k q v p byRef _ G ho he hpan hw hG hu =>
    rcases exit_run (cfg := cfg) hn he m t a with ⟨hi, h⟩ | ⟨f', h, h1, h2, h3, h4⟩ | ⟨g, r, hi, hG'⟩
    · rw [hi] at hw; cases f.scopes <;> cases hw
    · exact .quiet ht hs (.unwindBox ho h2 (h4.trans hpan) (by rw [h1]; exact hw) hG hu) (.inl (h4.trans hpan)) h
    · rw [hw] at hG'
      obtain ⟨rfl, hT⟩ := List.cons.inj hG'
      have hk : k ∉ gone := by rw [← hs.gone]; exact I.alive id _ k ht rfl
      obtain ⟨_, _, hmem⟩ := I.pcs id _ ht
      have hmem' : ⟨k, p, v⟩ ∈ m.heap := by rw [hs.heap] at hmem; exact (List.mem_filter.mp hmem).1
      obtain ⟨o, hf⟩ := find_of_count (k := k) (p := p) (List.countP_pos_iff.mpr ⟨_, hmem', by simp [Obj.is]⟩)
      have hrun : (lang cfg).run m t a [f] = .ok ({ m with heap := Pool.free m.heap k p, husks := o :: m.husks },
          [{ f with items := [.value k o.val, .dealloc k p].map .glue ++ r }], none) := by
        simp only [Lang.run, hi, drop, hf]; rfl
      rw [hrun]
      have hb : Pool.step cfg s (.panic id) = .ok ({ s with heap := Pool.free s.heap k p }.unlock (cfg.lockOf k) |>.at id .idle) := by
        simp only [Pool.step, ht, Pool.runPanic, ho, if_true]
      refine .ok ⟨⟨_, .idle, .panic (.refl s) hb, rfl, ⟨?_, hs.table, hs.gone⟩, .unwind (by exact he) (by exact hpan) ?_⟩, ?_, fun _ h => by cases h⟩
      · show Pool.free s.heap k p = (Pool.free m.heap k p).filter _
        rw [hs.heap]
        exact eraseP_filter_of (is_alive hk p) _
      · show (windG f.scopes _).all _ = true
        rw [windG_glue, ← hT, List.all_append, hG]; rfl
      · intro k' hk' _ p'
        have hne : k ≠ k' := fun e => hk (e ▸ hk')
        exact countP_free_ne hne _ _ _
  | @leave o byRef _ _ x r G1 G2 he hpan hret hx hpc hw hG1 hG2 hown =>
    rcases exit_run (cfg := cfg) hn he m t a with ⟨hi, h⟩ | ⟨f', h, h1, h2, h3, h4⟩ | ⟨g, r', hi, hG⟩
    · rw [hi] at hw
      cases f.scopes <;> simp [windG] at hw
    · exact .quiet ht hs (.leave h2 (h4.trans hpan) (h3.trans hret) hx hpc (by rw [h1]; exact hw) hG1 hG2 hown) (.inr ⟨_, _, rfl⟩) h
    · rw [hw] at hG
      cases G1 with
      | nil =>
        obtain ⟨rfl, hT⟩ := List.cons.inj hG
        obtain ⟨m', more, h, e1, e2, hm⟩ := soft_run (cfg := cfg) (a := a) hi rfl hd t
        rw [h]
        obtain ⟨s', q1, q2, q3, q4, q5, q6⟩ := finish (cfg := cfg) ht hpc
        refine .ok ⟨⟨s', .idle, q1, q2, ⟨by rw [q3, e1]; exact hs.heap, by rw [q4, e2]; exact hs.table, by rw [q5]; exact hs.gone⟩,
          .done (by exact he) (by exact hpan) (by exact hret) hx q6 ?_⟩, fun _ _ _ _ => by rw [e1], fun _ h => by cases h⟩
        show (windG f.scopes _).all _ = true
        rw [windG_glue, List.all_append, hm, ← hT, hG2]; rfl
      | cons g1 G1 =>
        obtain ⟨rfl, hT⟩ := List.cons.inj hG
        rw [List.all_cons, Bool.and_eq_true] at hG1
        obtain ⟨m', more, h, e1, e2, hm⟩ := soft_run (cfg := cfg) (a := a) hi (by revert hG1; cases g1 <;> simp [Glue.soft, Glue.plain]) hd t
        refine .quiet (f' := { f with items := more.map .glue ++ r' }) ht hs
          (.leave (G1 := more ++ G1) (G2 := G2) he hpan hret hx hpc ?_ ?_ hG2 ?_)
          (.inr ⟨_, _, rfl⟩) h e1 e2
        · show windG f.scopes _ = _
          rw [windG_glue, ← hT, List.append_assoc]; rfl
        · rw [List.all_append, hm, hG1.2]; rfl
        · intro h; cases hown h
  | @done o byRef _ x r he hpan hret hx hmem hw =>
    rcases exit_run (cfg := cfg) hn he m t a with ⟨hi, h⟩ | ⟨f', h, h1, h2, h3, h4⟩ | ⟨g, r', hi, hG⟩
    · rw [h]; exact .pop rfl hi (fun _ => ⟨x, r, hret, hx, hmem⟩)
    · exact .quiet ht hs (.done h2 (h4.trans hpan) (h3.trans hret) hx hmem (by rw [h1]; exact hw)) (.inr ⟨_, _, rfl⟩) h
    · rw [hG, List.all_cons, Bool.and_eq_true] at hw
      obtain ⟨m', more, h, e1, e2, hm⟩ := soft_run (cfg := cfg) (a := a) hi (by have := hw.1; revert this; cases g <;> simp [Glue.soft, Glue.plain]) hd t
      refine .quiet (f' := { f with items := more.map .glue ++ r' }) ht hs (.done he hpan hret hx hmem ?_) (.inr ⟨_, _, rfl⟩) h e1 e2
      show (windG f.scopes _).all _ = true
      rw [windG_glue, List.all_append, hm, hw.2]; rfl
  | @drop k gs ps hE =>
    have hk := hg k rfl
    have hp := hp k rfl rfl
    have step : ∀ (m' : Mem K V) (gs' : List (Glue K V)) (ps' : List Ptr), Elem k gs' → m'.table = m.table →
        m'.heap.filter (fun o => decide (o.pool ∉ gone)) = m.heap.filter (fun o => decide (o.pool ∉ gone)) →
        (∀ k' ∈ gone, k ≠ k' → ∀ p, m'.heap.countP (Obj.is k' p) = m.heap.countP (Obj.is k' p)) →
        (∀ p, m'.heap.countP (Obj.is k p) =
          (pend k { scopes := [[]], items := gs'.map .glue ++ ((dropCode k ps').map .stmt ++ [.close]) : Fr K V }).count p) →
        (lang cfg).run m t a [{ scopes := [[]], items := gs.map .glue ++ ((dropCode k ps).map .stmt ++ [.close]) }] =
          .ok (m', [{ scopes := [[]], items := gs'.map .glue ++ ((dropCode k ps').map .stmt ++ [.close]) }], none) →
        Out cfg gone id (.dropArena k) m s a { scopes := [[]], items := gs.map .glue ++ ((dropCode k ps).map .stmt ++ [.close]) } .idle
          ((lang cfg).run m t a [{ scopes := [[]], items := gs.map .glue ++ ((dropCode k ps).map .stmt ++ [.close]) }]) := by
      intro m' gs' ps' hE' e1 e2 e3 e4 h
      rw [h]
      refine .ok ⟨⟨s, .idle, .refl s, (set_self ht).symm, ⟨by rw [e2]; exact hs.heap, by rw [e1]; exact hs.table, hs.gone⟩, .drop hE'⟩, e3, ?_⟩
      intro k' hk' _ _ p
      cases hk'
      exact e4 p
    cases hE with
    | none =>
      cases ps with
      | nil =>
        refine .ok ⟨⟨s, .idle, .refl s, (set_self ht).symm, hs, .dropped⟩, fun _ _ _ _ => rfl, ?_⟩
        intro k' hk' _ _ p
        cases hk'
        exact hp p
      | cons p ps => exact step m [.destroy k p] ps (.destroy p) rfl rfl (fun _ _ _ _ => rfl) hp rfl
    | destroy p =>
      have hc : 0 < m.heap.countP (Obj.is k p) := by
        rw [hp p]; simp [pend]
      obtain ⟨o, hf⟩ := find_of_count hc
      refine step { m with heap := Pool.free m.heap k p, husks := o :: m.husks } [.value k o.val, .dealloc k p] ps (.value _ _) rfl ?_ ?_ ?_ ?_
      · refine eraseP_filter_not (fun x hx => ?_) _
        simp only [Obj.is, decide_eq_true_eq] at hx
        simp [hx.1, hk]
      · exact fun k' _ hne p' => countP_free_ne hne _ _ _
      · intro p'
        have h1 := countP_free hf (Obj.is k p')
        rw [hp p'] at h1
        obtain ⟨e1, e2⟩ := is_of_find hf
        simp only [pend, List.map_cons, List.map_nil, List.cons_append, List.nil_append, List.filterMap_cons, if_true, List.count_cons, Obj.is, e1, e2,
          true_and, decide_eq_true_eq, beq_iff_eq] at h1 ⊢
        omega
      · simp only [List.map_cons, List.map_nil, List.cons_append, List.nil_append, Lang.run, drop, hf]; rfl
    | value v p => exact step { m with dead := (k, v) :: m.dead } [.user, .dealloc k p] ps (.user _) rfl rfl (fun _ _ _ _ => rfl) hp rfl
    | user p => exact step m [.dealloc k p] ps (.dealloc _) rfl rfl (fun _ _ _ _ => rfl) hp rfl
    | dealloc p =>
      obtain ⟨o, ho⟩ := find_of_count (hd k p (by simp [owed, itGlue]))
      refine step { m with husks := Pool.free m.husks k p } [] ps .none rfl rfl (fun _ _ _ _ => rfl) hp ?_
      simp only [List.map_cons, List.map_nil, List.cons_append, List.nil_append, Lang.run, drop, ho]; rfl
  | @dropped k => exact .pop rfl rfl (fun _ => rfl)

/-- The end of a call that panics, for the model. -/
theorem panic_idle {c : Call K V} (ht : s.threads[id]? = some pc) (hs : Shared gone m s) {s' : Pool.State K V} (hb : Pool.runPanic cfg s id pc = .ok s')
    (e1 : s'.heap = s.heap) (e2 : s'.table = s.table) (e3 : s'.gone = s.gone) (e4 : s'.threads = s.threads.set id .idle)
    (h1 : f'.exiting = true) (h2 : f'.panicking = true) (hG : (windG f'.scopes f'.items).all Glue.plain = true) :
    Eff cfg gone id c m s f m f' := by
  refine ⟨⟨s', .idle, .panic (.refl s) ?_, e4, ⟨by rw [e1]; exact hs.heap, by rw [e2]; exact hs.table, by rw [e3]; exact hs.gone⟩, .unwind h1 h2 hG⟩,
    fun _ _ _ _ => rfl, ?_⟩
  · simp only [Pool.step, ht, hb]
  · intro k _ h; rw [h2] at h; cases h

/-- A panic that the model does not see. -/
theorem panic_quiet {c : Call K V} (ht : s.threads[id]? = some pc) (hs : Shared gone m s) (h2 : f'.panicking = true)
    (hR : Rel cfg id s.done c f' pc) : Eff cfg gone id c m s f m f' :=
  ⟨⟨s, pc, .refl s, (set_self ht).symm, hs, hR⟩, fun _ _ _ _ => rfl, fun k _ h => by rw [h2] at h; cases h⟩

/-- The start of a function. -/
theorem start_head {o : Pool.Op K V} {byRef : Bool} {f : Fr K V} (h : start cfg o byRef = some f) : ∃ (y : Var) (x : Val K V) (l : List (St K)),
    f = { scopes := [[(y, some x)]], items := .stmt (.bind .m (.lock o.pool)) :: (l.map .stmt ++ [.close]) } ∧
    glue x = (taken o byRef).map fun p => .value p.1 p.2 := by
  cases o with
  | intern k q v =>
    simp only [start] at h
    cases ho : cfg.owns k with
    | true =>
      rw [ho] at h
      have e := Option.some.inj h
      subst e
      exact ⟨.val, argV byRef k q v, .choose .b (.get k .val) [.bind .p (.ptrOf .b), .ret (.ptrOf .p)] [] :: make byRef ++ arenaTail k, rfl, by cases byRef <;> rfl⟩
    | false =>
      rw [ho] at h
      have e := Option.some.inj h
      subst e
      exact ⟨.f, argV byRef k q v, _, rfl, by cases byRef <;> rfl⟩
  | query k q =>
    simp only [start] at h
    cases ho : cfg.owns k with
    | true => rw [ho] at h; cases h
    | false =>
      rw [ho] at h
      have e := Option.some.inj h
      subst e
      exact ⟨_, _, _, rfl, rfl⟩
  | len k =>
    simp only [start] at h
    cases ho : cfg.owns k with
    | true => rw [ho] at h; cases h
    | false =>
      rw [ho] at h
      have e := Option.some.inj h
      subst e
      exact ⟨_, _, _, rfl, rfl⟩
  | clear k => cases h

theorem panic_rel {c : Call K V} {fs' : List (Fr K V)} (ht : s.threads[id]? = some pc) (hs : Shared gone m s) (hn : NestedFr f)
    (hR : Rel cfg id s.done c f pc) (h : (lang cfg).panic m [f] = .ok fs') : ∃ f', fs' = [f'] ∧ Eff cfg gone id c m s f m f' := by
  have hpan : f.panicking = false := by
    obtain ⟨_, _, _, _, _, _, hp⟩ := panic_change (t := 0) hn h
    exact hp
  have exit : f.exiting = true → ∃ r, f.items = .glue .user :: r ∧ fs' = [{ f with items := r, exiting := true, panicking := true }] := by
    intro he
    simp only [Lang.panic, List.any_cons, hpan, List.any_nil, Bool.or_false, Bool.false_eq_true, if_false, he, if_true] at h
    cases hi : f.items with
    | nil => rw [hi] at h; cases h
    | cons i r =>
      rw [hi] at h
      cases i with
      | close => cases h
      | again l => cases h
      | stmt s => cases h
      | glue g => cases g <;> first | (cases h; exact ⟨r, rfl, rfl⟩) | cases h
  cases hR with
  | unwind he hp => rw [hp] at hpan; cases hpan
  | unwindBox ho he hp => rw [hp] at hpan; cases hpan
  | @leave o byRef _ _ x r G1 G2 he hp hret hx hpc hw hG1 hG2 hown =>
    obtain ⟨r', hi, rfl⟩ := exit he
    refine ⟨_, rfl, ?_⟩
    have hw' : windG f.scopes f.items = .user :: windG f.scopes r' := by rw [hi]; cases f.scopes <;> rfl
    rw [hw] at hw'
    cases G1 with
    | nil => cases (List.cons.inj hw').1
    | cons g1 G1 =>
      obtain ⟨rfl, hT⟩ := List.cons.inj hw'
      rcases hpc with rfl | ⟨k, q, v, p, rfl, rfl, rfl⟩
      · cases hown (.inr rfl)
      · refine panic_idle ht hs rfl rfl rfl rfl rfl rfl rfl ?_
        show (windG f.scopes r').all _ = true
        rw [← hT]
        rw [List.all_cons, Bool.and_eq_true] at hG1
        show (G1 ++ _).all _ = true
        rw [List.all_append, soft_plain hG1.2, List.all_cons, soft_plain hG2]; rfl
  | @done o byRef _ x r he hp hret hx hmem hw =>
    obtain ⟨r', hi, rfl⟩ := exit he
    refine ⟨_, rfl, panic_quiet ht hs rfl (.unwind rfl rfl ?_)⟩
    have hw' : windG f.scopes f.items = .user :: windG f.scopes r' := by rw [hi]; cases f.scopes <;> rfl
    rw [hw', List.all_cons, Bool.and_eq_true] at hw
    exact soft_plain hw.2
  | dropped => cases h
  | @drop k gs ps hE =>
    cases hE with
    | none => cases ps <;> cases h
    | destroy p => cases h
    | value v p => cases h
    | dealloc p => cases h
    | user p =>
      cases h
      refine ⟨_, rfl, panic_quiet ht hs rfl (.unwind rfl rfl ?_)⟩
      have : ∀ l : List Ptr, windG [[]] ((dropCode k l).map .stmt ++ [.close] : List (It K V)) = [] := by
        intro l
        induction l with
        | nil => rfl
        | cons p l ih => exact ih
      show (.dealloc k p :: windG [[]] ((dropCode k ps).map .stmt ++ [.close]) : List (Glue K V)).all _ = true
      rw [this]; rfl
  | @«at» _ byRef _ _ _ hA =>
    cases hA with
    | want hst =>
      obtain ⟨y, x, l, rfl, _⟩ := start_head hst
      cases h
    | block hb => cases h
    | closure hb => cases h
    | @look k q v own byRef ho =>
      cases h
      refine ⟨_, rfl, panic_idle ht hs rfl rfl rfl rfl rfl rfl rfl ?_⟩
      cases own <;> cases byRef <;> rfl
    | @hit k q v own byRef p ho => cases own <;> cases h
    | hit2 ho => cases h
    | miss ho => cases h
    | @«from» k q v own ho =>
      cases h
      refine ⟨_, rfl, panic_idle ht hs rfl rfl rfl rfl rfl rfl rfl ?_⟩
      cases own <;> rfl
    | mk ho => cases h
    | @made k q v own byRef p ho => cases own <;> cases h
    | @ins k q v own byRef p ho =>
      cases own with
      | false =>
        cases h
        refine ⟨_, rfl, panic_idle ht hs (s' := s.unlock (cfg.lockOf k) |>.at id .idle) ?_ rfl rfl rfl rfl rfl rfl ?_⟩
        · simp only [Pool.runPanic, ho]; rfl
        · cases byRef <;> rfl
      | true =>
        cases h
        refine ⟨_, rfl, panic_quiet ht hs rfl (.unwindBox ho rfl rfl (G := [.unlock (cfg.lockOf k)]) ?_ rfl (List.mem_singleton.mpr rfl))⟩
        cases byRef <;> rfl
    | ret ho => cases h
    | qlook ho =>
      cases h
      exact ⟨_, rfl, panic_idle ht hs rfl rfl rfl rfl rfl rfl rfl rfl⟩
    | qret ho => cases h
    | len ho => cases h

/-- The statements of these functions. -/
theorem rel_simple {c : Call K V} {done : List (Entry K V)} (hR : Rel cfg id done c f pc) (he : f.exiting = false) (st : St K) (r : List (It K V))
    (hi : f.items = .stmt st :: r) : Simple st := by
  cases hR with
  | unwind he' => rw [he] at he'; cases he'
  | unwindBox _ he' => rw [he] at he'; cases he'
  | leave he' => rw [he] at he'; cases he'
  | done he' => rw [he] at he'; cases he'
  | dropped => cases hi
  | @drop k gs ps hE =>
    cases hE with
    | none => cases ps <;> cases hi; trivial
    | _ => cases hi
  | «at» hA =>
    cases hA with
    | want hst =>
      obtain ⟨y, x, l, rfl, _⟩ := start_head hst
      cases hi; trivial
    | block hb => cases hi; trivial
    | closure hb => cases hi; trivial
    | look ho => cases hi; trivial
    | @hit k q v own byRef p ho => cases own <;> cases hi <;> trivial
    | hit2 ho => cases hi; trivial
    | miss ho => cases hi
    | @«from» k q v own ho => cases own <;> cases hi <;> trivial
    | mk ho => cases hi; trivial
    | @made k q v own byRef p ho => cases own <;> cases hi <;> trivial
    | ins ho => cases hi; trivial
    | ret ho => cases hi; trivial
    | qlook ho => cases hi; trivial
    | qret ho => cases hi; trivial
    | len ho => cases hi; trivial

end
end Src.PoolCode
