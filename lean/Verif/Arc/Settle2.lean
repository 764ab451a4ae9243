import Verif.Arc.Settle
/-! Every step of an execution is matched by zero or more steps under another hash function and sharding, in which no lock is held for longer than one
critical section. -/
namespace Arc
variable {V : Type}

theorem small_set {cfg : Cfg V} {u w : State V} (h : Small cfg u) {t : Tid} {th th' : Thread V} (ht : u.threads[t]? = some th)
    (hw : w.threads = u.threads.set t th') (hh : w.handles = u.handles) (hst : storedHandles cfg w.heap = storedHandles cfg u.heap)
    (ho : ∀ p, (th'.owned cfg).count p ≤ (th.owned cfg).count p) : Small cfg w := by
  intro p
  have h1 := A_heap (cfg := cfg) ht hw p
  have h2 := h p
  have h3 := ho p
  rw [hh, hst] at h1
  simp only [A] at h1
  omega

theorem set_get {u : State V} {t : Tid} {th : Thread V} (ht : u.threads[t]? = some th) (th' : Thread V) : (u.threads.set t th')[t]? = some th' := by
  rw [set_getElem? _ _ _ _ _ ht, if_pos rfl]

theorem relock {u : State V} (hl : ∀ i, u.locks i = none) (sh : Nat) (t : Tid) :
    (fun j => if j = sh then none else if j = sh then some t else u.locks j) = u.locks := by
  funext j
  rw [hl j]
  by_cases h : j = sh <;> simp [h]

section
variable [BEq V]

theorem Witnessed.quiet [Hashable V] {cfg : Cfg V} {l : List (Event V)} {u u' : State V} (H : Witnessed cfg l u) {t : Tid} {a : Addr}
    (e : Arc.step cfg u (.run t a) = .ok u') (hs : Small cfg u') {th' : Thread V} (ht : u'.threads[t]? = some th') (hi : th'.isIdle = false) : Witnessed cfg l u' := by
  have h := Witnessed.step H (a := .run t a) trivial (fun _ _ _ => ⟨by simp, by simp⟩) e hs
  have h1 : begins cfg u (.run t a) ++ ends u (.run t a) u' = [] := by
    show [] ++ ending t u u' = []
    rw [List.nil_append]
    unfold ending
    rw [ht]
    cases u.threads[t]? with
    | none => rfl
    | some th => simp [hi]
  rwa [h1, List.append_nil] at h

/-- A successful lookup in one go. -/
theorem Witnessed.hit [Hashable V] {cfg : Cfg V} {l : List (Event V)} {u : State V} (H : Witnessed cfg l u) {t : Tid} {th : Thread V} {c : Call V} {b : Addr}
    {x : Cell V} (hl : ∀ i, u.locks i = none) (hok : tableOk u = true) (hsm : Small cfg u) (ht : u.threads[t]? = some th) (hpc : th.pc = .newLoop c)
    (htd : th.todo = [] ∧ th.ret = none) (hf : find u c.val = some b) (hx : get u.heap b = some x) (h0 : x.count ≠ 0)
    (hsm' : Small cfg ({ u with heap := setCount u.heap b (cfg.inc x.count) }.setThread t (unwindCall cfg c (some b) th.arg))) :
    Witnessed cfg l ({ u with heap := setCount u.heap b (cfg.inc x.count) }.setThread t (unwindCall cfg c (some b) th.arg)) := by
  rcases th with ⟨pc, todo, ret, arg⟩
  simp only at hpc htd
  obtain ⟨rfl, rfl⟩ := htd
  subst hpc
  have e1 : Arc.step cfg u (.run t 0) = .ok ((u.lock (cfg.shardOf c.val) t).setThread t { pc := .newFound c (cfg.shardOf c.val) b, arg := arg }) := by
    simp only [Arc.step, ht, run, hl, hok, hf, Option.isSome_none, Bool.not_true, Bool.false_eq_true, if_false]
  have H1 := H.quiet e1 (small_set hsm ht rfl rfl rfl fun p => Nat.le_refl _) (set_get (u := u) ht _) rfl
  have e2 : Arc.step cfg ((u.lock (cfg.shardOf c.val) t).setThread t { pc := .newFound c (cfg.shardOf c.val) b, arg := arg }) (.run t 0) =
      .ok ({ (u.lock (cfg.shardOf c.val) t) with heap := setCount u.heap b (cfg.inc x.count) }.setThread t { pc := .newHit c (cfg.shardOf c.val) b, arg := arg }) := by
    have : (u.threads.set t ({ pc := .newFound c (cfg.shardOf c.val) b, arg := arg } : Thread V))[t]? = _ := set_get ht _
    simp only [Arc.step, State.setThread, State.lock, this, run, hx, ne_eq, h0, not_false_eq_true, if_true, List.set_set]
  have H2 := H1.quiet e2 (small_set (th' := { pc := .newHit c (cfg.shardOf c.val) b, arg := arg }) hsm' (set_get (u := u) ht _)
    (by simp only [State.setThread, State.lock, List.set_set]) rfl rfl
    (fun p => by cases hc : c.conv <;> simp [unwindCall, hc, Thread.owned, Pc.owned, List.count_cons])) (set_get (u := u) ht _) rfl
  have e3 : Arc.step cfg ({ (u.lock (cfg.shardOf c.val) t) with heap := setCount u.heap b (cfg.inc x.count) }.setThread t
      { pc := .newHit c (cfg.shardOf c.val) b, arg := arg }) (.run t 0) =
      .ok ({ u with heap := setCount u.heap b (cfg.inc x.count) }.setThread t (unwindCall cfg c (some b) arg)) := by
    have : (u.threads.set t ({ pc := .newHit c (cfg.shardOf c.val) b, arg := arg } : Thread V))[t]? = _ := set_get ht _
    simp only [Arc.step, State.setThread, State.lock, State.unlock, this, run, List.set_set, relock hl]
  exact H2.quiet e3 hsm' (set_get (u := u) ht _) (by simp [unwindCall, Thread.isIdle])

/-- A successful insertion in one go. -/
theorem Witnessed.insert [Hashable V] {cfg : Cfg V} {l : List (Event V)} {u : State V} (H : Witnessed cfg l u) {t : Tid} {th : Thread V} {c : Call V} {b : Addr}
    {x : Cell V} (hl : ∀ i, u.locks i = none) (hok : tableOk u = true) (hsm : Small cfg u) (ht : u.threads[t]? = some th) (hpc : th.pc = .newEntry c b)
    (htd : th.todo = [] ∧ th.ret = none) (hf : find u x.data = none) (hx : get u.heap b = some x)
    (hsm' : Small cfg ({ u with table := b :: u.table }.setThread t { pc := .idle, todo := [], ret := some b, arg := th.arg })) :
    Witnessed cfg l ({ u with table := b :: u.table }.setThread t { pc := .idle, todo := [], ret := some b, arg := th.arg }) := by
  rcases th with ⟨pc, todo, ret, arg⟩
  simp only at hpc htd
  obtain ⟨rfl, rfl⟩ := htd
  subst hpc
  have e1 : Arc.step cfg u (.run t 0) = .ok ((u.lock (cfg.shardOf x.data) t).setThread t { pc := .newVacant c (cfg.shardOf x.data) b, arg := arg }) := by
    simp only [Arc.step, ht, run, hx, hl, hok, hf, Option.isSome_none, Bool.not_true, Bool.false_eq_true, if_false]
  have H1 := H.quiet e1 (small_set hsm ht rfl rfl rfl fun p => Nat.le_refl _) (set_get (u := u) ht _) rfl
  have e2 : Arc.step cfg ((u.lock (cfg.shardOf x.data) t).setThread t { pc := .newVacant c (cfg.shardOf x.data) b, arg := arg }) (.run t 0) =
      .ok ({ (u.lock (cfg.shardOf x.data) t) with table := b :: u.table }.setThread t { pc := .newInserted c (cfg.shardOf x.data) b, arg := arg }) := by
    have : (u.threads.set t ({ pc := .newVacant c (cfg.shardOf x.data) b, arg := arg } : Thread V))[t]? = _ := set_get ht _
    simp only [Arc.step, State.setThread, State.lock, this, run, List.set_set]
  have H2 := H1.quiet e2 (small_set (th' := { pc := .newInserted c (cfg.shardOf x.data) b, arg := arg }) hsm' (set_get (u := u) ht _)
    (by simp only [State.setThread, State.lock, List.set_set]) rfl rfl
    (fun p => by simp [Thread.owned, Pc.owned])) (set_get (u := u) ht _) rfl
  have e3 : Arc.step cfg ({ (u.lock (cfg.shardOf x.data) t) with table := b :: u.table }.setThread t
      { pc := .newInserted c (cfg.shardOf x.data) b, arg := arg }) (.run t 0) =
      .ok ({ u with table := b :: u.table }.setThread t { pc := .idle, todo := [], ret := some b, arg := arg }) := by
    have : (u.threads.set t ({ pc := .newInserted c (cfg.shardOf x.data) b, arg := arg } : Thread V))[t]? = _ := set_get ht _
    simp only [Arc.step, State.setThread, State.lock, State.unlock, this, run, List.set_set, relock hl]
  exact H2.quiet e3 hsm' (set_get (u := u) ht _) (by simp [Thread.isIdle])

/-- A lost race in one go. -/
theorem Witnessed.occupied [Hashable V] {cfg : Cfg V} {l : List (Event V)} {u : State V} (H : Witnessed cfg l u) {t : Tid} {th th' : Thread V} {c : Call V}
    {b r : Addr} {x : Cell V} (hl : ∀ i, u.locks i = none) (hok : tableOk u = true) (hsm : Small cfg u) (ht : u.threads[t]? = some th)
    (hpc : th.pc = .newEntry c b) (hf : find u x.data = some r) (hx : get u.heap b = some x)
    (hth : th' = if c.dst then { th with pc := .newLoop { c with conv := some b } } else { th with pc := .newUnbox c b })
    (hsm' : Small cfg (u.setThread t th')) : Witnessed cfg l (u.setThread t th') := by
  rcases th with ⟨pc, todo, ret, arg⟩
  simp only at hpc
  subst hpc
  have e1 : Arc.step cfg u (.run t 0) = .ok ((u.lock (cfg.shardOf x.data) t).setThread t
      { pc := .newOccupied c (cfg.shardOf x.data) b, todo := todo, ret := ret, arg := arg }) := by
    simp only [Arc.step, ht, run, hx, hl, hok, hf, Option.isSome_none, Bool.not_true, Bool.false_eq_true, if_false]
  have H1 := H.quiet e1 (small_set hsm ht rfl rfl rfl fun p => Nat.le_refl _) (set_get (u := u) ht _) rfl
  have : (u.threads.set t ({ pc := .newOccupied c (cfg.shardOf x.data) b, todo := todo, ret := ret, arg := arg } : Thread V))[t]? = _ := set_get ht _
  have e2 : Arc.step cfg ((u.lock (cfg.shardOf x.data) t).setThread t { pc := .newOccupied c (cfg.shardOf x.data) b, todo := todo, ret := ret, arg := arg })
      (.run t 0) = .ok (u.setThread t th') := by
    cases hd : c.dst with
    | true =>
      simp only [hd, if_true] at hth
      subst hth
      simp only [Arc.step, State.setThread, State.lock, State.unlock, this, run, hd, if_true, List.set_set, relock hl]
    | false =>
      simp only [hd] at hth
      subst hth
      simp only [Arc.step, State.setThread, State.lock, State.unlock, this, run, hd, Bool.false_eq_true, if_false, List.set_set, relock hl]
  refine H1.quiet e2 hsm' (set_get (u := u) ht _) ?_
  subst hth
  cases c.dst <;> rfl

/-- The same calls begin on both sides, with the same results. -/
theorem Sim.begins [EquivBEq V] [Hashable V] [LawfulHashable V] {cfg : Cfg V} {s u : State V} (S : Sim cfg s u) (I : Inv cfg s) (n : Nat)
    (f : UInt64 → Nat) (a : Act V) : begins (cfg.reshard n f) u a = begins cfg s a := by
  cases a with
  | clone t path => simp only [Arc.begins, S.borrow]
  | read t path =>
    simp only [Arc.begins, S.borrow]
    cases hb : Arc.borrow cfg s path with
    | ok p =>
      have h1 := (borrow_ok I path).2 p hb
      obtain ⟨x, hx⟩ := I.deref h1
      simp only [S.get' hx (I.calm_count h1), hx]
    | blocked => rfl
    | ub => rfl
  | _ => rfl

omit [BEq V] in
/-- The same calls end on both sides, with the same results. -/
theorem Sim.ending {cfg : Cfg V} {s u s' u' : State V} (S : Sim cfg s u) (S' : Sim cfg s' u') {t : Tid} {th : Thread V} (ht : s.threads[t]? = some th)
    (hr : (th.settle cfg).ret = th.ret) : Arc.ending t u u' = Arc.ending t s s' := by
  unfold Arc.ending
  rw [S.thread ht, ht, S'.threads, List.getElem?_map]
  cases s'.threads[t]? with
  | none => rfl
  | some th' => simp only [Option.map_some, settle_isIdle, hr]

end
end Arc
