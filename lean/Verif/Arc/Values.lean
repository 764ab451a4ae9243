import Verif.Arc.Facts
/-! Where the values held by the interner come from, and that private boxes keep their value. -/
namespace Arc
variable {V : Type}

/-- The value a running call of `new` still has in a local variable. -/
def Pc.local {V : Type} : Pc V → Option V
  | .newLoop c | .newFound c _ _ | .newUndo c _ _ | .newRelease c _ | .newHit c _ _ | .newAlloc c => some c.val
  | _ => none

variable [BEq V] [Hashable V]


theorem heap_src {cfg : Cfg V} {s s' : State V} {act : Act V} (hst : step cfg s act = .ok s') {e : Addr × Cell V}
    (he : e ∈ s'.heap) : (∃ e0 ∈ s.heap, e0.2.data = e.2.data) ∨
      ∃ (t : Tid) (th : Thread V), s.threads[t]? = some th ∧ th.pc.local = some e.2.data := by
  have same : e ∈ s.heap → (∃ e0 ∈ s.heap, e0.2.data = e.2.data) ∨
      ∃ (t : Tid) (th : Thread V), s.threads[t]? = some th ∧ th.pc.local = some e.2.data := fun h => .inl ⟨e, h, rfl⟩
  have set : ∀ b k, e ∈ setCount s.heap b k → (∃ e0 ∈ s.heap, e0.2.data = e.2.data) ∨
      ∃ (t : Tid) (th : Thread V), s.threads[t]? = some th ∧ th.pc.local = some e.2.data := by
    intro b k h
    obtain ⟨e0, h0, rfl⟩ := List.mem_map.mp h
    refine .inl ⟨e0, h0, ?_⟩
    split <;> rfl
  have fr : ∀ b, e ∈ free s.heap b → (∃ e0 ∈ s.heap, e0.2.data = e.2.data) ∨
      ∃ (t : Tid) (th : Thread V), s.threads[t]? = some th ∧ th.pc.local = some e.2.data :=
    fun b h => same (List.mem_filter.mp h).1
  have hR := step_R hst
  cases hR with
  | run t a th _ ht hr =>
    cases hr with
    | alloc c hpc h0 hk =>
      rcases List.mem_cons.mp he with rfl | he
      · exact .inr ⟨t, th, ht, by simp [hpc, Pc.local]⟩
      · exact same he
    | hit c sh b x => exact set _ _ he
    | dying c sh b x => exact set _ _ he
    | undo c sh b x => exact set _ _ he
    | subLast b x => exact set _ _ he
    | sub b x => exact set _ _ he
    | unbox c b x => exact fr _ he
    | free b x => exact fr _ he
    | _ => exact same he
  | clone t path th p x => exact set _ _ he
  | panicInsert t th c sh b => exact fr _ he
  | _ => exact same he

theorem local_src {cfg : Cfg V} {s s' : State V} (hI : Inv cfg s) {act : Act V} (hst : step cfg s act = .ok s') {u : Tid} {th' : Thread V}
    (hu : s'.threads[u]? = some th') {v : V} (hv : th'.pc.local = some v) :
    (∃ th, s.threads[u]? = some th ∧ th.pc.local = some v) ∨ (∃ e ∈ s.heap, e.2.data = v) ∨ ∃ t d, act = .new t v d := by
  have key : ∀ {t : Tid} {th x : Thread V}, s.threads[t]? = some th → (s.threads.set t x)[u]? = some th' →
      (x.pc.local = some v → th.pc.local = some v ∨ (∃ e ∈ s.heap, e.2.data = v) ∨ ∃ t d, act = .new t v d) →
      (∃ th, s.threads[u]? = some th ∧ th.pc.local = some v) ∨ (∃ e ∈ s.heap, e.2.data = v) ∨ ∃ t d, act = .new t v d := by
    intro t th x ht h1 h2
    rw [set_getElem? _ _ _ _ _ ht] at h1
    split at h1
    · rename_i e
      cases h1
      rcases h2 hv with h | h
      · exact .inl ⟨th, by rw [← e] at ht; exact ht, h⟩
      · exact .inr h
    · exact .inl ⟨th', h1, hv⟩
  have unw : ∀ (c : Call V) (r : Option Addr) (a : Option V), (unwindCall cfg c r a).pc.local = some v → False := by
    intro c r a h
    cases hc : c.conv <;> simp [unwindCall, hc, Pc.local] at h
  have hR := step_R hst
  cases hR with
  | spawn =>
    rw [List.getElem?_append] at hu
    split at hu
    · exact .inl ⟨th', hu, hv⟩
    · rw [List.getElem?_singleton] at hu
      split at hu
      · cases hu; simp [Pc.local] at hv
      · cases hu
  | run t a th _ ht hr =>
    cases hr with
    | unbox c b x hpc hx =>
      refine key ht hu fun h => .inr (.inl ?_)
      simp only [Pc.local, Option.some.injEq] at h
      exact ⟨(b, x), mem_of_get hx, h⟩
    | hitRet c sh b hpc => exact key ht hu fun h => (unw _ _ _ h).elim
    | cache c sh b hpc hd =>
      refine key ht hu fun h => .inr (.inl ?_)
      simp only [Pc.local, Option.some.injEq] at h
      have := (hI.th t th ht).pc
      rw [hpc] at this
      exact ⟨_, mem_of_get this.2.2.1, h⟩
    | _ => exact key ht hu fun h => .inl (by simp_all [Pc.local])
  | new t w d th ht =>
    refine key ht hu fun h => .inr (.inr ?_)
    simp only [Pc.local, Option.some.injEq] at h
    exact ⟨t, d, by rw [h]⟩
  | clone => exact .inl ⟨th', hu, hv⟩
  | read => exact .inl ⟨th', hu, hv⟩
  | drop t p th ht => exact key ht hu fun h => by simp [Pc.local] at h
  | len t _ _ th ht => exact key ht hu fun h => by simp [Pc.local] at h
  | shrink t _ _ th ht => exact key ht hu fun h => by simp [Pc.local] at h
  | panicLoop t th c ht => exact key ht hu fun h => (unw _ _ _ h).elim
  | panicEntry t th c b ht => exact key ht hu fun h => by simp [Pc.local] at h
  | panicRemove t th b ht => exact key ht hu fun h => by simp [Pc.local] at h
  | panicShrink t th i m ht => exact key ht hu fun h => by simp [Pc.local] at h
  | panicInsert t th c sh b ht => exact key ht hu fun h => by simp [Pc.local] at h
theorem heap_owned {cfg : Cfg V} {s : State V} {e : Addr × Cell V} (he : e ∈ s.heap) {p : Addr}
    (hp : p ∈ cfg.kids e.2.data) : p ∈ allHandles cfg s := by
  refine List.mem_append.mpr (.inr (List.mem_flatMap.mpr ⟨e, he, hp⟩))

theorem local_owned {cfg : Cfg V} {s : State V} {t : Tid} {th : Thread V} (ht : s.threads[t]? = some th) {v : V}
    (hv : th.pc.local = some v) {p : Addr} (hp : p ∈ cfg.kids v) : p ∈ allHandles cfg s := by
  refine List.mem_append.mpr (.inl (List.mem_append.mpr (.inr (List.mem_flatMap.mpr ⟨th, mem_of_getElem? ht, ?_⟩))))
  cases hpc : th.pc <;> rw [hpc] at hv <;> simp only [Pc.local, Option.some.injEq] at hv <;> cases hv <;>
    simp [Thread.owned, hpc, Pc.owned, hp]

/-- A property of values that survives steps as long as the handles in the value exist, and that the arguments of `new` have,
is a property of all values held by the interner. -/
theorem values_step {cfg : Cfg V} {s s' : State V} (hI : Inv cfg s) {act : Act V} (hst : step cfg s act = .ok s')
    {Q Q' : V → Prop} (stable : ∀ v, (∀ p ∈ cfg.kids v, p ∈ allHandles cfg s) → Q v → Q' v)
    (hnew : ∀ t v d, act = .new t v d → Q v) (heap : ∀ e ∈ s.heap, Q e.2.data)
    (calls : ∀ (t : Tid) (th : Thread V), s.threads[t]? = some th → ∀ v, th.pc.local = some v → Q v) :
    (∀ e ∈ s'.heap, Q' e.2.data) ∧
    ∀ (t : Tid) (th : Thread V), s'.threads[t]? = some th → ∀ v, th.pc.local = some v → Q' v := by
  have hheap : ∀ e ∈ s.heap, Q' e.2.data := fun e he => stable _ (fun p hp => heap_owned he hp) (heap e he)
  have hloc : ∀ (t : Tid) (th : Thread V), s.threads[t]? = some th → ∀ v, th.pc.local = some v → Q' v :=
    fun t th ht v hv => stable _ (fun p hp => local_owned ht hv hp) (calls t th ht v hv)
  refine ⟨fun e he => ?_, fun t th ht v hv => ?_⟩
  · rcases heap_src hst he with ⟨e0, h0, h1⟩ | ⟨t, th, ht, h1⟩
    · rw [← h1]; exact hheap e0 h0
    · exact hloc t th ht _ h1
  · rcases local_src hI hst ht hv with ⟨th0, h0, h1⟩ | ⟨e, he, rfl⟩ | ⟨u, d, rfl⟩
    · exact hloc t th0 h0 v h1
    · exact hheap e he
    · refine stable v (fun p hp => ?_) (hnew u v d rfl)
      have hR := step_R hst
      cases hR with
      | new _ _ _ _ _ _ hown _ =>
        have h1 := hown p
        have h2 : 0 < (cfg.kids v).count p := List.count_pos_iff.mpr hp
        exact List.mem_append.mpr (.inl (List.mem_append.mpr (.inl (List.count_pos_iff.mp (by omega)))))

/-- The value in a private box of one thread does not change in a step of another thread. -/
theorem step_priv {cfg : Cfg V} {s s' : State V} (hI : Inv cfg s) {act : Act V} (hsane : act.Sane)
    (h : step cfg s act = .ok s') {t : Tid} {th : Thread V} (ht : s.threads[t]? = some th) {b : Addr} (hb : b ∈ th.pc.priv)
    (hne : ∀ a, act ≠ .run t a) : deref s' b = deref s b := by
  have hset : ∀ a n, (get (setCount s.heap a n) b).map (·.data) = (get s.heap b).map (·.data) :=
    fun a n => get_data_setCount s.heap a n b
  have hfree : ∀ (u : Tid) (thu : Thread V) a, s.threads[u]? = some thu → u ≠ t → a ∈ thu.pc.priv →
      get (free s.heap a) b = get s.heap b := by
    intro u thu a hu hne ha
    rw [get_free, if_neg]
    rintro rfl
    have h1 := P_two ht hu hne hb ha
    have h2 := hI.split b
    have h3 := hI.nd b
    omega
  have hk : b ∈ keys s.heap := by
    have h1 := mem_priv_P ht hb
    have h2 := hI.split b
    exact List.count_pos_iff.mp (by simp only [K] at h2; omega)
  have hR := step_R h
  cases hR with
  | run u a thu _ hu hr =>
    have hut : u ≠ t := fun e => hne a (by rw [e])
    cases hr with
    | unbox c r x hpc hx =>
      simp only [deref, State.setThread]
      rw [hfree u thu r hu hut (by simp [hpc, Pc.priv])]
    | free r x hpc hx =>
      simp only [deref, State.setThread]
      rw [hfree u thu r hu hut (by simp [hpc, Pc.priv])]
    | alloc c hpc h0 hk' =>
      simp only [deref, State.setThread, get]
      rw [if_neg]; rintro rfl; exact hk' hk
    | _ => first | rfl | exact hset _ _
  | panicInsert t => exact absurd hsane (by simp [Act.Sane])
  | _ => first | rfl | exact hset _ _

end Arc
