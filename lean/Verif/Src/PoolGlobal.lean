import Verif.Src.PoolLin
import Verif.Src.PoolSpec
/-
Every execution of the code is an execution of the model.
-/
namespace Src.PoolCode
open Arc (Res)
open Pool (Tid Ptr Query Ret Obj Cfg Entry Pc)

variable {K V : Type}

/-- The calls that are being executed. -/
def State.calls (S : State K V) : List (Running K V) := S.threads.flatten

/-- Everything they owe. -/
def debts (l : List (Running K V)) : List (Glue K V) := l.flatMap fun c => owed c.frame

/-- The destruction of an arena. -/
def ArenaOk [DecidableEq K] (S : State K V) (c : Running K V) : Prop := match c.call with
  | .op o _ => o.pool ∉ S.gone
  | .dropArena k => k ∈ S.gone ∧ (c.frame.panicking = false → ∀ p, S.mem.heap.countP (Obj.is k p) = (pend k c.frame).count p)

structure Sim [DecidableEq K] [BEq V] [Hashable V] (cfg : Cfg K V) (S : State K V) (s : Pool.State K V) : Prop where
  shared : Shared S.gone S.mem s
  len : s.threads.length = S.next
  rel : ∀ c ∈ S.calls, ∃ pc, s.threads[c.id]? = some pc ∧ Rel cfg c.id s.done c.call c.frame pc ∧ NestedFr c.frame
  nodup : (S.calls.map (·.id)).Nodup
  idle : ∀ (id : Nat) pc, s.threads[id]? = some pc → pc ≠ .idle → ∃ c ∈ S.calls, c.id = id
  acct : Acct S.mem (debts S.calls)
  holder : ∀ (t : Tid) cs, S.threads[t]? = some cs → ∀ c ∈ cs, ∀ i, .unlock i ∈ owed c.frame → S.mem.lock i = some t
  arena : ∀ c ∈ S.calls, ArenaOk S c
  uniq : ∀ c ∈ S.calls, ∀ c' ∈ S.calls, c.call.pool = c'.call.pool → c.call.pool ∈ S.gone → c.id = c'.id
  dropped : ∀ k, .dropped k ∈ S.hist → k ∈ S.gone ∧ (∀ p, S.mem.heap.countP (Obj.is k p) = 0) ∧ ∀ c ∈ S.calls, c.call.pool ≠ k
  lin : Lin S.hist s

theorem flatten_set {α : Type} : ∀ {l : List (List α)} {t : Nat} {x : List α}, l[t]? = some x → ∃ a b, l.flatten = a ++ (x ++ b) ∧
    ∀ y, (l.set t y).flatten = a ++ (y ++ b)
  | [], _, _, h => by cases h
  | z :: l, 0, x, h => by
    cases h
    exact ⟨[], l.flatten, rfl, fun y => rfl⟩
  | z :: l, t + 1, x, h => by
    obtain ⟨a, b, h1, h2⟩ := flatten_set (l := l) (t := t) (x := x) (by simpa using h)
    exact ⟨z ++ a, b, by simp [h1], fun y => by simp [h2]⟩

theorem debts_perm {l l' : List (Running K V)} (h : l.Perm l') : (debts l).Perm (debts l') := h.flatMap_right _

theorem mem_debts {l : List (Running K V)} {c : Running K V} (hc : c ∈ l) {g : Glue K V} (hg : g ∈ owed c.frame) : g ∈ debts l :=
  List.mem_flatMap.mpr ⟨c, hc, hg⟩

variable [DecidableEq K] [BEq V] [Hashable V] {cfg : Cfg K V} {S : State K V} {s : Pool.State K V}

/-- Running the call `c` of thread `t`, with the other calls `rest`. -/
theorem split_calls {t : Tid} {c : Running K V} {cs : List (Running K V)} (ht : S.threads[t]? = some (c :: cs)) : ∃ rest,
    S.calls.Perm (c :: rest) ∧ (∀ c', (S.threads.set t (c' :: cs)).flatten.Perm (c' :: rest)) ∧ (S.threads.set t cs).flatten.Perm rest ∧
    (∀ x ∈ cs, x ∈ rest) ∧ ∀ u us, S.threads[u]? = some us → u ≠ t → ∀ x ∈ us, x ∈ rest := by
  obtain ⟨a, b, h1, h2⟩ := flatten_set ht
  refine ⟨a ++ (cs ++ b), ?_, fun c' => ?_, ?_, ?_, ?_⟩
  · rw [State.calls, h1]; exact List.perm_middle
  · rw [h2]; exact List.perm_middle
  · rw [h2]
  · exact fun x hx => List.mem_append_right _ (List.mem_append_left _ hx)
  · intro u us hu hne x hx
    rw [← h2 cs]
    exact List.mem_flatten.mpr ⟨us, List.mem_of_getElem? (Pool.getElem?_set_other hu hne), hx⟩

theorem lock_model (h : Sim cfg S s) (I : Pool.Inv cfg s) (i : Nat) (hi : S.mem.lock i = none) : s.lock i = none := by
  cases hl : s.lock i with
  | none => rfl
  | some u =>
    exfalso
    obtain ⟨pc, hu, hp⟩ := I.held i u hl
    obtain ⟨c, hc, rfl⟩ := h.idle u pc hu (by intro e; subst e; cases hp)
    obtain ⟨pc', h1, h2, h3⟩ := h.rel c hc
    rw [hu] at h1; cases h1
    have := h.acct.held (mem_debts hc (h2.holds h3 hp))
    rw [hi] at this; cases this

/-- A call goes on. -/
theorem sim_frame (h : Sim cfg S s) (hr : Pool.Reach cfg s) {t : Tid} {c : Running K V} {cs : List (Running K V)}
    (ht : S.threads[t]? = some (c :: cs)) {m' : Mem K V} {f' : Fr K V} (he : Eff cfg S.gone c.id c.call S.mem s c.frame m' f')
    (hn : NestedFr f') (hc : Change cfg t S.mem (owed c.frame) m' (owed f')) (hp : f'.panicking = false → c.frame.panicking = false) :
    ∃ s', Sim cfg { S with mem := m', threads := S.threads.set t ({ c with frame := f' } :: cs) } s' ∧ Pool.Reach cfg s' ∧ s.log <:+ s'.log := by
  obtain ⟨rest, p1, p2, _, p4, p5⟩ := split_calls ht
  have p2 := p2 { c with frame := f' }
  obtain ⟨s', pc', ho, e1, e2, e3⟩ := he.sim
  obtain ⟨L, hr', hdone, hgrow⟩ := h.lin.own hr ho
  have hmem : c ∈ S.calls := p1.mem_iff.mpr List.mem_cons_self
  have hrest : ∀ x ∈ rest, x ∈ S.calls := fun x hx => p1.mem_iff.mpr (List.mem_cons_of_mem _ hx)
  have hnd := (p1.map (·.id)).nodup_iff.mp h.nodup
  rw [List.map_cons, List.nodup_cons] at hnd
  have hne : ∀ x ∈ rest, x.id ≠ c.id := fun x hx e => hnd.1 (e ▸ List.mem_map_of_mem hx)
  obtain ⟨pc, hpc, hR, hN⟩ := h.rel c hmem
  have hacct : Acct S.mem (owed c.frame ++ debts rest) := h.acct.perm (debts_perm p1).symm
  have hcth : ∀ i, .unlock i ∈ owed c.frame → S.mem.lock i = some t := fun i hi => h.holder t _ ht c List.mem_cons_self i hi
  obtain ⟨k1, k2⟩ := hc.locks hacct hcth
  refine ⟨s', ⟨e2, ?_, ?_, ?_, ?_, ?_, ?_, ?_, ?_, ?_, L⟩, hr', hgrow⟩
  · rw [e1, List.length_set]; exact h.len
  · intro x hx
    rcases List.mem_cons.mp (p2.mem_iff.mp hx) with rfl | hx
    · exact ⟨pc', by rw [e1]; exact Pool.getElem?_set_self' hpc, e3, hn⟩
    · obtain ⟨pcx, a1, a2, a3⟩ := h.rel x (hrest x hx)
      exact ⟨pcx, by rw [e1]; exact Pool.getElem?_set_other a1 (hne x hx), a2.mono hdone, a3⟩
  · refine (p2.map (·.id)).nodup_iff.mpr ?_
    rw [List.map_cons, List.nodup_cons]
    exact hnd
  · intro u pu hu hne'
    rw [e1] at hu
    rcases Pool.getElem?_set_cases hu with ⟨rfl, rfl⟩ | ⟨hu', hu⟩
    · exact ⟨_, p2.mem_iff.mpr List.mem_cons_self, rfl⟩
    · obtain ⟨x, hx, rfl⟩ := h.idle u pu hu hne'
      rcases List.mem_cons.mp (p1.mem_iff.mp hx) with rfl | hx
      · exact absurd rfl hu'
      · exact ⟨x, p2.mem_iff.mpr (List.mem_cons_of_mem _ hx), rfl⟩
  · refine Acct.perm ?_ (debts_perm p2)
    exact hacct.change ((hc.more (debts rest)).perm List.perm_append_comm List.perm_append_comm)
  · intro u us hu x hx i hi
    rcases Pool.getElem?_set_cases hu with ⟨rfl, rfl⟩ | ⟨hu', hu⟩
    · rcases List.mem_cons.mp hx with rfl | hx
      · exact k2 i hi
      · show m'.lock i = _
        rw [k1 i (mem_debts (p4 x hx) hi)]
        exact h.holder u _ ht x (List.mem_cons_of_mem _ hx) i hi
    · show m'.lock i = _
      rw [k1 i (mem_debts (p5 u us hu hu' x hx) hi)]
      exact h.holder u us hu x hx i hi
  · intro x hx
    have hc0 := h.arena c hmem
    rcases List.mem_cons.mp (p2.mem_iff.mp hx) with rfl | hx
    · simp only [ArenaOk] at hc0 ⊢
      cases hcall : c.call with
      | op o b => rw [hcall] at hc0; exact hc0
      | dropArena k =>
        rw [hcall] at hc0
        exact ⟨hc0.1, fun hf => he.pend k hcall hf (hc0.2 (hp hf))⟩
    · have hx0 := h.arena x (hrest x hx)
      simp only [ArenaOk] at hx0 ⊢
      cases hcall : x.call with
      | op o b => rw [hcall] at hx0; exact hx0
      | dropArena k =>
        rw [hcall] at hx0
        refine ⟨hx0.1, fun hf p => ?_⟩
        rw [← hx0.2 hf p]
        refine he.other k hx0.1 (fun e => hne x hx ?_) p
        exact h.uniq x (hrest x hx) c hmem (by rw [hcall, e]; rfl) (by rw [hcall]; exact hx0.1)
  · have key : ∀ x ∈ ({ S with mem := m', threads := S.threads.set t ({ c with frame := f' } :: cs) } : State K V).calls,
        ∃ x0 ∈ S.calls, x0.id = x.id ∧ x0.call = x.call := by
      intro x hx
      rcases List.mem_cons.mp (p2.mem_iff.mp hx) with rfl | hx
      · exact ⟨c, hmem, rfl, rfl⟩
      · exact ⟨x, hrest x hx, rfl, rfl⟩
    intro x hx y hy hxy hg
    obtain ⟨x0, a1, a2, a3⟩ := key x hx
    obtain ⟨y0, b1, b2, b3⟩ := key y hy
    rw [← a2, ← b2]
    exact h.uniq x0 a1 y0 b1 (by rw [a3, b3]; exact hxy) (by rw [a3]; exact hg)
  · intro k hk
    obtain ⟨d1, d2, d3⟩ := h.dropped k hk
    refine ⟨d1, fun p => ?_, ?_⟩
    · rw [← d2 p]
      exact he.other k d1 (d3 c hmem) p
    · intro x hx
      rcases List.mem_cons.mp (p2.mem_iff.mp hx) with rfl | hx
      · exact d3 c hmem
      · exact d3 x (hrest x hx)

/-- A call ends. -/
theorem sim_pop (h : Sim cfg S s) {t : Tid} {c : Running K V} {cs : List (Running K V)} (ht : S.threads[t]? = some (c :: cs))
    (hi : s.threads[c.id]? = some .idle) (ho : owed c.frame = [])
    (hret : c.frame.panicking = false → match c.call with
      | .op o _ => ∃ x r, c.frame.ret = some x ∧ toRet x = some r ∧ { tid := c.id, op := o, ret := r } ∈ s.done
      | .dropArena k => pend k c.frame = []) :
    Sim cfg { S with threads := S.threads.set t cs, hist := ends c c.frame.ret ++ S.hist } s := by
  obtain ⟨rest, p1, _, p3, p4, p5⟩ := split_calls ht
  have hmem : c ∈ S.calls := p1.mem_iff.mpr List.mem_cons_self
  have hrest : ∀ x ∈ rest, x ∈ S.calls := fun x hx => p1.mem_iff.mpr (List.mem_cons_of_mem _ hx)
  have hnd := (p1.map (·.id)).nodup_iff.mp h.nodup
  rw [List.map_cons, List.nodup_cons] at hnd
  have hne : ∀ x ∈ rest, x.id ≠ c.id := fun x hx e => hnd.1 (e ▸ List.mem_map_of_mem hx)
  have hmm : ∀ x ∈ (S.threads.set t cs).flatten, x ∈ rest := fun x hx => p3.mem_iff.mp hx
  refine ⟨h.shared, h.len, fun x hx => h.rel x (hrest x (hmm x hx)), (p3.map (·.id)).nodup_iff.mpr hnd.2, ?_, ?_, ?_,
    fun x hx => h.arena x (hrest x (hmm x hx)), fun x hx y hy => h.uniq x (hrest x (hmm x hx)) y (hrest y (hmm y hy)), ?_, ?_⟩
  · intro u pu hu hne'
    obtain ⟨x, hx, rfl⟩ := h.idle u pu hu hne'
    rcases List.mem_cons.mp (p1.mem_iff.mp hx) with rfl | hx
    · rw [hi] at hu; cases hu; exact absurd rfl hne'
    · exact ⟨x, p3.mem_iff.mpr hx, rfl⟩
  · refine Acct.perm ?_ (debts_perm p3)
    have := h.acct.perm (debts_perm p1).symm
    have e : debts (c :: rest) = debts rest := by simp [debts, ho]
    rw [e] at this
    exact this
  · intro u us hu x hx
    rcases Pool.getElem?_set_cases hu with ⟨rfl, rfl⟩ | ⟨_, hu⟩
    · exact h.holder u _ ht x (List.mem_cons_of_mem _ hx)
    · exact h.holder u us hu x hx
  · intro k hk
    have old : .dropped k ∈ S.hist → k ∈ S.gone ∧ (∀ p, S.mem.heap.countP (Obj.is k p) = 0) ∧ ∀ x ∈ (S.threads.set t cs).flatten, x.call.pool ≠ k := by
      intro hk
      obtain ⟨d1, d2, d3⟩ := h.dropped k hk
      exact ⟨d1, d2, fun x hx => d3 x (hrest x (hmm x hx))⟩
    rcases List.mem_append.mp hk with hk | hk
    · simp only [ends] at hk
      cases hpan : c.frame.panicking with
      | true => rw [hpan] at hk; cases hk
      | false =>
        rw [hpan] at hk
        have hc0 := h.arena c hmem
        have hret := hret hpan
        simp only [ArenaOk] at hc0
        cases hcall : c.call with
        | op o b => rw [hcall] at hk; simp at hk
        | dropArena k' =>
          rw [hcall] at hk hc0 hret
          have : k = k' := by simpa using hk
          subst this
          refine ⟨hc0.1, fun p => ?_, fun x hx e => ?_⟩
          · have := hc0.2 hpan p
            simp only at hret
            rw [hret] at this
            exact this
          · exact hne x (hmm x hx) (h.uniq x (hrest x (hmm x hx)) c hmem (by rw [hcall]; exact e) (by rw [e]; exact hc0.1))
    · exact old hk
  · simp only [ends]
    cases hpan : c.frame.panicking with
    | true => exact h.lin
    | false =>
      have hret := hret hpan
      cases hcall : c.call with
      | dropArena k => exact h.lin.event (by simp) (by simp)
      | op o b =>
        rw [hcall] at hret
        obtain ⟨x, r, e1, e2, e3⟩ := hret
        rw [e1]
        simp only [Option.bind_some, e2]
        exact h.lin.event (by simp) (fun e he => by cases he; exact e3)

variable [EquivBEq V] [LawfulHashable V]

/-- A step of a running function. -/
theorem sim_run (lay : cfg.Layout) (h : Sim cfg S s) (hr : Pool.Reach cfg s) (t : Tid) (a : Nat) : step cfg S (.run t a) ≠ .ub ∧
    ∀ S', step cfg S (.run t a) = .ok S' → ∃ s', Sim cfg S' s' ∧ Pool.Reach cfg s' ∧ s.log <:+ s'.log := by
  have I := hr.inv lay
  simp only [step]
  cases ht : S.threads[t]? with
  | none => exact ⟨by simp, by simp⟩
  | some cs =>
    cases cs with
    | nil => exact ⟨by simp, by simp⟩
    | cons c cs =>
      obtain ⟨rest, p1, _⟩ := split_calls ht
      have hmem : c ∈ S.calls := p1.mem_iff.mpr List.mem_cons_self
      obtain ⟨pc, hpc, hR, hN⟩ := h.rel c hmem
      have hA := h.arena c hmem
      have hout := run_rel (a := a) I lay hpc h.shared (lock_model h I) t hN hR
        (fun k p hd => h.acct.dealloc (mem_debts hmem hd))
        (fun k hk => by simp only [ArenaOk, hk] at hA; exact hA.1)
        (fun k hk hp => by simp only [ArenaOk, hk] at hA; exact hA.2 hp)
      simp only
      cases hrun : (lang cfg).run S.mem t a [c.frame] with
      | blocked => exact ⟨by simp, by simp⟩
      | ub => rw [hrun] at hout; cases hout
      | ok d =>
        obtain ⟨m', fs', x⟩ := d
        have hch := run_change (t := t) (a := a) hN (fun he st r hi => rel_simple hR he st r hi) hrun
        rw [hrun] at hout
        rcases hch with ⟨rfl, rfl, ho, hi, rfl⟩ | ⟨f', rfl, rfl, hn', hc, hp⟩
        · refine ⟨by simp, fun S' e => ?_⟩
          cases e
          refine ⟨s, ?_, hr, List.suffix_rfl⟩
          cases hout with
          | pop e1 e2 e3 =>
            subst e1
            exact sim_pop h ht hpc ho e3
        · refine ⟨by simp, fun S' e => ?_⟩
          cases e
          cases hout with
          | ok he => exact sim_frame h hr ht he hn' hc (fun e => by rw [← hp]; exact e)

/-- A panic. -/
theorem sim_panic (h : Sim cfg S s) (hr : Pool.Reach cfg s) (t : Tid) : step cfg S (.panic t) ≠ .ub ∧
    ∀ S', step cfg S (.panic t) = .ok S' → ∃ s', Sim cfg S' s' ∧ Pool.Reach cfg s' ∧ s.log <:+ s'.log := by
  simp only [step]
  cases ht : S.threads[t]? with
  | none => exact ⟨by simp, by simp⟩
  | some cs =>
    cases cs with
    | nil => exact ⟨by simp, by simp⟩
    | cons c cs =>
      obtain ⟨rest, p1, _⟩ := split_calls ht
      have hmem : c ∈ S.calls := p1.mem_iff.mpr List.mem_cons_self
      obtain ⟨pc, hpc, hR, hN⟩ := h.rel c hmem
      simp only
      cases hrun : (lang cfg).panic S.mem [c.frame] with
      | blocked => exact ⟨by simp, by simp⟩
      | ub =>
        exfalso
        simp only [Lang.panic] at hrun
        repeat' split at hrun
        all_goals cases hrun
      | ok fs' =>
        obtain ⟨f', rfl, he⟩ := panic_rel hpc h.shared hN hR hrun
        obtain ⟨f1, e, hn', hc, hp, _⟩ := panic_change (t := t) hN hrun
        cases e
        refine ⟨by simp, fun S' e => ?_⟩
        cases e
        exact sim_frame h hr ht he hn' hc (fun e => by rw [hp] at e; cases e)

end Src.PoolCode
