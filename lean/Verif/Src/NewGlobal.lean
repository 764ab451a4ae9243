import Verif.Src.NewPre
/-
The two programs side by side.
-/
namespace Src.NewCode
open Arc (Res)
open Pool (Tid Ptr Query Ret Obj Entry)

variable {K V : Type}

/-- The running calls of all threads. -/
def State.calls (S : State K V) : List (Running K V) := S.threads.flatten

/-! ### The shape of steps -/

/-- What a step does to the threads and to the history. -/
inductive Shape (N N' : State K V) : Prop
  | spawn : N'.threads = N.threads ++ [[]] → N'.hist = N.hist → N'.next = N.next → Shape N N'
  | call {t : Tid} {cs : List (Running K V)} {c : Running K V} : N.threads[t]? = some cs → c.id = N.next → c.frame.panicking = false →
      N'.threads = N.threads.set t (c :: cs) → N'.hist = .call c.id c.op :: N.hist → N'.next = N.next + 1 → Shape N N'
  | frame {t : Tid} {cs : List (Running K V)} {c : Running K V} {f : Fr K V} : N.threads[t]? = some (c :: cs) →
      N'.threads = N.threads.set t ({ c with frame := f } :: cs) → N'.hist = N.hist → N'.next = N.next → Shape N N'
  | pop {t : Tid} {cs : List (Running K V)} {c : Running K V} {r : Option (Val K V)} : N.threads[t]? = some (c :: cs) →
      N'.threads = N.threads.set t cs → N'.hist = ends c r ++ N.hist → N'.next = N.next → Shape N N'

variable [DecidableEq K] [BEq V] [Hashable V] {cfg : Cfg K V} {N N' : State K V}

theorem start_calm {o : Pool.Op K V} {byRef : Bool} {f : Fr K V} (h : start cfg o byRef = some f) : f.panicking = false := by
  obtain ⟨x, body, y, body', _, rfl⟩ := start_code h; rfl

theorem step_shape {act : Act K V} (hs : step cfg N act = .ok N') : Shape N N' := by
  cases act with
  | spawn => cases hs; exact .spawn rfl rfl rfl
  | call t o byRef unw =>
    simp only [step] at hs
    split at hs
    · rename_i cs f ht hf
      split at hs
      · cases hs; exact .call ht rfl (start_calm hf) rfl rfl rfl
      · cases hs
    · cases hs
  | run t a =>
    simp only [step] at hs
    split at hs
    · rename_i c cs ht
      split at hs
      · simp only [unwind] at hs
        split at hs <;> cases hs
        exact .frame ht rfl rfl rfl
      · split at hs <;> cases hs
        · exact .pop ht rfl rfl rfl
        · exact .frame ht rfl rfl rfl
    · cases hs
  | panic t =>
    simp only [step] at hs
    split at hs
    · rename_i c cs ht
      split at hs
      · simp only [unwind] at hs
        split at hs <;> cases hs
        exact .frame ht rfl rfl rfl
      · cases hs
    · cases hs

/-- The numbers of calls. -/
structure Ids (N : State K V) : Prop where
  nodup : (N.calls.map (·.id)).Nodup
  called : ∀ c ∈ N.calls, .call c.id c.op ∈ N.hist
  lt : ∀ j o, .call j o ∈ N.hist → j < N.next
  once : ∀ j o o', .call j o ∈ N.hist → .call j o' ∈ N.hist → o = o'

omit [DecidableEq K] [BEq V] [Hashable V] in
theorem mem_ends {c : Running K V} {r : Option (Val K V)} {j : Nat} {o : Pool.Op K V} : .call j o ∉ ends c r := by
  intro h
  simp only [ends] at h
  split at h
  · simp at h
  · obtain ⟨_, _, e⟩ := List.mem_map.mp h
    cases e

omit [DecidableEq K] [BEq V] [Hashable V] in
theorem Ids.step (h : Ids N) (hs : Shape N N') : Ids N' := by
  cases hs with
  | spawn e1 e2 e3 =>
    have e : N'.calls = N.calls := by simp [State.calls, e1]
    exact ⟨by rw [e]; exact h.nodup, by rw [e, e2]; exact h.called, by rw [e2, e3]; exact h.lt, by rw [e2]; exact h.once⟩
  | @call t cs c ht hid _ e1 e2 e3 =>
    obtain ⟨a, b, h1, h2⟩ := PoolCode.flatten_set ht
    have e : N'.calls.Perm (c :: N.calls) := by
      rw [State.calls, State.calls, e1, h2, h1]
      exact List.perm_middle
    refine ⟨?_, ?_, ?_, ?_⟩
    · rw [(e.map _).nodup_iff, List.map_cons, List.nodup_cons]
      refine ⟨?_, h.nodup⟩
      intro hm
      obtain ⟨d, hd, he⟩ := List.mem_map.mp hm
      have := h.lt _ _ (h.called d hd)
      rw [he, hid] at this
      exact Nat.lt_irrefl _ this
    · intro d hd
      rw [e2]
      rcases List.mem_cons.mp (e.mem_iff.mp hd) with rfl | hd
      · exact List.mem_cons_self
      · exact List.mem_cons_of_mem _ (h.called d hd)
    · intro j o hj
      rw [e2] at hj; rw [e3]
      rcases List.mem_cons.mp hj with e | hj
      · cases e; rw [hid]; omega
      · have := h.lt j o hj; omega
    · intro j o1 o2 ha hb
      rw [e2] at ha hb
      rcases List.mem_cons.mp ha with x | ha <;> rcases List.mem_cons.mp hb with y | hb
      · cases x; cases y; rfl
      · cases x; have := h.lt _ _ hb; omega
      · cases y; have := h.lt _ _ ha; omega
      · exact h.once j o1 o2 ha hb
  | @frame t cs c f ht e1 e2 e3 =>
    obtain ⟨a, b, h1, h2⟩ := PoolCode.flatten_set ht
    have ep : N.calls.Perm (c :: (a ++ (cs ++ b))) := by rw [State.calls, h1]; exact List.perm_middle
    have ep' : N'.calls.Perm ({ c with frame := f } :: (a ++ (cs ++ b))) := by rw [State.calls, e1, h2]; exact List.perm_middle
    refine ⟨?_, ?_, by rw [e2, e3]; exact h.lt, by rw [e2]; exact h.once⟩
    · rw [(ep'.map _).nodup_iff]
      have := h.nodup
      rw [(ep.map _).nodup_iff] at this
      exact this
    · intro d hd
      rw [e2]
      rcases List.mem_cons.mp (ep'.mem_iff.mp hd) with rfl | hd
      · exact h.called c (ep.mem_iff.mpr List.mem_cons_self)
      · exact h.called d (ep.mem_iff.mpr (List.mem_cons_of_mem _ hd))
  | @pop t cs c r ht e1 e2 e3 =>
    obtain ⟨a, b, h1, h2⟩ := PoolCode.flatten_set ht
    have ep : N.calls.Perm (c :: (a ++ (cs ++ b))) := by rw [State.calls, h1]; exact List.perm_middle
    have ep' : N'.calls = a ++ (cs ++ b) := by rw [State.calls, e1, h2]
    have hh : ∀ j o, .call j o ∈ N'.hist ↔ .call j o ∈ N.hist := by
      intro j o
      rw [e2, List.mem_append]
      exact ⟨fun h => h.resolve_left mem_ends, .inr⟩
    refine ⟨?_, ?_, ?_, ?_⟩
    · have := h.nodup
      rw [(ep.map _).nodup_iff, List.map_cons, List.nodup_cons] at this
      rw [ep']; exact this.2
    · intro d hd
      rw [ep'] at hd
      rw [hh]
      exact h.called d (ep.mem_iff.mpr (List.mem_cons_of_mem _ hd))
    · intro j o; rw [hh, e3]; exact h.lt j o
    · intro j o o'; rw [hh, hh]; exact h.once j o o'

theorem Reach.ids (h : Reach cfg N) : Ids N := by
  induction h with
  | init => exact ⟨List.nodup_nil, fun _ h => (by cases h), fun _ _ h => (by cases h), fun _ _ _ h => (by cases h)⟩
  | step _ _ hs ih => exact ih.step (step_shape hs)

/-! ### The relation -/

/-- The calls of one thread of the two programs. `L`: the values that calls which have taken no mutex have still to destroy or to store; `nx`: the number of
calls of the second program, and `num` their numbers in the first. -/
inductive StackR (cfg : Cfg K V) (m : Mem K V) (nx : Nat) (num : Nat → Nat) : List (Running K V) → List (PoolCode.Running K V) → List (K × V) → Prop
  | nil : StackR cfg m nx num [] [] []
  | pre {c : Running K V} {cs : List (Running K V)} {ps : List (PoolCode.Running K V)} {l L : List (K × V)} : Pre cfg m c.op c.byRef l c.frame → c.op.Lawful →
      (∀ j, j < nx → num j ≠ c.id) → canCall cfg cs = true → StackR cfg m nx num cs ps L → StackR cfg m nx num (c :: cs) ps (l ++ L)
  | post {c : Running K V} {cs : List (Running K V)} {p : PoolCode.Running K V} {ps : List (PoolCode.Running K V)} {L : List (K × V)} {pos : Nat} :
      First cfg m c.op.pool pos → Post cfg c.op c.byRef pos (c.unw || unwinding cs) c.frame p.frame → p.id < nx → num p.id = c.id → p.call = .op c.op c.byRef →
      canCall cfg cs = true → StackR cfg m nx num cs ps L → StackR cfg m nx num (c :: cs) (p :: ps) L

theorem StackR.mono {m m' : Mem K V} {nx nx' : Nat} {num num' : Nat → Nat} {cs : List (Running K V)} {ps : List (PoolCode.Running K V)} {L : List (K × V)}
    (h : StackR cfg m nx num cs ps L) (hg : Grows m m') (hx : nx ≤ nx') (hn : ∀ j, j < nx → num' j = num j)
    (hf : ∀ c ∈ cs, ∀ j, nx ≤ j → j < nx' → num' j ≠ c.id) : StackR cfg m' nx' num' cs ps L := by
  induction h with
  | nil => exact .nil
  | pre h1 h2 h3 h4 _ ih =>
    refine .pre (h1.grows hg) h2 (fun j hj => ?_) h4 (ih fun c hc => hf c (List.mem_cons_of_mem _ hc))
    by_cases e : j < nx
    · rw [hn j e]; exact h3 j e
    · exact hf _ List.mem_cons_self j (by omega) hj
  | post h1 h2 h3 h4 h5 h6 _ ih =>
    exact .post (h1.grows hg) h2 (by omega) (by rw [hn _ h3]; exact h4) h5 h6 (ih fun c hc => hf c (List.mem_cons_of_mem _ hc))

theorem StackR.mem {m m' : Mem K V} {nx : Nat} {num : Nat → Nat} {cs : List (Running K V)} {ps : List (PoolCode.Running K V)} {L : List (K × V)}
    (h : StackR cfg m nx num cs ps L) (hg : Grows m m') : StackR cfg m' nx num cs ps L :=
  h.mono hg (Nat.le_refl _) (fun _ _ => rfl) (fun _ _ j h1 h2 => by omega)

/-- User code that can call the first program can call the second. -/
theorem StackR.canCall {m : Mem K V} {nx : Nat} {num : Nat → Nat} {cs : List (Running K V)} {ps : List (PoolCode.Running K V)} {L : List (K × V)}
    (h : StackR cfg m nx num cs ps L) : canCall cfg cs = true → PoolCode.canCall cfg.pool ps = true := by
  induction h with
  | nil => intro _; rfl
  | pre _ _ _ h4 _ ih => intro _; exact ih h4
  | post _ h2 _ _ _ _ _ _ =>
    intro hc
    simp only [NewCode.canCall] at hc
    simp only [PoolCode.canCall]
    rw [← h2.user]; exact hc

/-- The two programs. `Ls`: the values of calls that have taken no mutex, for each thread; `D`: the values that such calls have destroyed. -/
structure NSim (cfg : Cfg K V) (N : State K V) (S : PoolCode.State K V) (num : Nat → Nat) (Ls : List (List (K × V))) (D : List (K × V)) : Prop where
  mem : MR cfg N.mem S.mem
  gone : S.gone = []
  len : S.threads.length = N.threads.length
  lenL : Ls.length = N.threads.length
  stacks : ∀ (t : Nat) cs, N.threads[t]? = some cs → ∃ ps L, S.threads[t]? = some ps ∧ Ls[t]? = some L ∧ StackR cfg N.mem S.next num cs ps L
  born : N.mem.born.Perm (S.mem.born ++ (D ++ Ls.flatten))
  dead : N.mem.dead.Perm (S.mem.dead ++ D)
  fresh : ∀ j, j < S.next → num j < N.next
  inj : ∀ i j, i < S.next → j < S.next → num i = num j → i = j
  rets : ∀ e, .ret e ∈ N.hist → ∃ e', .ret e' ∈ S.hist ∧ e = ⟨num e'.tid, e'.op, e'.ret⟩
  calls : ∀ j o, .call j o ∈ S.hist → j < S.next ∧ .call (num j) o ∈ N.hist
  order : ∀ e j, j < S.next → RetBefore N e (num j) → ∃ e', PoolCode.RetBefore S e' j ∧ e = ⟨num e'.tid, e'.op, e'.ret⟩

theorem nsim_init : NSim cfg init PoolCode.init (fun _ => 0) [] [] where
  mem := ⟨rfl, rfl, fun _ => rfl, fun _ => rfl⟩
  gone := rfl
  len := rfl
  lenL := rfl
  stacks := fun t cs h => by simp [init] at h
  born := .refl _
  dead := .refl _
  fresh := fun j h => by simp [PoolCode.init] at h
  inj := fun i j h => by simp [PoolCode.init] at h
  rets := fun e h => by simp [init] at h
  calls := fun j o h => by simp [PoolCode.init] at h
  order := fun e j h => by simp [PoolCode.init] at h

omit [DecidableEq K] [BEq V] [Hashable V] in
/-- Events that are not calls do not change what came before a call. -/
theorem RetBefore.new {l : List (Event K V)} {e : Entry K V} {j : Nat} (hh : N'.hist = l ++ N.hist) (hl : ∀ o, .call j o ∉ l) (h : RetBefore N' e j) : RetBefore N e j := by
  obtain ⟨later, o, earlier, h1, h2⟩ := h
  rw [hh] at h1
  rcases List.append_eq_append_iff.mp h1 with ⟨a, e1, e2⟩ | ⟨a, e1, e2⟩
  · exact ⟨a, o, earlier, e2, h2⟩
  · cases a with
    | nil =>
      simp only [List.nil_append] at e2
      exact ⟨[], o, earlier, e2.symm, h2⟩
    | cons x a =>
      simp only [List.cons_append, List.cons.injEq] at e2
      obtain ⟨rfl, e2⟩ := e2
      exact absurd (by rw [e1]; simp) (hl o)

omit [DecidableEq K] [BEq V] [Hashable V] in
theorem ret_old {S S' : PoolCode.State K V} {l : List (PoolCode.Event K V)} {e : Entry K V} {j : Nat} (hh : S'.hist = l ++ S.hist) (h : PoolCode.RetBefore S e j) :
    PoolCode.RetBefore S' e j := by
  obtain ⟨later, o, earlier, h1, h2⟩ := h
  exact ⟨l ++ later, o, earlier, by rw [hh, h1, List.append_assoc], h2⟩

/-- One thread has changed; the second program has made no new calls. -/
theorem NSim.change {S S' : PoolCode.State K V} {num : Nat → Nat} {Ls : List (List (K × V))} {D D' : List (K × V)} (h : NSim cfg N S num Ls D) {t : Tid}
    {cs : List (Running K V)} (ht : N.threads[t]? = some cs) {cs' : List (Running K V)} {ps ps' : List (PoolCode.Running K V)} {L L' : List (K × V)}
    (hps : S.threads[t]? = some ps) (hL : Ls[t]? = some L) (e1 : N'.threads = N.threads.set t cs') (e2 : S'.threads = S.threads.set t ps')
    (hst : StackR cfg N'.mem S'.next num cs' ps' L') (hg : Grows N.mem N'.mem) (hm : MR cfg N'.mem S'.mem) (hgone : S'.gone = S.gone)
    (hx : S'.next = S.next) {le : List (Event K V)} {le' : List (PoolCode.Event K V)} (hh : N'.hist = le ++ N.hist) (hh' : S'.hist = le' ++ S.hist)
    (hn : N.next ≤ N'.next) (hb : ∀ r, N.mem.born.Perm (S.mem.born ++ (D ++ (L ++ r))) → N'.mem.born.Perm (S'.mem.born ++ (D' ++ (L' ++ r))))
    (hd : N.mem.dead.Perm (S.mem.dead ++ D) → N'.mem.dead.Perm (S'.mem.dead ++ D'))
    (hr : ∀ e, .ret e ∈ le → ∃ e', .ret e' ∈ le' ∧ e = ⟨num e'.tid, e'.op, e'.ret⟩) (hc : ∀ j o, .call j o ∈ le → N.next ≤ j) (hc' : ∀ j o, .call j o ∉ le') :
    NSim cfg N' S' num (Ls.set t L') D' := by
  have hlt : t < N.threads.length := (List.getElem?_eq_some_iff.mp ht).1
  refine ⟨hm, by rw [hgone]; exact h.gone, by rw [e1, e2]; simp [h.len], by rw [e1]; simp [h.lenL], ?_, ?_, hd h.dead, ?_, ?_, ?_, ?_, ?_⟩
  · intro u us hu
    rw [e1] at hu
    by_cases e : u = t
    · subst e
      rw [List.getElem?_set_self hlt] at hu
      cases hu
      exact ⟨ps', L', by rw [e2, List.getElem?_set_self (by rw [h.len]; exact hlt)], by rw [List.getElem?_set_self (by rw [h.lenL]; exact hlt)], hst⟩
    · rw [List.getElem?_set_ne (Ne.symm e)] at hu
      obtain ⟨qs, M, h1, h2, h3⟩ := h.stacks u us hu
      exact ⟨qs, M, by rw [e2, List.getElem?_set_ne (Ne.symm e)]; exact h1, by rw [List.getElem?_set_ne (Ne.symm e)]; exact h2, by rw [hx]; exact h3.mem hg⟩
  · obtain ⟨a, b, h1, h2⟩ := PoolCode.flatten_set hL
    have p1 : ∀ (X : List (K × V)), (a ++ (X ++ b)).Perm (X ++ (a ++ b)) := by
      intro X
      rw [← List.append_assoc, ← List.append_assoc]
      exact List.perm_append_comm.append_right b
    have := h.born
    rw [h1] at this
    have := hb (a ++ b) (this.trans (((p1 L).append_left D).append_left _))
    rw [h2]
    exact this.trans (((p1 L').symm.append_left D').append_left _)
  · intro j hj; rw [hx] at hj; exact Nat.lt_of_lt_of_le (h.fresh j hj) hn
  · rw [hx]; exact h.inj
  · intro e he
    rw [hh] at he
    rcases List.mem_append.mp he with he | he
    · obtain ⟨e', h1, h2⟩ := hr e he
      exact ⟨e', by rw [hh']; exact List.mem_append_left _ h1, h2⟩
    · obtain ⟨e', h1, h2⟩ := h.rets e he
      exact ⟨e', by rw [hh']; exact List.mem_append_right _ h1, h2⟩
  · intro j o hj
    rw [hh'] at hj
    rcases List.mem_append.mp hj with hj | hj
    · exact absurd hj (hc' j o)
    · obtain ⟨h1, h2⟩ := h.calls j o hj
      exact ⟨by rw [hx]; exact h1, by rw [hh]; exact List.mem_append_right _ h2⟩
  · intro e j hj hb
    rw [hx] at hj
    have : RetBefore N e (num j) := hb.new hh (fun o ho => by have := hc _ _ ho; have := h.fresh j hj; omega)
    obtain ⟨e', h1, h2⟩ := h.order e j hj this
    exact ⟨e', ret_old hh' h1, h2⟩

end Src.NewCode
