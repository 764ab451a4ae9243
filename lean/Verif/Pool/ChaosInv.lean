import Verif.Pool.Chaos
import Verif.Pool.Inv
/-! Invariant of the intern pools (`Intern`, not `Arena`) under user code that keeps no contract. -/
namespace Pool
variable {K V : Type} [DecidableEq K]

/-- `p` is the box of a value that some call interned, and which that call returned. -/
def Safe (s : State K V) (k : K) (p : Ptr) : Prop :=
  ∃ x, ⟨k, p, x⟩ ∈ s.heap ∧ ∃ e ∈ s.log, ∃ q, e.op = .intern k q x ∧ e.ret = .ptr p

def SafeRet (s : State K V) (o : Op K V) (r : Ret) : Prop := ∀ k q x p, o = .intern k q x → r = .ptr p → Safe s k p

def ChaosPc (s : State K V) (k : K) : Pc K V → Prop
  | .insert k' _ mk p => k' = k → ⟨k, p, mk⟩ ∈ s.heap
  | .dropArg k' _ _ p => k' = k → Safe s k p
  | .leave o r => o.pool = k → SafeRet s o r
  | _ => True

structure ChaosInv (cfg : Cfg K V) (s : State K V) : Prop where
  shape : ∀ o ∈ s.heap, o.ptr.info = cfg.info o.pool o.val ∧
    (cfg.zst o.pool o.val = true → o.ptr.addr = cfg.dangle o.pool o.val)
  addrs : s.heap.Pairwise fun o o' => cfg.zst o.pool o.val = false → cfg.zst o'.pool o'.val = false →
    o.ptr.addr ≠ o'.ptr.addr
  table : ∀ k, cfg.owns k = false → ∀ p ∈ s.table k, Safe s k p
  pcs : ∀ k, cfg.owns k = false → ∀ pc ∈ s.threads, ChaosPc s k pc
  done : ∀ e ∈ s.done, cfg.owns e.op.pool = false → SafeRet s e.op e.ret

/-- Nothing that belongs to an intern pool disappears. -/
def Grows (cfg : Cfg K V) (s s' : State K V) : Prop :=
  (∀ o ∈ s.heap, cfg.owns o.pool = false → o ∈ s'.heap) ∧ ∀ e ∈ s.log, e ∈ s'.log

section
variable {cfg : Cfg K V} {s s' s'' : State K V}

omit [DecidableEq K] in
theorem Grows.rfl : Grows cfg s s := ⟨fun _ h _ => h, fun _ h => h⟩
omit [DecidableEq K] in
theorem Grows.trans (g : Grows cfg s s') (g' : Grows cfg s' s'') : Grows cfg s s'' :=
  ⟨fun o h h' => g'.1 o (g.1 o h h') h', fun e h => g'.2 e (g.2 e h)⟩
omit [DecidableEq K] in
theorem Grows.safe (g : Grows cfg s s') {k : K} (hk : cfg.owns k = false) {p : Ptr} (h : Safe s k p) : Safe s' k p := by
  obtain ⟨x, hx, e, he, q, h1, h2⟩ := h
  exact ⟨x, g.1 _ hx hk, e, g.2 e he, q, h1, h2⟩
omit [DecidableEq K] in
theorem Grows.safeRet (g : Grows cfg s s') {o : Op K V} {r : Ret} (hk : cfg.owns o.pool = false) (h : SafeRet s o r) :
    SafeRet s' o r := by
  intro k q x p h1 h2
  subst h1
  exact g.safe hk (h _ _ _ _ _root_.rfl h2)
omit [DecidableEq K] in
theorem Grows.pc (g : Grows cfg s s') {k : K} (hk : cfg.owns k = false) {pc : Pc K V} (h : ChaosPc s k pc) :
    ChaosPc s' k pc := by
  cases pc with
  | insert k' q mk p => exact fun e => g.1 _ (h e) hk
  | dropArg k' q mk p => exact fun e => g.safe hk (h e)
  | leave o r => exact fun e => g.safeRet (e ▸ hk) (h e)
  | _ => trivial

theorem mem_free {h : List (Obj K V)} {k : K} {p : Ptr} {o : Obj K V} (ho : o ∈ h) (hne : o.pool ≠ k) :
    o ∈ free h k p := by
  unfold free
  exact (List.mem_eraseP_of_neg (by simp [Obj.is, hne])).mpr ho

theorem free_sublist (h : List (Obj K V)) (k : K) (p : Ptr) : (free h k p).Sublist h := List.eraseP_sublist

theorem freeAll_sublist (l : List Ptr) (h : List (Obj K V)) (k : K) :
    (l.foldl (fun h p => free h k p) h).Sublist h := by
  induction l generalizing h with
  | nil => exact List.Sublist.refl _
  | cons p l ih => exact (ih _).trans (free_sublist h k p)

theorem mem_freeAll (l : List Ptr) {h : List (Obj K V)} {k : K} {o : Obj K V} (ho : o ∈ h) (hne : o.pool ≠ k) :
    o ∈ l.foldl (fun h p => free h k p) h := by
  induction l generalizing h with
  | nil => exact ho
  | cons p l ih => exact ih (mem_free ho hne)

omit [DecidableEq K] in
/-- Changes that only replace the program counter of one thread and perhaps free boxes of arenas or add to the log. -/
theorem ChaosInv.keep (I : ChaosInv cfg s) (g : Grows cfg s s') (hs : s'.heap.Sublist s.heap)
    (ht : ∀ k, cfg.owns k = false → ∀ p ∈ s'.table k, Safe s' k p)
    (hp : ∀ pc ∈ s'.threads, pc ∈ s.threads ∨ ∀ k, cfg.owns k = false → ChaosPc s' k pc)
    (hd : ∀ e ∈ s'.done, e ∈ s.done ∨ (cfg.owns e.op.pool = false → SafeRet s' e.op e.ret)) : ChaosInv cfg s' where
  shape o ho := I.shape o (hs.subset ho)
  addrs := I.addrs.sublist hs
  table := ht
  pcs k hk pc hpc := (hp pc hpc).elim (fun h => g.pc hk (I.pcs k hk pc h)) (fun h => h k hk)
  done e he hk := (hd e he).elim (fun h => g.safeRet hk (I.done e h hk)) (fun h => h hk)

omit [DecidableEq K] in
theorem mem_set_or {l : List (Pc K V)} {t : Nat} {pc pc' : Pc K V} (h : pc' ∈ l.set t pc) : pc' ∈ l ∨ pc' = pc :=
  List.mem_or_eq_of_mem_set h

omit [DecidableEq K] in
theorem chaosInv_init : ChaosInv cfg (Pool.init : State K V) where
  shape _ h := nomatch h
  addrs := List.Pairwise.nil
  table _ _ _ h := nomatch h
  pcs _ _ _ h := nomatch h
  done _ h := nomatch h

theorem chaos_run (I : ChaosInv cfg s) {t : Tid} {a : Nat} {pc : Pc K V} {found : Option Ptr}
    (hpc : s.threads[t]? = some pc) (hf : Answer s found (.run t a)) (h : runWith found cfg s t a pc = .ok s') :
    ChaosInv cfg s' ∧ Grows cfg s s' := by
  have hmem : pc ∈ s.threads := List.mem_of_getElem? hpc
  have hf' : ∀ p ∈ found, ∀ k ∈ pc.pool?, p ∈ s.table k := fun p hp k hk => hf p hp pc hpc k hk
  cases pc with
  | idle => cases h
  | want o =>
    simp only [runWith] at h
    split at h
    · cases h
    · injection h with h; subst h
      have g : Grows cfg s (State.at { s with lock := fun j => if j = cfg.lockOf o.pool then some t else s.lock j } t
          (.inside o)) := ⟨fun _ h _ => h, fun _ h => h⟩
      refine ⟨I.keep g (List.Sublist.refl _) (fun k hk p hp => g.safe hk (I.table k hk p hp)) (fun pc hpc => ?_)
        (fun e he => .inl he), g⟩
      exact (mem_set_or hpc).imp id (fun e k _ => by rw [e]; trivial)
  | inside o =>
    simp only [runWith] at h
    split at h
    · cases o with
      | intern k q mk =>
        cases found with
        | none =>
          injection h with h; subst h
          have g : Grows cfg s (s.at t (.build k q mk)) := ⟨fun _ h _ => h, fun _ h => h⟩
          exact ⟨I.keep g (List.Sublist.refl _) (fun k hk p hp => g.safe hk (I.table k hk p hp))
            (fun pc hpc => (mem_set_or hpc).imp id (fun e k _ => by rw [e]; trivial)) (fun e he => .inl he), g⟩
        | some p =>
          injection h with h; subst h
          have g : Grows cfg s (s.at t (.dropArg k q mk p)) := ⟨fun _ h _ => h, fun _ h => h⟩
          refine ⟨I.keep g (List.Sublist.refl _) (fun k hk p hp => g.safe hk (I.table k hk p hp))
            (fun pc hpc => (mem_set_or hpc).imp id (fun e k' hk' => ?_)) (fun e he => .inl he), g⟩
          subst e
          intro e
          subst e
          exact g.safe hk' (I.table _ hk' p (hf' p rfl _ rfl))
      | query k q =>
        injection h with h; subst h
        have g : Grows cfg s (s.commit t (.query k q) (.bool found.isSome)) :=
          ⟨fun _ h _ => h, fun _ h => List.mem_cons_of_mem _ h⟩
        refine ⟨I.keep g (List.Sublist.refl _) (fun k hk p hp => g.safe hk (I.table k hk p hp))
          (fun pc hpc => (mem_set_or hpc).imp id (fun e k' hk' => ?_)) (fun e he => .inl he), g⟩
        subst e
        exact fun _ _ _ _ _ h => nomatch h
      | len k =>
        injection h with h; subst h
        have g : Grows cfg s (s.commit t (.len k) (.num (s.table k).length)) :=
          ⟨fun _ h _ => h, fun _ h => List.mem_cons_of_mem _ h⟩
        refine ⟨I.keep g (List.Sublist.refl _) (fun k hk p hp => g.safe hk (I.table k hk p hp))
          (fun pc hpc => (mem_set_or hpc).imp id (fun e k' hk' => ?_)) (fun e he => .inl he), g⟩
        subst e
        exact fun _ _ _ _ _ h => nomatch h
      | clear k =>
        simp only at h
        split at h
        · cases h
        · injection h with h; subst h
          have g : Grows cfg s ((s.setTable k []).commit t (.clear k) .unit) :=
            ⟨fun _ h _ => h, fun _ h => List.mem_cons_of_mem _ h⟩
          refine ⟨I.keep g (List.Sublist.refl _) (fun k' hk p hp => ?_)
            (fun pc hpc => (mem_set_or hpc).imp id (fun e k' hk' => ?_)) (fun e he => .inl he), g⟩
          · simp only [State.commit, State.setTable] at hp
            split at hp
            · cases hp
            · exact g.safe hk (I.table k' hk p hp)
          · subst e
            exact fun _ _ _ _ _ h => nomatch h
    · cases h
  | build k q mk =>
    simp only [runWith] at h
    cases ha : allocAt cfg s k mk a with
    | none => rw [ha] at h; cases h
    | some addr =>
      rw [ha] at h
      injection h with h; subst h
      have g : Grows cfg s (State.at { s with heap := ⟨k, ⟨addr, cfg.info k mk⟩, mk⟩ :: s.heap } t
          (.insert k q mk ⟨addr, cfg.info k mk⟩)) := ⟨fun _ h _ => List.mem_cons_of_mem _ h, fun _ h => h⟩
      have hz : (cfg.zst k mk = true → addr = cfg.dangle k mk) ∧ (cfg.zst k mk = false →
          ∀ o ∈ s.heap, cfg.zst o.pool o.val = false → addr ≠ o.ptr.addr) := by
        unfold allocAt at ha
        split at ha
        · rename_i h1
          injection ha with ha
          exact ⟨fun _ => ha.symm, fun h => absurd h1 (by rw [h]; decide)⟩
        · rename_i h1
          split at ha
          · rename_i h2
            injection ha with ha
            refine ⟨fun h => absurd h h1, fun _ o ho hz e => ?_⟩
            have := (List.all_eq_true.mp h2.2) o ho
            rw [hz, ha, e] at this
            simp at this
          · cases ha
      refine ⟨⟨?_, ?_, fun k' hk p hp => g.safe hk (I.table k' hk p hp), ?_,
        fun e he hk => g.safeRet hk (I.done e he hk)⟩, g⟩
      · intro o ho
        rcases List.mem_cons.mp ho with e | ho
        · subst e; exact ⟨rfl, hz.1⟩
        · exact I.shape o ho
      · exact List.pairwise_cons.mpr ⟨fun o ho h1 h2 => hz.2 h1 o ho h2, I.addrs⟩
      · intro k' hk' pc hpc
        rcases mem_set_or hpc with hpc | e
        · exact g.pc hk' (I.pcs k' hk' pc hpc)
        · subst e
          intro e
          subst e
          exact List.mem_cons_self
  | insert k q mk p =>
    simp only [runWith] at h
    split at h
    · cases found with
      | none =>
        injection h with h; subst h
        have g : Grows cfg s ((s.setTable k (p :: s.table k)).commit t (.intern k q mk) (.ptr p)) :=
          ⟨fun _ h _ => h, fun _ h => List.mem_cons_of_mem _ h⟩
        have hsafe : cfg.owns k = false →
            Safe ((s.setTable k (p :: s.table k)).commit t (.intern k q mk) (.ptr p)) k p := fun hk =>
          ⟨mk, I.pcs k hk _ hmem rfl, _, List.mem_cons_self, q, rfl, rfl⟩
        refine ⟨I.keep g (List.Sublist.refl _) (fun k' hk p' hp => ?_)
          (fun pc hpc => (mem_set_or hpc).imp id (fun e k' hk' => ?_)) (fun e he => .inl he), g⟩
        · simp only [State.commit, State.setTable] at hp
          split at hp
          · rename_i e
            subst e
            rcases List.mem_cons.mp hp with e | hp
            · subst e; exact hsafe hk
            · exact g.safe hk (I.table _ hk p' hp)
          · exact g.safe hk (I.table k' hk p' hp)
        · subst e
          intro e k2 q2 x2 p2 h1 h2
          injection h1 with h1; injection h2 with h2
          subst h1; subst h2
          have e : k = k' := e
          subst e
          exact hsafe hk'
      | some p0 =>
        injection h with h
        have hheap : s'.heap = (if cfg.owns k then free s.heap k p else s.heap) := by
          subst h; split <;> rfl
        have hlog : s'.log = ⟨t, .intern k q mk, .ptr p⟩ :: s.log := by subst h; split <;> rfl
        have htab : s'.table = s.table := by subst h; split <;> rfl
        have hthr : s'.threads = s.threads.set t (.leave (.intern k q mk) (.ptr p)) := by subst h; split <;> rfl
        have hdone : s'.done = s.done := by subst h; split <;> rfl
        clear h
        have g : Grows cfg s s' := by
          refine ⟨fun o h hk => ?_, fun _ h => hlog ▸ List.mem_cons_of_mem _ h⟩
          rw [hheap]
          split
          · rename_i hk'
            exact mem_free h (fun e => by rw [e, hk'] at hk; cases hk)
          · exact h
        refine ⟨I.keep g ?_ (fun k' hk p' hp => g.safe hk (I.table k' hk p' (htab ▸ hp)))
          (fun pc hpc => (mem_set_or (hthr ▸ hpc)).imp id (fun e k' hk' => ?_)) (fun e he => .inl (hdone ▸ he)), g⟩
        · rw [hheap]
          split
          · exact free_sublist _ _ _
          · exact List.Sublist.refl _
        · subst e
          intro e k2 q2 x2 p2 h1 h2
          injection h1 with h1; injection h2 with h2
          subst h1; subst h2
          have e : k = k' := e
          subst e
          exact ⟨mk, g.1 _ (I.pcs k hk' _ hmem rfl) hk', _, hlog ▸ List.mem_cons_self, q, rfl, rfl⟩
    · cases h
  | dropArg k q mk p =>
    injection h with h; subst h
    have g : Grows cfg s (s.commit t (.intern k q mk) (.ptr p)) :=
      ⟨fun _ h _ => h, fun _ h => List.mem_cons_of_mem _ h⟩
    refine ⟨I.keep g (List.Sublist.refl _) (fun k hk p hp => g.safe hk (I.table k hk p hp))
      (fun pc hpc => (mem_set_or hpc).imp id (fun e k' hk' => ?_)) (fun e he => .inl he), g⟩
    subst e
    intro e k2 q2 x2 p2 h1 h2
    injection h1 with h1; injection h2 with h2
    subst h1; subst h2
    have e : k = k' := e
    subst e
    exact g.safe hk' (I.pcs k hk' _ hmem rfl)
  | leave o r =>
    injection h with h; subst h
    have g : Grows cfg s { (s.unlock (cfg.lockOf o.pool)).at t .idle with
        done := { tid := t, op := o, ret := r } :: s.done } := ⟨fun _ h _ => h, fun _ h => h⟩
    refine ⟨I.keep g (List.Sublist.refl _) (fun k hk p hp => g.safe hk (I.table k hk p hp))
      (fun pc hpc => (mem_set_or hpc).imp id (fun e k' hk' => by rw [e]; trivial)) (fun e he => ?_), g⟩
    rcases List.mem_cons.mp he with e | he
    · subst e
      exact .inr fun hk => g.safeRet hk (I.pcs _ hk _ hmem rfl)
    · exact .inl he

theorem chaos_panic (I : ChaosInv cfg s) {t : Tid} {pc : Pc K V} (h : runPanic cfg s t pc = .ok s') :
    ChaosInv cfg s' ∧ Grows cfg s s' := by
  have key : ∀ s' : State K V, s'.threads = s.threads.set t .idle → s'.table = s.table → s'.done = s.done →
      s'.log = s.log → s'.heap.Sublist s.heap → (∀ o ∈ s.heap, cfg.owns o.pool = false → o ∈ s'.heap) →
      ChaosInv cfg s' ∧ Grows cfg s s' := by
    intro s' h1 h2 h3 h4 h5 h6
    have g : Grows cfg s s' := ⟨h6, fun _ h => h4 ▸ h⟩
    exact ⟨I.keep g h5 (fun k hk p hp => g.safe hk (I.table k hk p (h2 ▸ hp)))
      (fun pc hpc => (mem_set_or (h1 ▸ hpc)).imp id (fun e k' hk' => by rw [e]; trivial)) (fun e he => .inl (h3 ▸ he)), g⟩
  cases pc with
  | inside o => injection h with h; subst h; exact key _ rfl rfl rfl rfl (List.Sublist.refl _) (fun _ h _ => h)
  | build k q mk => injection h with h; subst h; exact key _ rfl rfl rfl rfl (List.Sublist.refl _) (fun _ h _ => h)
  | dropArg k q mk p => injection h with h; subst h; exact key _ rfl rfl rfl rfl (List.Sublist.refl _) (fun _ h _ => h)
  | insert k q mk p =>
    injection h with h; subst h
    refine key _ rfl rfl rfl rfl ?_ ?_
    · show (if cfg.owns k then free s.heap k p else s.heap).Sublist s.heap
      split
      · exact free_sublist _ _ _
      · exact List.Sublist.refl _
    · intro o ho hk
      show o ∈ if cfg.owns k then free s.heap k p else s.heap
      split
      · rename_i hk'
        exact mem_free ho (fun e => by rw [e, hk'] at hk; cases hk)
      · exact ho
  | idle => cases h
  | want o => cases h
  | leave o r => cases h

theorem chaos_step (I : ChaosInv cfg s) {a : Act K V} {found : Option Ptr} (hf : Answer s found a)
    (h : stepWith found cfg s a = .ok s') : ChaosInv cfg s' ∧ Grows cfg s s' := by
  cases a with
  | spawn =>
    injection h with h; subst h
    have g : Grows cfg s { s with threads := s.threads ++ [.idle] } := ⟨fun _ h _ => h, fun _ h => h⟩
    refine ⟨I.keep g (List.Sublist.refl _) (fun k hk p hp => g.safe hk (I.table k hk p hp)) (fun pc hpc => ?_)
      (fun e he => .inl he), g⟩
    refine (List.mem_append.mp hpc).imp id (fun e k _ => ?_)
    rw [List.mem_singleton.mp e]; trivial
  | call t o =>
    simp only [stepWith] at h
    split at h
    · split at h
      · cases h
      · injection h with h; subst h
        have g : Grows cfg s (s.at t (.want o)) := ⟨fun _ h _ => h, fun _ h => h⟩
        exact ⟨I.keep g (List.Sublist.refl _) (fun k hk p hp => g.safe hk (I.table k hk p hp))
          (fun pc hpc => (mem_set_or hpc).imp id (fun e k' hk' => by rw [e]; trivial)) (fun e he => .inl he), g⟩
    · cases h
  | run t a =>
    simp only [stepWith] at h
    split at h
    · rename_i pc hpc
      exact chaos_run I hpc hf h
    · cases h
  | panic t =>
    simp only [stepWith] at h
    split at h
    · exact chaos_panic I h
    · cases h
  | dropArena k =>
    simp only [stepWith] at h
    split at h
    · rename_i hc
      have hown : cfg.owns k = true := by simp at hc; exact hc.1.1
      injection h with h; subst h
      have g : Grows cfg s { (s.setTable k []) with
          heap := (s.table k).foldl (fun h p => free h k p) s.heap, gone := k :: s.gone } :=
        ⟨fun o h hk => mem_freeAll _ h (fun e => by rw [e, hown] at hk; cases hk), fun _ h => h⟩
      refine ⟨I.keep g (freeAll_sublist _ _ _) (fun k' hk p hp => ?_) (fun pc hpc => .inl hpc) (fun e he => .inl he), g⟩
      simp only [State.setTable] at hp
      split at hp
      · cases hp
      · exact g.safe hk (I.table k' hk p hp)
    · cases h
  | read k p =>
    simp only [stepWith] at h
    split at h
    · injection h with h; subst h; exact ⟨I, .rfl⟩
    · cases h

theorem Chaos.inv (h : Chaos cfg s) : ChaosInv cfg s := by
  induction h with
  | init => exact chaosInv_init
  | step _ hf h ih => exact (chaos_step ih hf h).1

theorem ChaosSteps.inv (h : ChaosSteps cfg s s') (I : ChaosInv cfg s) : ChaosInv cfg s' ∧ Grows cfg s s' := by
  induction h with
  | refl => exact ⟨I, .rfl⟩
  | tail _ hf h ih =>
    have := chaos_step ih.1 hf h
    exact ⟨this.1, ih.2.trans this.2⟩

theorem ChaosInv.tableOk (I : ChaosInv cfg s) {k : K} (hk : cfg.owns k = false) : tableOk s k = true := by
  unfold Pool.tableOk
  rw [List.all_eq_true]
  intro p hp
  obtain ⟨x, hx, _⟩ := I.table k hk p hp
  obtain ⟨y, hy⟩ := deref_some hx
  rw [hy]; rfl

theorem ChaosInv.deref (I : ChaosInv cfg s) (lay : cfg.Layout) {k : K} {p : Ptr} {x : V} (h : ⟨k, p, x⟩ ∈ s.heap) :
    deref s k p = some x := by
  obtain ⟨y, hy⟩ := deref_some h
  rw [hy, same_val lay I.shape I.addrs (deref_mem hy) h]

end
end Pool
