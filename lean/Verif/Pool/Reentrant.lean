/-
User code that interns from inside an interning call (C32). `Arena::with` calls the closure while the shard mutex is held
(container.rs:117-121), so `Hash`, `Eq`, `Borrow`, `From` and (on a hit) `Drop` of the argument run under the lock
(intern.rs:211-218, 229-236). A call is abstracted to: the mutex it takes, and the interning calls its user code makes
while the mutex is held. `std::sync::Mutex` and `spin::Mutex` are not re-entrant: locking a mutex the thread itself holds
never succeeds (std documents that it deadlocks or panics, it does not return).
-/
namespace Reentrant

/-- A call taking mutex `lock` and, under it, making the calls `nested` one after the other. -/
inductive Call where
  | mk (lock : Nat) (nested : List Call)

inductive Instr where
  | acq (i : Nat)
  | rel (i : Nat)
  deriving DecidableEq

mutual
/-- The locking instructions of a call, in order. -/
def Call.prog : Call → List Instr
  | .mk i l => .acq i :: (progs l ++ [.rel i])
def progs : List Call → List Instr
  | [] => []
  | c :: l => c.prog ++ progs l
end

mutual
/-- All mutexes used by a call. -/
def Call.locks : Call → List Nat
  | .mk i l => i :: lockss l
def lockss : List Call → List Nat
  | [] => []
  | c :: l => c.locks ++ lockss l
end

mutual
/-- No call uses a mutex that an enclosing call holds. -/
def Call.Fresh : Call → Prop
  | .mk i l => i ∉ lockss l ∧ Freshs l
def Freshs : List Call → Prop
  | [] => True
  | c :: l => c.Fresh ∧ Freshs l
end

/-- State: the holder of each mutex and the instructions each thread still has to execute. -/
structure State where
  lock : Nat → Option Nat
  todo : List (List Instr)

/-- One step of thread `t`. -/
def step (s : State) (t : Nat) : Option State :=
  match s.todo[t]? with
  | some (.acq i :: l) => if (s.lock i).isSome then none else
      some { lock := fun j => if j = i then some t else s.lock j, todo := s.todo.set t l }
  | some (.rel i :: l) => some { lock := fun j => if j = i then none else s.lock j, todo := s.todo.set t l }
  | _ => none

/-- All threads start with the programs of their calls and all mutexes free. -/
def start (calls : List (List Call)) : State := { lock := fun _ => none, todo := calls.map progs }

inductive Reach (s0 : State) : State → Prop where
  | refl : Reach s0 s0
  | step {s s' t} : Reach s0 s → Reentrant.step s t = some s' → Reach s0 s'

/-! ### Auxiliary facts -/

/-- Net number of acquisitions of `i`. -/
def held (i : Nat) : List Instr → Int
  | [] => 0
  | .acq j :: l => (if j = i then 1 else 0) + held i l
  | .rel j :: l => (if j = i then -1 else 0) + held i l

theorem held_append (i : Nat) (a b : List Instr) : held i (a ++ b) = held i a + held i b := by
  induction a with
  | nil => simp [held]
  | cons x a ih => cases x <;> simp only [List.cons_append, held, ih] <;> omega

mutual
theorem held_prog (i : Nat) : ∀ c : Call, held i c.prog = 0
  | .mk j l => by
    simp only [Call.prog, held, held_append, held_progs i l]
    split <;> omega
theorem held_progs (i : Nat) : ∀ l : List Call, held i (progs l) = 0
  | [] => rfl
  | c :: l => by rw [progs, held_append, held_prog i c, held_progs i l]; rfl
end

theorem getElem?_set_cases {α : Type} {l : List α} {t u : Nat} {x y : α} (h : (l.set t x)[u]? = some y) :
    (u = t ∧ y = x) ∨ (u ≠ t ∧ l[u]? = some y) := by
  rw [List.getElem?_set] at h
  split at h
  · rename_i e
    split at h
    · injection h with h
      exact .inl ⟨e.symm, h.symm⟩
    · cases h
  · rename_i e
    exact .inr ⟨fun e' => e e'.symm, h⟩

theorem suffix_append_cases {α : Type} {a b l : List α} (h : l <:+ a ++ b) : l <:+ b ∨ ∃ a', a' <:+ a ∧ l = a' ++ b := by
  obtain ⟨p, hp⟩ := h
  rcases List.append_eq_append_iff.mp hp with ⟨q, h1, h2⟩ | ⟨q, h1, h2⟩
  · exact .inr ⟨q, ⟨p, h1.symm⟩, h2⟩
  · exact .inl ⟨q, h2.symm⟩

mutual
/-- Every rest of a program releases at least as often as it acquires. -/
theorem held_suffix_prog (i : Nat) : ∀ (c : Call) (l : List Instr), l <:+ c.prog → held i l ≤ 0
  | .mk j cs, l, h => by
    simp only [Call.prog] at h
    rcases List.suffix_cons_iff.mp h with rfl | h
    · have := held_prog i (.mk j cs)
      simp only [Call.prog] at this
      omega
    · rcases suffix_append_cases h with h | ⟨a, ha, rfl⟩
      · rcases List.suffix_cons_iff.mp h with rfl | h
        · simp only [held]; split <;> omega
        · rw [List.suffix_nil.mp h]; simp [held]
      · have := held_suffix_progs i cs a ha
        rw [held_append]
        simp only [held]
        split <;> omega
theorem held_suffix_progs (i : Nat) : ∀ (cs : List Call) (l : List Instr), l <:+ progs cs → held i l ≤ 0
  | [], l, h => by
    simp only [progs] at h
    rw [List.suffix_nil.mp h]; simp [held]
  | c :: cs, l, h => by
    simp only [progs] at h
    rcases suffix_append_cases h with h | ⟨a, ha, rfl⟩
    · exact held_suffix_progs i cs l h
    · have := held_suffix_prog i c a ha
      rw [held_append, held_progs]
      omega
end

mutual
theorem mem_locks_prog {j : Nat} {l : List Instr} : ∀ (c : Call), (.acq j :: l) <:+ c.prog → j ∈ c.locks
  | .mk k cs, h => by
    simp only [Call.prog] at h
    rcases List.suffix_cons_iff.mp h with h | h
    · injection h with h _
      injection h with h
      subst h
      simp [Call.locks]
    · rcases suffix_append_cases h with h | ⟨a, ha, e⟩
      · rcases List.suffix_cons_iff.mp h with h | h
        · injection h with h _; cases h
        · cases List.suffix_nil.mp h
      · cases a with
        | nil => injection e with e _; cases e
        | cons x a =>
          injection e with e1 e2
          subst e1
          simp only [Call.locks]
          exact List.mem_cons_of_mem _ (mem_locks_progs cs ha)
theorem mem_locks_progs {j : Nat} {l : List Instr} : ∀ (cs : List Call), (.acq j :: l) <:+ progs cs → j ∈ lockss cs
  | [], h => by
    simp only [progs] at h
    cases List.suffix_nil.mp h
  | c :: cs, h => by
    simp only [progs] at h
    simp only [lockss]
    rcases suffix_append_cases h with h | ⟨a, ha, e⟩
    · exact List.mem_append_right _ (mem_locks_progs cs h)
    · cases a with
      | nil =>
        rw [List.nil_append] at e
        exact List.mem_append_right _ (mem_locks_progs cs (l := l) (by rw [e]; exact List.suffix_refl _))
      | cons x a =>
        injection e with e1 e2
        subst e1
        exact List.mem_append_left _ (mem_locks_prog c ha)
end

mutual
theorem locks_occur {j : Nat} : ∀ (c : Call), j ∈ c.locks → ∃ l, (.acq j :: l) <:+ c.prog
  | .mk k cs, h => by
    simp only [Call.locks] at h
    simp only [Call.prog]
    rcases List.mem_cons.mp h with rfl | h
    · exact ⟨_, List.suffix_refl _⟩
    · obtain ⟨l, p, hl⟩ := lockss_occur cs h
      exact ⟨l ++ [.rel k], .acq k :: p, by rw [← hl]; simp⟩
theorem lockss_occur {j : Nat} : ∀ (cs : List Call), j ∈ lockss cs → ∃ l, (.acq j :: l) <:+ progs cs
  | [], h => by simp [lockss] at h
  | c :: cs, h => by
    simp only [lockss] at h
    simp only [progs]
    rcases List.mem_append.mp h with h | h
    · obtain ⟨l, p, hl⟩ := locks_occur c h
      exact ⟨l ++ progs cs, p, by rw [← hl]; simp⟩
    · obtain ⟨l, p, hl⟩ := lockss_occur cs h
      exact ⟨l, c.prog ++ p, by rw [← hl]; simp⟩
end

mutual
/-- A call that is not fresh at some point acquires a mutex it still has to release. -/
theorem notFresh_prog : ∀ (c : Call), ¬ c.Fresh → ∃ i l, (.acq i :: l) <:+ c.prog ∧ held i (.acq i :: l) ≤ -1
  | .mk k cs, h => by
    simp only [Call.Fresh] at h
    simp only [Call.prog]
    by_cases hk : k ∈ lockss cs
    · obtain ⟨l, hl⟩ := lockss_occur cs hk
      have := held_suffix_progs k cs _ hl
      obtain ⟨p, hp⟩ := hl
      refine ⟨k, l ++ [.rel k], ⟨.acq k :: p, by rw [← hp]; simp⟩, ?_⟩
      rw [← List.cons_append, held_append]
      simp only [held] at this ⊢
      simp at this ⊢
      omega
    · have hn : ¬ Freshs cs := fun c => h ⟨hk, c⟩
      obtain ⟨i, l, ⟨p, hp⟩, hl⟩ := notFresh_progs cs hn
      refine ⟨i, l ++ [.rel k], ⟨.acq k :: p, by rw [← hp]; simp⟩, ?_⟩
      rw [← List.cons_append, held_append]
      have : held i [.rel k] ≤ 0 := by simp only [held]; split <;> omega
      omega
theorem notFresh_progs : ∀ (cs : List Call), ¬ Freshs cs → ∃ i l, (.acq i :: l) <:+ progs cs ∧ held i (.acq i :: l) ≤ -1
  | [], h => absurd (by simp [Freshs]) h
  | c :: cs, h => by
    simp only [Freshs] at h
    simp only [progs]
    by_cases hc : c.Fresh
    · obtain ⟨i, l, ⟨p, hp⟩, hl⟩ := notFresh_progs cs (fun d => h ⟨hc, d⟩)
      exact ⟨i, l, ⟨c.prog ++ p, by rw [← hp]; simp⟩, hl⟩
    · obtain ⟨i, l, ⟨p, hp⟩, hl⟩ := notFresh_prog c hc
      refine ⟨i, l ++ progs cs, ⟨p, by rw [← hp]; simp⟩, ?_⟩
      rw [← List.cons_append, held_append, held_progs]
      omega
end

/-- Every thread has still to execute a rest of its program; it holds exactly the mutexes it still has to release. -/
structure Inv (calls : List (List Call)) (s : State) : Prop where
  rest : ∀ (t : Nat) l, s.todo[t]? = some l → ∃ c, calls[t]? = some c ∧ l <:+ progs c
  holds : ∀ (t : Nat) l, s.todo[t]? = some l → ∀ i, (s.lock i = some t ↔ held i l = -1) ∧ -1 ≤ held i l
  owner : ∀ i t, s.lock i = some t → ∃ l, s.todo[t]? = some l

theorem Inv.start (calls : List (List Call)) : Inv calls (start calls) where
  rest t l h := by
    simp only [Reentrant.start, List.getElem?_map, Option.map_eq_some_iff] at h
    obtain ⟨c, h1, h2⟩ := h
    exact ⟨c, h1, h2 ▸ List.suffix_refl _⟩
  holds t l h i := by
    simp only [Reentrant.start, List.getElem?_map, Option.map_eq_some_iff] at h
    obtain ⟨c, h1, h2⟩ := h
    rw [← h2, held_progs]
    exact ⟨⟨fun h => (nomatch h), fun h => by omega⟩, by omega⟩
  owner i t h := by cases h

theorem set_some {α : Type} {l : List α} {t : Nat} {x y : α} (h : l[t]? = some x) : (l.set t y)[t]? = some y := by
  rw [List.getElem?_set]
  have : t < l.length := (List.getElem?_eq_some_iff.mp h).1
  simp [this]

theorem step_cases {s s' : State} {t : Nat} (h : step s t = some s') :
    (∃ i l, s.todo[t]? = some (.acq i :: l) ∧ s.lock i = none ∧
      s' = { lock := fun j => if j = i then some t else s.lock j, todo := s.todo.set t l }) ∨
    (∃ i l, s.todo[t]? = some (.rel i :: l) ∧
      s' = { lock := fun j => if j = i then none else s.lock j, todo := s.todo.set t l }) := by
  unfold step at h
  split at h
  · rename_i i l ht
    split at h
    · cases h
    · rename_i hl
      injection h with h
      exact .inl ⟨i, l, ht, by simpa using hl, h.symm⟩
  · rename_i i l ht
    injection h with h
    exact .inr ⟨i, l, ht, h.symm⟩
  · cases h

theorem Inv.step {calls : List (List Call)} {s s' : State} {t : Nat} (I : Inv calls s) (h : step s t = some s') :
    Inv calls s' := by
  rcases step_cases h with ⟨i, l, ht, hl, rfl⟩ | ⟨i, l, ht, rfl⟩
  · obtain ⟨h1, h2⟩ := I.holds t _ ht i
    have hnh : held i (.acq i :: l) ≠ -1 := fun c => by rw [h1.mpr c] at hl; cases hl
    obtain ⟨c, hc, hs⟩ := I.rest t _ ht
    have hle := held_suffix_progs i c _ hs
    have hil : held i l = -1 := by
      simp only [held] at hnh h2 hle
      simp at hnh h2 hle
      omega
    exact {
      rest := fun u m hu => by
        rcases getElem?_set_cases hu with ⟨rfl, rfl⟩ | ⟨hne, hu'⟩
        · exact ⟨c, hc, (List.suffix_cons _ _).trans hs⟩
        · exact I.rest u m hu'
      holds := fun u m hu j => by
        show ((if j = i then some t else s.lock j) = some u ↔ _) ∧ _
        rcases getElem?_set_cases hu with ⟨rfl, rfl⟩ | ⟨hne, hu'⟩
        · by_cases e : j = i
          · subst e
            rw [if_pos rfl, hil]
            exact ⟨⟨fun _ => rfl, fun _ => rfl⟩, by omega⟩
          · rw [if_neg e]
            have := I.holds u _ ht j
            simp only [held, if_neg (fun c : i = j => e c.symm), Int.zero_add] at this
            exact this
        · have := I.holds u m hu' j
          by_cases e : j = i
          · subst e
            rw [if_pos rfl]
            refine ⟨⟨fun c => ?_, fun c => ?_⟩, this.2⟩
            · injection c with c; exact absurd c.symm hne
            · rw [this.1.mpr c] at hl; cases hl
          · rw [if_neg e]; exact this
      owner := fun j u hu => by
        have hu : (if j = i then some t else s.lock j) = some u := hu
        by_cases e : u = t
        · subst e; exact ⟨l, set_some ht⟩
        · by_cases e' : j = i
          · rw [if_pos e'] at hu; injection hu with hu; exact absurd hu.symm e
          · rw [if_neg e'] at hu
            obtain ⟨m, hm⟩ := I.owner j u hu
            exact ⟨m, by show (s.todo.set t l)[u]? = _; rw [List.getElem?_set, if_neg (fun c => e c.symm)]; exact hm⟩ }
  · obtain ⟨h1, h2⟩ := I.holds t _ ht i
    obtain ⟨c, hc, hs⟩ := I.rest t _ ht
    have hs' := (List.suffix_cons (.rel i) l).trans hs
    have hle := held_suffix_progs i c _ hs'
    have hil : held i l = 0 := by
      simp only [held] at h2
      simp at h2
      omega
    have hmine : s.lock i = some t := h1.mpr (by simp only [held]; simp; omega)
    exact {
      rest := fun u m hu => by
        rcases getElem?_set_cases hu with ⟨rfl, rfl⟩ | ⟨hne, hu'⟩
        · exact ⟨c, hc, hs'⟩
        · exact I.rest u m hu'
      holds := fun u m hu j => by
        show ((if j = i then none else s.lock j) = some u ↔ _) ∧ _
        rcases getElem?_set_cases hu with ⟨rfl, rfl⟩ | ⟨hne, hu'⟩
        · by_cases e : j = i
          · subst e
            rw [if_pos rfl, hil]
            exact ⟨⟨fun c => (nomatch c), fun c => by omega⟩, by omega⟩
          · rw [if_neg e]
            have := I.holds u _ ht j
            simp only [held, if_neg (fun c : i = j => e c.symm), Int.zero_add] at this
            exact this
        · have := I.holds u m hu' j
          by_cases e : j = i
          · subst e
            rw [if_pos rfl]
            refine ⟨⟨fun c => (nomatch c), fun c => ?_⟩, this.2⟩
            have := this.1.mpr c
            rw [hmine] at this
            injection this with this
            exact absurd this.symm hne
          · rw [if_neg e]; exact this
      owner := fun j u hu => by
        have hu : (if j = i then none else s.lock j) = some u := hu
        by_cases e' : j = i
        · rw [if_pos e'] at hu; cases hu
        · rw [if_neg e'] at hu
          by_cases e : u = t
          · subst e; exact ⟨l, set_some ht⟩
          · obtain ⟨m, hm⟩ := I.owner j u hu
            exact ⟨m, by show (s.todo.set t l)[u]? = _; rw [List.getElem?_set, if_neg (fun c => e c.symm)]; exact hm⟩ }

theorem Reach.inv {calls : List (List Call)} {s : State} (h : Reach (Reentrant.start calls) s) : Inv calls s := by
  induction h with
  | refl => exact Inv.start calls
  | step _ hs ih => exact ih.step hs

/-- Executions in which only thread `t` steps. -/
inductive Solo (t : Nat) : State → State → Prop where
  | refl {s} : Solo t s s
  | head {s s' s''} : Reentrant.step s t = some s' → Solo t s' s'' → Solo t s s''

theorem Solo.trans {t : Nat} {a b c : State} (h : Solo t a b) (h' : Solo t b c) : Solo t a c := by
  induction h with
  | refl => exact h'
  | head hs _ ih => exact .head hs (ih h')

mutual
theorem solo_prog (t : Nat) : ∀ (c : Call) (s : State) (rest : List Instr), c.Fresh → s.todo[t]? = some (c.prog ++ rest) →
    (∀ i ∈ c.locks, s.lock i = none) → Solo t s { lock := s.lock, todo := s.todo.set t rest }
  | .mk k cs, s, rest, hf, ht, hl => by
    simp only [Call.Fresh] at hf
    simp only [Call.prog, List.cons_append] at ht
    simp only [Call.locks] at hl
    have hk : s.lock k = none := hl k List.mem_cons_self
    have h1 : step s t = some { lock := (fun j => if j = k then some t else s.lock j), todo := s.todo.set t (progs cs ++ [.rel k] ++ rest) } := by
      unfold step
      rw [ht]
      simp only [hk]
      rfl
    have h2 := solo_progs t cs { lock := (fun j => if j = k then some t else s.lock j), todo := s.todo.set t (progs cs ++ [.rel k] ++ rest) } (.rel k :: rest) hf.2
      (by rw [set_some ht]; simp)
      (fun i hi => by
        show (if i = k then some t else s.lock i) = none
        rw [if_neg (fun e : i = k => hf.1 (e ▸ hi))]
        exact hl i (List.mem_cons_of_mem _ hi))
    refine .head h1 (h2.trans (.head (s' := { lock := s.lock, todo := s.todo.set t rest }) ?_ .refl))
    have ht' : ((s.todo.set t (progs cs ++ [.rel k] ++ rest)).set t (.rel k :: rest))[t]? = some (.rel k :: rest) :=
      set_some (set_some ht)
    unfold step
    simp only [ht']
    simp only [Option.some.injEq, State.mk.injEq, List.set_set, and_true]
    funext j
    by_cases e : j = k
    · rw [if_pos e, e, hk]
    · rw [if_neg e, if_neg e]
theorem solo_progs (t : Nat) : ∀ (cs : List Call) (s : State) (rest : List Instr), Freshs cs →
    s.todo[t]? = some (progs cs ++ rest) → (∀ i ∈ lockss cs, s.lock i = none) →
    Solo t s { lock := s.lock, todo := s.todo.set t rest }
  | [], s, rest, _, ht, _ => by
    simp only [progs, List.nil_append] at ht
    have : s.todo.set t rest = s.todo := by
      obtain ⟨h1, h2⟩ := List.getElem?_eq_some_iff.mp ht
      rw [← h2]; exact List.set_getElem_self h1
    rw [this]; exact .refl
  | c :: cs, s, rest, hf, ht, hl => by
    simp only [Freshs] at hf
    simp only [progs, List.append_assoc] at ht
    simp only [lockss] at hl
    have h1 := solo_prog t c s (progs cs ++ rest) hf.1 ht (fun i hi => hl i (List.mem_append_left _ hi))
    have h2 := solo_progs t cs { lock := s.lock, todo := s.todo.set t (progs cs ++ rest) } rest hf.2 (set_some ht)
      (fun i hi => hl i (List.mem_append_right _ hi))
    simp only [List.set_set] at h2
    exact h1.trans h2
end

mutual
/-- Nested calls use mutexes of strictly greater rank than the enclosing ones. -/
def Call.Ordered (r : Nat → Nat) : Call → Prop
  | .mk i l => (∀ j ∈ lockss l, r i < r j) ∧ Ordereds r l
def Ordereds (r : Nat → Nat) : List Call → Prop
  | [] => True
  | c :: l => c.Ordered r ∧ Ordereds r l
end

mutual
theorem ordered_prog {r : Nat → Nat} {i j : Nat} : ∀ (c : Call) {l : List Instr}, c.Ordered r → (.acq j :: l) <:+ c.prog →
    held i (.acq j :: l) ≤ -1 → r i < r j
  | .mk k cs, l, ho, h, hh => by
    have h0 := h
    simp only [Call.Ordered] at ho
    simp only [Call.prog] at h
    rcases List.suffix_cons_iff.mp h with h | h
    · have := held_prog i (.mk k cs)
      simp only [Call.prog] at this
      rw [← h] at this
      omega
    · rcases suffix_append_cases h with h | ⟨a, ha, e⟩
      · rcases List.suffix_cons_iff.mp h with h | h
        · injection h with h _; cases h
        · cases List.suffix_nil.mp h
      · cases a with
        | nil => injection e with e _; cases e
        | cons x a =>
          rw [e, held_append] at hh
          injection e with e1 e2
          subst e1
          by_cases hki : k = i
          · subst hki
            exact ho.1 j (mem_locks_progs cs ha)
          · have : held i [.rel k] = 0 := by simp [held, hki]
            exact ordered_progs cs ho.2 ha (by omega)
theorem ordered_progs {r : Nat → Nat} {i j : Nat} : ∀ (cs : List Call) {l : List Instr}, Ordereds r cs →
    (.acq j :: l) <:+ progs cs → held i (.acq j :: l) ≤ -1 → r i < r j
  | [], l, _, h, _ => by
    simp only [progs] at h
    cases List.suffix_nil.mp h
  | c :: cs, l, ho, h, hh => by
    simp only [Ordereds] at ho
    simp only [progs] at h
    rcases suffix_append_cases h with h | ⟨a, ha, e⟩
    · exact ordered_progs cs ho.2 h hh
    · cases a with
      | nil =>
        rw [List.nil_append] at e
        exact ordered_progs cs ho.2 (l := l) (by rw [e]; exact List.suffix_refl _) hh
      | cons x a =>
        rw [e, held_append, held_progs] at hh
        injection e with e1 e2
        subst e1
        exact ordered_prog c ho.1 ha (by omega)
end

end Reentrant
