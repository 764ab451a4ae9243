import Verif.Pool.Reentrant
/-
Property C32: interning from inside user code that runs under the shard lock.
-/
namespace Reentrant

/-- **C32, self-deadlock.** If one of a thread's calls interns, from its user code, a value whose pool has the same mutex as
an enclosing call, the thread never finishes, whatever the other threads do. -/
theorem C32_same_shard_blocks_forever (calls : List (List Call)) (t : Nat) (c : List Call) (ht : calls[t]? = some c)
    (hf : ¬ Freshs c) {s : State} (r : Reach (start calls) s) : s.todo[t]? ≠ some [] := by
  obtain ⟨i, l, hs, hh⟩ := notFresh_progs c hf
  have key : ∀ m, s.todo[t]? = some m → (.acq i :: l) <:+ m := by
    induction r with
    | refl =>
      intro m hm
      simp only [start, List.getElem?_map, ht, Option.map_some, Option.some.injEq] at hm
      rw [← hm]; exact hs
    | @step s s' u r hstep ih =>
      have I := r.inv
      intro m hm
      rcases step_cases hstep with ⟨j, l', hu, hl, rfl⟩ | ⟨j, l', hu, rfl⟩
      · rcases getElem?_set_cases hm with ⟨rfl, rfl⟩ | ⟨hne, hm'⟩
        · have := ih _ hu
          rcases List.suffix_cons_iff.mp this with e | h
          · injection e with e1 e2
            injection e1 with e1
            subst e1 e2
            have h1 := I.holds t _ hu i
            have : held i (.acq i :: l) = -1 := by have := h1.2; omega
            rw [h1.1.mpr this] at hl
            cases hl
          · exact h
        · exact ih m hm'
      · rcases getElem?_set_cases hm with ⟨rfl, rfl⟩ | ⟨hne, hm'⟩
        · have := ih _ hu
          rcases List.suffix_cons_iff.mp this with e | h
          · injection e with e1 e2; cases e1
          · exact h
        · exact ih m hm'
  intro h
  cases List.suffix_nil.mp (key [] h)

/-- **C32, other shards.** If no nested call uses the mutex of an enclosing one, the thread, left alone, finishes all its
calls and holds nothing afterwards. -/
theorem C32_other_shards_complete (calls : List (List Call)) (t : Nat) (c : List Call) (ht : calls[t]? = some c)
    (hf : Freshs c) : ∃ s, Solo t (start calls) s ∧ s.todo[t]? = some [] ∧ ∀ i, s.lock i = none := by
  have h0 : (start calls).todo[t]? = some (progs c ++ []) := by
    simp only [start, List.getElem?_map, ht, Option.map_some, List.append_nil]
  have := solo_progs t c (start calls) [] hf h0 (fun _ _ => rfl)
  exact ⟨_, this, set_some h0, fun _ => rfl⟩

/-- Three levels of nesting in shards 3, 5, 9 complete; nesting shard 3 in shard 5 in shard 3 does not. -/
example : Freshs [.mk 3 [.mk 5 [.mk 9 []], .mk 9 []]] := by simp [Freshs, Call.Fresh, lockss, Call.locks]
example : ¬ Freshs [.mk 3 [.mk 5 [.mk 3 []]]] := by simp [Freshs, Call.Fresh, lockss, Call.locks]

/-- C32, two threads (negative): nesting two shards in opposite orders can block both threads for ever, although each of
them alone would finish. -/
theorem C32_opposite_order_deadlock :
    Freshs [.mk 1 [.mk 2 []]] ∧ Freshs [.mk 2 [.mk 1 []]] ∧
    ∃ s, Reach (start [[.mk 1 [.mk 2 []]], [.mk 2 [.mk 1 []]]]) s ∧ (∀ t, step s t = none) ∧
      s.todo[0]? ≠ some [] ∧ s.todo[1]? ≠ some [] := by
  refine ⟨by simp [Freshs, Call.Fresh, lockss, Call.locks], by simp [Freshs, Call.Fresh, lockss, Call.locks], ?_⟩
  refine ⟨{ lock := (fun j => if j = 2 then some 1 else if j = 1 then some 0 else none),
            todo := [[.acq 2, .rel 2, .rel 1], [.acq 1, .rel 1, .rel 2]] }, ?_, ?_, by simp, by simp⟩
  · refine .step (t := 1) (.step (t := 0) .refl rfl) ?_
    rfl
  · intro t
    match t with
    | 0 => rfl
    | 1 => rfl
    | t + 2 => rfl

/-- C32, ordered nesting: if nested calls always go to shards of greater rank, any number of threads never deadlock:
whenever some thread is unfinished, some thread can step. -/
theorem C32_ordered_nesting_deadlock_free (r : Nat → Nat) (calls : List (List Call))
    (ho : ∀ c ∈ calls, Ordereds r c) {s : State} (h : Reach (start calls) s) {t : Nat} {l : List Instr}
    (ht : s.todo[t]? = some l) (hne : l ≠ []) : ∃ u s', step s u = some s' := by
  have I := h.inv
  -- a bound for the ranks of all mutexes some thread waits for
  have hbound : ∃ M, ∀ (u : Nat) i m, s.todo[u]? = some (.acq i :: m) → r i ≤ M := by
    have : ∀ L : List (List Instr), ∃ M, ∀ (u : Nat) i m, L[u]? = some (.acq i :: m) → r i ≤ M := by
      intro L
      induction L with
      | nil => exact ⟨0, fun u i m h => by cases h⟩
      | cons a L ih =>
        obtain ⟨M, hM⟩ := ih
        cases a with
        | nil => exact ⟨M, fun u i m h => by
            cases u with
            | zero => cases h
            | succ u => exact hM u i m h⟩
        | cons x a =>
          cases x with
          | acq k => exact ⟨max M (r k), fun u i m h => by
              cases u with
              | zero => cases h; exact Nat.le_max_right _ _
              | succ u => exact Nat.le_trans (hM u i m h) (Nat.le_max_left _ _)⟩
          | rel k => exact ⟨M, fun u i m h => by
              cases u with
              | zero => cases h
              | succ u => exact hM u i m h⟩
    exact this s.todo
  obtain ⟨M, hM⟩ := hbound
  -- follow the chain of waiting threads
  have chain : ∀ n (u : Nat) i m, s.todo[u]? = some (.acq i :: m) → M - r i ≤ n → ∃ u s', step s u = some s' := by
    intro n
    induction n with
    | zero =>
      intro u i m hu hn
      cases hl : s.lock i with
      | none => exact ⟨u, by unfold step; rw [hu]; simp only [hl]; exact ⟨_, rfl⟩⟩
      | some w =>
        obtain ⟨x, hx⟩ := I.owner i w hl
        have hheld := (I.holds w x hx i).1.mp hl
        cases x with
        | nil => simp [held] at hheld
        | cons a x =>
          cases a with
          | rel k => exact ⟨w, by unfold step; rw [hx]; exact ⟨_, rfl⟩⟩
          | acq k =>
            obtain ⟨c, hc, hsuf⟩ := I.rest w _ hx
            have := ordered_progs c (ho c (List.mem_of_getElem? hc)) hsuf (by omega : held i (.acq k :: x) ≤ -1)
            have := hM w k x hx
            have := hM u i m hu
            omega
    | succ n ih =>
      intro u i m hu hn
      cases hl : s.lock i with
      | none => exact ⟨u, by unfold step; rw [hu]; simp only [hl]; exact ⟨_, rfl⟩⟩
      | some w =>
        obtain ⟨x, hx⟩ := I.owner i w hl
        have hheld := (I.holds w x hx i).1.mp hl
        cases x with
        | nil => simp [held] at hheld
        | cons a x =>
          cases a with
          | rel k => exact ⟨w, by unfold step; rw [hx]; exact ⟨_, rfl⟩⟩
          | acq k =>
            obtain ⟨c, hc, hsuf⟩ := I.rest w _ hx
            have := ordered_progs c (ho c (List.mem_of_getElem? hc)) hsuf (by omega : held i (.acq k :: x) ≤ -1)
            have := hM w k x hx
            exact ih w k x hx (by omega)
  cases l with
  | nil => exact absurd rfl hne
  | cons a l =>
    cases a with
    | rel k => exact ⟨t, by unfold step; rw [ht]; exact ⟨_, rfl⟩⟩
    | acq k => exact chain _ t k l ht (Nat.le_refl _)

example : Ordereds id [.mk 3 [.mk 5 [.mk 9 []], .mk 7 []]] := by
  simp [Ordereds, Call.Ordered, lockss, Call.locks]

end Reentrant
