import Verif.TypeArena.Coherent
/-!
C64: how many tables `NewIntern` creates for a type (typearena.rs:70-76: "It's a little hokey leaving this race condition here, but at
worst it should just slow down access to a different type").

Reading guide. `CReach x`: `x` is a state of an execution in which no thread reads an older length of a vector than it has read before,
with these lengths. `tables s t`: the number of tables for type `t` in existence. `table s t`: the one in use.
-/
namespace TypeArena
open TypeMap (Cfg Code Entry Tid Res)
variable {cfg : Cfg}

theorem nodup_length_le : ∀ {n : Nat} {l : List Nat}, l.Nodup → (∀ x ∈ l, x < n) → l.length ≤ n := by
  intro n
  induction n with
  | zero =>
    intro l _ h
    cases l with
    | nil => exact Nat.le_refl _
    | cons a l => exact absurd (h a (List.mem_cons_self ..)) (Nat.not_lt_zero _)
  | succ n ih =>
    intro l hn h
    have h1 := ih (hn.erase n) (fun x hx => by
      have h2 := h x (List.mem_of_mem_erase hx)
      have h3 : x ≠ n := by
        rintro rfl
        exact hn.not_mem_erase hx
      omega)
    have := List.length_erase_le (a := n) (l := l)
    by_cases hm : n ∈ l
    · have := List.length_erase_of_mem hm
      omega
    · rw [List.erase_of_not_mem hm] at h1
      omega

/-- **C64, at most one table per thread.** However the threads race, and however old the lengths are that they read, a type never has
more tables than there are threads. -/
theorem C64_at_most_one_table_per_thread {x : State cfg × Seen} (r : CReach x) (t : cfg.Ty) : tables x.1 t ≤ x.1.threads.length := by
  obtain ⟨P, I⟩ := r.inv
  rw [I.count t]
  exact nodup_length_le (I.nodup t) (I.thread t)

/-- **C64, a thread that has found the table of a type never creates another one**, in no later call. -/
theorem C64_never_again {x x' : State cfg × Seen} (r : CReach x) {u : Tid} {t : cfg.Ty} {pos : Nat} (hu : Uses x.1 u t pos)
    (st : CSteps x x') (code : Code (cfg.C t) (cfg.R t)) : x'.1.threads[u]? ≠ some (.push t code) := by
  obtain ⟨P, I⟩ := (st.reach r).inv
  exact fun h => I.push u t code h (st.knows (r.uses hu))

/-- **C64, tables that lost the race stay as they were created**: empty, unlocked, not poisoned, in every reachable state (also without
coherent loads). -/
theorem C64_spare_tables_unused {s : State cfg} (r : Reach s) {t : cfg.Ty} {pos p : Nat} {c d : Lock (cfg.C t)}
    (ht : table s t = some (pos, c)) {v : List (Cell cfg)} (hv : s.vecs[cfg.shard t]? = some v) (hp : v[p]? = some ⟨t, d⟩)
    (hne : p ≠ pos) : d = { val := cfg.dflt t, owner := none, poisoned := false } := by
  obtain ⟨v', hv', ha, hm⟩ := table_iff.mp ht
  rw [hv] at hv'
  cases hv'
  have : pos < p := by
    rcases Nat.lt_trichotomy p pos with h | h | h
    · exact absurd rfl (hm p h _ hp)
    · exact absurd h hne
    · exact h
  exact r.spare hv this ha hp

/-- Coherent steps are all there is to exclude: every execution in which each load returns the current length is one. -/
theorem C64_current_loads_coherent {s : State cfg} {f : Seen} (r : CReach (s, f)) {a : Act cfg} {s' : State cfg}
    (h : step s a = .ok s')
    (hn : ∀ u n pc i m, a = .run u n → s.threads[u]? = some pc → reads s n pc = some (i, m) → (tys s i).length ≤ m) :
    ∃ f', CReach (s', f') := by
  obtain ⟨P, I⟩ := r.inv
  cases a with
  | run u n =>
    cases hp : s.threads[u]? with
    | none => simp only [step, hp] at h; cases h
    | some pc =>
      cases hr : reads s n pc with
      | none => exact ⟨f, r.step (a := .run u n) (by simp only [cstep, hp, hr, h])⟩
      | some im =>
        obtain ⟨i, m⟩ := im
        have h1 := hn u n pc i m rfl hp hr
        have h2 := I.bound u i
        simp only at h2
        exact ⟨f.put u i m, r.step (a := .run u n) (by
          simp only [cstep, hp, hr, h]
          rw [if_neg (by omega)])⟩
  | spawn => exact ⟨f, r.step (a := .spawn) (by simp only [cstep, h])⟩
  | call u t c => exact ⟨f, r.step (a := .call u t c) (by simp only [cstep, h])⟩
  | panic u => exact ⟨f, r.step (a := .panic u) (by simp only [cstep, h])⟩

namespace Demo

def cexec (x : State demo × Seen) : List (Act demo) → Option (State demo × Seen)
  | [] => some x
  | a :: l => match cstep x a with
    | .ok x' => cexec x' l
    | _ => none

theorem cexec_steps {x0 x x' : State demo × Seen} {l : List (Act demo)} (h : cexec x l = some x') (r : CSteps x0 x) : CSteps x0 x' := by
  induction l generalizing x with
  | nil => cases h; exact r
  | cons a l ih =>
    simp only [cexec] at h
    cases hs : cstep x a with
    | ok s1 => rw [hs] at h; exact ih h (r.step hs)
    | blocked => rw [hs] at h; cases h
    | bug => rw [hs] at h; cases h

/-- The bound is attained: two threads, two tables. Then both intern again, thread 1 reading an old length, and find the first table. -/
example : ∃ x x' : State demo × Seen, CReach x ∧ tables x.1 true = 2 ∧ x.1.threads.length = 2 ∧ Uses x.1 1 true 0 ∧ CSteps x x' ∧
    (x'.1.log true).length = 3 ∧ tables x'.1 true = 2 ∧ Uses x'.1 1 true 0 :=
  ⟨_, _, (cexec_steps (l := race) rfl .refl).reach .init, rfl, rfl, .inl ⟨push 6, rfl⟩,
    cexec_steps (l := [.run 0 0, .run 0 0, .run 0 0, .run 1 0, .run 1 0, .run 1 0, .call 0 true (push 7), .run 0 2, .run 0 0, .run 0 0,
      .run 0 0, .call 1 true (push 8), .run 1 1]) rfl .refl, rfl, rfl, .inl ⟨push 8, rfl⟩⟩

/-- Without coherence a thread may miss the table it used before and create another one. -/
example : ∃ s : State demo, Reach s ∧ tables s true = 2 ∧ s.threads.length = 1 :=
  ⟨_, (exec_steps (l := [.spawn, .call 0 true (push 5), .run 0 0, .run 0 0, .run 0 1, .run 0 0, .run 0 0, .run 0 0,
    .call 0 true (push 6), .run 0 0, .run 0 0]) rfl .refl).reach .init, rfl, rfl⟩

end Demo
end TypeArena
