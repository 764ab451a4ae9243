import Verif.Nested
import Verif.Props.InternReentrant
/-
Property C57: user code that uses the library, in all three interners.
-/
namespace Nested
open Reentrant (Call Instr State start Reach Solo step progs lockss Freshs Ordereds)

/-- The programs of threads, each making the given calls one after the other. -/
def threads (us : List (List Use)) : State := start (us.map calls)

theorem calls_append (a b : List Use) : calls (a ++ b) = calls a ++ calls b := by
  induction a with
  | nil => rfl
  | cons u a ih => simp only [List.cons_append, calls, ih, List.append_assoc]

theorem freshs_append (a b : List Call) : Freshs (a ++ b) ↔ Freshs a ∧ Freshs b := by
  induction a with
  | nil => simp [Freshs]
  | cons c a ih => simp [Freshs, ih, and_assoc]

/-- A call that takes one lock and nothing under it. -/
def Flat (l : List Call) : Prop := ∀ c ∈ l, ∃ i, c = .mk i []

theorem Flat.append {a b : List Call} (ha : Flat a) (hb : Flat b) : Flat (a ++ b) := by
  intro c hc
  rcases List.mem_append.mp hc with h | h
  · exact ha c h
  · exact hb c h

theorem Flat.freshs {l : List Call} (h : Flat l) : Freshs l := by
  induction l with
  | nil => trivial
  | cons c l ih =>
    obtain ⟨i, rfl⟩ := h c (by simp)
    exact ⟨⟨by simp [lockss], trivial⟩, ih fun c hc => h c (by simp [hc])⟩

theorem Flat.ordereds {l : List Call} (h : Flat l) (r : Nat → Nat) : Ordereds r l := by
  induction l with
  | nil => trivial
  | cons c l ih =>
    obtain ⟨i, rfl⟩ := h c (by simp)
    exact ⟨⟨by simp [lockss], trivial⟩, ih fun c hc => h c (by simp [hc])⟩

theorem lookups_flat (i n : Nat) : Flat (lookups i n [] []) := by
  intro c hc
  simp only [lookups, List.nil_append, List.mem_flatten, List.mem_replicate] at hc
  obtain ⟨l, ⟨_, rfl⟩, hc⟩ := hc
  exact ⟨i, by simpa using hc⟩

mutual
theorem Use.Tame.flat : ∀ {u : Use}, u.Tame → Flat u.calls
  | .intern i h c d, ⟨h1, h2, h3⟩ => by
    rw [Use.calls, h1, h2, h3]; intro x hx; exact ⟨i, by simpa using hx⟩
  | .arena i h c d, ⟨h1, h2, h3⟩ => by
    rw [Use.calls, h1, h2]
    exact Flat.append (a := [.mk i []]) (fun x hx => ⟨i, by simpa using hx⟩) (Tames.flat h3)
  | .arcNew i n c h e d, ⟨h1, h2, h3, h4⟩ => by
    rw [Use.calls, h2, h3]; exact (Tames.flat h1).append ((lookups_flat i n).append (Tames.flat h4))
  | .arcFree i h e d, ⟨h1, h2, h3⟩ => by
    rw [Use.calls, h1, h2]; exact (lookups_flat i 1).append (Tames.flat h3)
  | .light, _ => by rw [Use.calls]; intro c hc; cases hc
theorem Tames.flat : ∀ {l : List Use}, Tames l → Flat (calls l)
  | [], _ => by rw [calls]; intro c hc; cases hc
  | u :: l, ⟨h1, h2⟩ => by rw [calls]; exact h1.flat.append h2.flat
end

/-- **C57, destructors may intern.** If code that runs under a lock takes no lock of the library, then whatever the
destructors of values in `ArcIntern`s, of arguments of `ArcIntern::new` and `Arena::intern`, and the conversions of
`ArcIntern::from_ref` do with the library — including new, drop of the same type and shard, recursively —, any number of
threads never deadlock. -/
theorem C57_destructors_may_intern (us : List (List Use)) (ht : ∀ l ∈ us, Tames l) {s : State} (r : Reach (threads us) s)
    {t : Nat} {l : List Instr} (hl : s.todo[t]? = some l) (hne : l ≠ []) : ∃ u s', step s u = some s' := by
  refine Reentrant.C32_ordered_nesting_deadlock_free id (us.map calls) ?_ r hl hne
  intro c hc
  obtain ⟨l, hl, rfl⟩ := List.mem_map.mp hc
  exact (ht l hl).flat.ordereds id

theorem sum_set_lt {L : List (List Instr)} {t : Nat} {x : Instr} {l : List Instr} (h : L[t]? = some (x :: l)) :
    ((L.set t l).map List.length).sum < (L.map List.length).sum := by
  induction L generalizing t with
  | nil => cases h
  | cons a L ih =>
    cases t with
    | zero => cases h; simp
    | succ t => simp only [List.set_cons_succ, List.map_cons, List.sum_cons]; have := ih h; omega

/-- C57: moreover every execution, whatever the scheduler does, ends with all calls of all threads finished: a step is always
possible until then, and the number of steps is bounded. -/
theorem C57_bounded_steps (us : List (List Use)) (ht : ∀ l ∈ us, Tames l) {s : State} (r : Reach (threads us) s) :
    ((∀ u, step s u = none) → ∀ l ∈ s.todo, l = []) ∧
    ∀ u s', step s u = some s' → (s'.todo.map List.length).sum < (s.todo.map List.length).sum := by
  constructor
  · intro hstuck l hl
    obtain ⟨t, h⟩ := List.getElem?_of_mem hl
    cases l with
    | nil => rfl
    | cons x l =>
      obtain ⟨u, s', hu⟩ := C57_destructors_may_intern us ht r h (by simp)
      rw [hstuck u] at hu; cases hu
  · intro u s' hs
    rcases Reentrant.step_cases hs with ⟨i, l, hu, _, rfl⟩ | ⟨i, l, hu, rfl⟩ <;> exact sum_set_lt hu

/-- C57: and each thread, left alone, finishes. -/
theorem C57_tame_completes (us : List (List Use)) {t : Nat} {l : List Use} (hl : us[t]? = some l) (ht : Tames l) :
    ∃ s, Solo t (threads us) s ∧ s.todo[t]? = some [] ∧ ∀ i, s.lock i = none :=
  Reentrant.C32_other_shards_complete (us.map calls) t (calls l) (by rw [List.getElem?_map, hl]; rfl) ht.flat.freshs

/-- The destructor of an interned value interns and drops values of the same type and shard, to depth two, and drops an
argument of an arena whose own destructor uses that arena: all of this follows the discipline. -/
example : Tames [.arcFree 3 [] [] [.arcNew 3 2 [.arcFree 3 [] [] []] [] [.light] [.arcFree 3 [] [.light] [.arcNew 3 1 [] [] [] []]],
    .arena 40 [] [] [.arena 40 [] [] []]], .intern 7 [.light] [] []] := by
  simp [Tames, Use.Tame, calls, Use.calls]

/-- A piece of user code run under lock `i` that takes lock `i` again. -/
theorem not_freshs_of_mem {c : Call} {l : List Call} (hm : c ∈ l) (hc : ¬ c.Fresh) : ¬ Freshs l := by
  induction l with
  | nil => cases hm
  | cons d l ih =>
    intro h
    rcases List.mem_cons.mp hm with rfl | hm
    · exact hc h.1
    · exact ih hm h.2

theorem mem_calls {u : Use} {c : Call} {l : List Use} (hu : u ∈ l) (hc : c ∈ u.calls) : c ∈ calls l := by
  induction l with
  | nil => cases hu
  | cons v l ih =>
    rw [calls]
    rcases List.mem_cons.mp hu with rfl | h
    · exact List.mem_append_left _ hc
    · exact List.mem_append_right _ (ih h)

theorem blocks {us : List (List Use)} {t : Nat} {l : List Use} (hl : us[t]? = some l) {u : Use} (hu : u ∈ l) {i : Nat}
    {cs : List Call} (hc : Call.mk i cs ∈ u.calls) (hi : i ∈ lockss cs) {s : State} (r : Reach (threads us) s) :
    s.todo[t]? ≠ some [] :=
  Reentrant.C32_same_shard_blocks_forever (us.map calls) t (calls l) (by rw [List.getElem?_map, hl]; rfl)
    (not_freshs_of_mem (mem_calls hu hc) fun h => h.1 hi) r

/-- **C57, Hash and Eq may not (negative).** A thread that calls `ArcIntern::new` (with at least one lookup) while `Hash` or
`Eq` of the type takes the same shard lock never finishes, whatever the other threads do. -/
theorem C57_arc_eq_blocks (us : List (List Use)) {t : Nat} {l : List Use} (hl : us[t]? = some l) {i n : Nat}
    {c h e d : List Use} (hu : .arcNew i (n + 1) c h e d ∈ l) (hi : i ∈ lockss (calls h ++ calls e)) {s : State}
    (r : Reach (threads us) s) : s.todo[t]? ≠ some [] := by
  refine blocks hl hu (i := i) (cs := calls h ++ calls e) ?_ hi r
  rw [Use.calls, lookups, List.replicate_succ, List.flatten_cons]
  simp

/-- The same for the drop of the last handle. -/
theorem C57_arc_drop_eq_blocks (us : List (List Use)) {t : Nat} {l : List Use} (hl : us[t]? = some l) {i : Nat}
    {h e d : List Use} (hu : .arcFree i h e d ∈ l) (hi : i ∈ lockss (calls h ++ calls e)) {s : State}
    (r : Reach (threads us) s) : s.todo[t]? ≠ some [] := by
  refine blocks hl hu (i := i) (cs := calls h ++ calls e) ?_ hi r
  rw [Use.calls, lookups, List.replicate_succ, List.flatten_cons]
  simp

/-- **C57, destructors in `Intern` (negative).** Unlike in `ArcIntern` and `Arena`, a destructor of the argument of a
successful lookup of `Intern::new` that interns into the same shard blocks the thread for ever. -/
theorem C57_intern_destructor_blocks (us : List (List Use)) {t : Nat} {l : List Use} (hl : us[t]? = some l) {i : Nat}
    {h c d : List Use} (hu : .intern i h c d ∈ l) (hi : i ∈ lockss (calls d)) {s : State}
    (r : Reach (threads us) s) : s.todo[t]? ≠ some [] := by
  refine blocks hl hu (i := i) (cs := calls h ++ calls c ++ calls d) (by simp [Use.calls]) ?_ r
  have : ∀ a b : List Call, i ∈ lockss b → i ∈ lockss (a ++ b) := by
    intro a b hb
    induction a with
    | nil => exact hb
    | cons x a ih => rw [List.cons_append, lockss]; exact List.mem_append_right _ ih
  exact this _ _ hi

/-- The same user code, in the three interners: the destructor of an unused argument interns again. -/
example : Tames [.arcNew 3 1 [] [] [] [.arcNew 3 1 [] [] [] []]] ∧ Tames [.arena 3 [] [] [.arena 3 [] [] []]] ∧
    3 ∈ lockss (calls [.intern 3 [] [] []]) := by
  simp [Tames, Use.Tame, calls, Use.calls, lockss, Call.locks]
/-- `Eq` of an interned type interns a value of the same type: same shard. -/
example : 3 ∈ lockss (calls [] ++ calls [.arcNew 3 1 [] [] [] []]) := by
  simp [calls, Use.calls, lockss, lookups, Call.locks]

end Nested
