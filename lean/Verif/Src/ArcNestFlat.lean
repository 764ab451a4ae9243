import Verif.Src.ArcNestSpec
import Verif.Src.ArcMain
/-
A state with calls inside calls (`Verif/Src/ArcNest.lean`) as a state without (`Verif/Src/ArcCode.lean`): each call becomes a thread of its
own, whose index is the number of the call.
-/
namespace Src.ArcNest
open Arc (Addr Tid Cell Cfg Res)
open Src.ArcCode (Var Val Op Glue Mem Stack frameMentions lang)

variable {V : Type}

/-- The numbers of the running calls. -/
def ids (N : State V) : List Nat := N.threads.flatMap fun cs => cs.map (·.id)

structure Flat (N : State V) (S : ArcCode.State V) : Prop where
  mem : S.mem = N.mem
  handles : S.handles = N.handles
  len : S.threads.length = N.next
  run : ∀ cs ∈ N.threads, ∀ c ∈ cs, S.threads[c.id]? = some c.stack ∧ c.stack ≠ []
  idle : ∀ j, j < N.next → j ∉ ids N → S.threads[j]? = some []
  nodup : ∀ j, (ids N).count j ≤ 1
  sum : ∀ (g : Stack V → List Addr) (p : Addr), g [] = [] →
    (S.threads.flatMap g).count p = (N.threads.flatMap fun cs => cs.flatMap fun c => g c.stack).count p

theorem flat_init : Flat (init : State V) ArcCode.init :=
  ⟨rfl, rfl, rfl, by simp [init], by simp [init], by simp [init, ids], by simp [init, ArcCode.init]⟩

theorem Flat.lt {N : State V} {S : ArcCode.State V} (h : Flat N S) {cs : List (Running V)} (hcs : cs ∈ N.threads) {c : Running V} (hc : c ∈ cs) :
    c.id < N.next := by
  rw [← h.len]
  exact (List.getElem?_eq_some_iff.mp (h.run cs hcs c hc).1).1

theorem mem_ids {N : State V} {j : Nat} : j ∈ ids N ↔ ∃ cs ∈ N.threads, ∃ c ∈ cs, c.id = j := by
  simp [ids, List.mem_flatMap]

theorem Flat.ids_lt {N : State V} {S : ArcCode.State V} (h : Flat N S) {j : Nat} (hj : j ∈ ids N) : j < N.next := by
  obtain ⟨cs, hcs, c, hc, rfl⟩ := mem_ids.mp hj
  exact h.lt hcs hc

/-- The others, when the innermost call of a thread is left out. -/
theorem mem_set_cons {α : Type} {l : List (List α)} {t : Nat} {x : α} {cs cs' : List α} {c : α} (h : cs' ∈ l.set t (x :: cs)) (hc : c ∈ cs') :
    c = x ∨ ∃ cs'' ∈ l.set t cs, c ∈ cs'' := by
  obtain ⟨u, hu⟩ := List.getElem?_of_mem h
  by_cases e : t = u
  · subst e
    have htl : t < l.length := by
      have := (List.getElem?_eq_some_iff.mp hu).1; simpa using this
    simp only [List.getElem?_set, htl, if_true, Option.some.injEq] at hu
    subst hu
    rcases List.mem_cons.mp hc with rfl | hc
    · exact .inl rfl
    · exact .inr ⟨cs, List.mem_iff_getElem?.mpr ⟨t, by simp [List.getElem?_set, htl]⟩, hc⟩
  · rw [List.getElem?_set_ne e] at hu
    exact .inr ⟨cs', List.mem_iff_getElem?.mpr ⟨u, by rw [List.getElem?_set_ne e]; exact hu⟩, hc⟩

theorem mem_set_tail {α : Type} {l : List (List α)} {t : Nat} {cs cs0 cs' : List α} {c : α} (ht : l[t]? = some cs0)
    (hsub : ∀ x ∈ cs, x ∈ cs0) (h : cs' ∈ l.set t cs) (hc : c ∈ cs') : ∃ cs'' ∈ l, c ∈ cs'' := by
  rcases List.mem_or_eq_of_mem_set h with h | rfl
  · exact ⟨cs', h, hc⟩
  · exact ⟨cs0, List.mem_of_getElem? ht, hsub c hc⟩

/-- No other call has the number of the innermost call of a thread. -/
theorem Flat.others {N : State V} {S : ArcCode.State V} (h : Flat N S) {t : Tid} {c : Running V} {cs : List (Running V)}
    (ht : N.threads[t]? = some (c :: cs)) {cs' : List (Running V)} (h' : cs' ∈ N.threads.set t cs) {c' : Running V} (hc' : c' ∈ cs') :
    c'.id ≠ c.id := by
  intro e
  have h1 := Arc.count_flatMap_set (fun cs : List (Running V) => cs.map (·.id)) c.id N.threads t _ cs ht
  have h2 := h.nodup c.id
  have h3 : 0 < ((N.threads.set t cs).flatMap fun cs => cs.map (·.id)).count c.id := by
    rw [List.count_pos_iff, List.mem_flatMap]
    exact ⟨cs', h', List.mem_map.mpr ⟨c', hc', e⟩⟩
  simp only [ids, List.map_cons, List.count_cons, beq_self_eq_true, if_true] at h1 h2
  omega

theorem Flat.head {N : State V} {S : ArcCode.State V} (h : Flat N S) {t : Tid} {c : Running V} {cs : List (Running V)}
    (ht : N.threads[t]? = some (c :: cs)) : S.threads[c.id]? = some c.stack ∧ c.stack ≠ [] :=
  h.run _ (List.mem_of_getElem? ht) c (by simp)

/-- The innermost call of a thread goes on. -/
theorem Flat.replace {N : State V} {S : ArcCode.State V} (h : Flat N S) {t : Tid} {c : Running V} {cs : List (Running V)}
    (ht : N.threads[t]? = some (c :: cs)) {fs : Stack V} (hfs : fs ≠ []) {N' : State V} {S' : ArcCode.State V}
    (e1 : N'.threads = N.threads.set t ({ c with stack := fs } :: cs)) (e2 : S'.threads = S.threads.set c.id fs)
    (e3 : N'.next = N.next) (e4 : S'.mem = N'.mem) (e5 : S'.handles = N'.handles) : Flat N' S' := by
  obtain ⟨g1, _⟩ := h.head ht
  have hid : ∀ j, (ids N').count j = (ids N).count j := by
    intro j
    have := Arc.count_flatMap_set (fun cs : List (Running V) => cs.map (·.id)) j N.threads t _ ({ c with stack := fs } :: cs) ht
    simp only [ids, e1]
    simp only [List.map_cons] at this
    omega
  refine ⟨e4, e5, by rw [e2, e3]; simpa using h.len, ?_, ?_, fun j => by rw [hid]; exact h.nodup j, ?_⟩
  · intro cs' hcs' c' hc'
    rw [e1] at hcs'
    rw [e2]
    rcases mem_set_cons hcs' hc' with rfl | ⟨cs'', h1, h2⟩
    · exact ⟨by simp only; rw [Arc.set_getElem? _ _ _ _ _ g1, if_pos rfl], hfs⟩
    · rw [Arc.set_getElem? _ _ _ _ _ g1, if_neg (h.others ht h1 h2)]
      obtain ⟨cs3, h3, h4⟩ := mem_set_tail ht (fun x hx => List.mem_cons_of_mem _ hx) h1 h2
      exact h.run cs3 h3 c' h4
  · intro j hj hj'
    rw [← List.count_pos_iff, hid, List.count_pos_iff] at hj'
    rw [e2, Arc.set_getElem? _ _ _ _ _ g1, if_neg ?_]
    · exact h.idle j (by rw [← e3]; exact hj) hj'
    · rintro rfl
      exact hj' (mem_ids.mpr ⟨_, List.mem_of_getElem? ht, c, by simp, rfl⟩)
  · intro g p hg
    have a1 := h.sum g p hg
    have a2 := Arc.count_flatMap_set g p S.threads c.id _ fs g1
    have a3 := Arc.count_flatMap_set (fun cs : List (Running V) => cs.flatMap fun c => g c.stack) p N.threads t _ ({ c with stack := fs } :: cs) ht
    rw [e1, e2]
    simp only [List.flatMap_cons, List.count_append] at a3
    omega

/-- It ends. -/
theorem Flat.pop {N : State V} {S : ArcCode.State V} (h : Flat N S) {t : Tid} {c : Running V} {cs : List (Running V)}
    (ht : N.threads[t]? = some (c :: cs)) {N' : State V} {S' : ArcCode.State V}
    (e1 : N'.threads = N.threads.set t cs) (e2 : S'.threads = S.threads.set c.id [])
    (e3 : N'.next = N.next) (e4 : S'.mem = N'.mem) (e5 : S'.handles = N'.handles) :
    Flat N' S' ∧ ∀ j, j ∈ ids N' ↔ j ∈ ids N ∧ j ≠ c.id := by
  obtain ⟨g1, _⟩ := h.head ht
  have hid : ∀ j, (ids N').count j + (if j = c.id then 1 else 0) = (ids N).count j := by
    intro j
    have := Arc.count_flatMap_set (fun cs : List (Running V) => cs.map (·.id)) j N.threads t _ cs ht
    simp only [ids, e1]
    simp only [List.map_cons, List.count_cons, beq_iff_eq] at this
    by_cases e : j = c.id
    · subst e; simp at this ⊢; omega
    · have e' : ¬ c.id = j := fun h => e h.symm
      simp [e, e'] at this ⊢; omega
  have hmem : ∀ j, j ∈ ids N' ↔ j ∈ ids N ∧ j ≠ c.id := by
    intro j
    have h1 := hid j
    have h2 := h.nodup j
    rw [← List.count_pos_iff, ← List.count_pos_iff]
    by_cases e : j = c.id
    · rw [if_pos e] at h1
      exact ⟨fun h => by omega, fun h => absurd e h.2⟩
    · rw [if_neg e] at h1
      exact ⟨fun h => ⟨by omega, e⟩, fun h => by have := h.1; omega⟩
  refine ⟨⟨e4, e5, by rw [e2, e3]; simpa using h.len, ?_, ?_, fun j => by have := hid j; have := h.nodup j; omega, ?_⟩, hmem⟩
  · intro cs' hcs' c' hc'
    rw [e1] at hcs'
    rw [e2, Arc.set_getElem? _ _ _ _ _ g1, if_neg (h.others ht hcs' hc')]
    obtain ⟨cs3, h3, h4⟩ := mem_set_tail ht (fun x hx => List.mem_cons_of_mem _ hx) hcs' hc'
    exact h.run cs3 h3 c' h4
  · intro j hj hj'
    rw [hmem] at hj'
    rw [e2, Arc.set_getElem? _ _ _ _ _ g1]
    by_cases e : j = c.id
    · rw [if_pos e]
    · rw [if_neg e]; exact h.idle j (by rw [← e3]; exact hj) (fun h => hj' ⟨h, e⟩)
  · intro g p hg
    have a1 := h.sum g p hg
    have a2 := Arc.count_flatMap_set g p S.threads c.id _ [] g1
    have a3 := Arc.count_flatMap_set (fun cs : List (Running V) => cs.flatMap fun c => g c.stack) p N.threads t _ cs ht
    rw [e1, e2]
    rw [hg] at a2
    simp only [List.flatMap_cons, List.count_append] at a3
    simp only [List.count_nil] at a2
    omega

/-- A call starts. -/
theorem Flat.push {N : State V} {S : ArcCode.State V} (h : Flat N S) {t : Tid} {cs : List (Running V)}
    (ht : N.threads[t]? = some cs) {c : Call V} {fs : Stack V} (hfs : fs ≠ []) {N' : State V} {S' : ArcCode.State V}
    (e1 : N'.threads = N.threads.set t (⟨N.next, c, fs⟩ :: cs)) (e2 : S'.threads = S.threads ++ [fs])
    (e3 : N'.next = N.next + 1) (e4 : S'.mem = N'.mem) (e5 : S'.handles = N'.handles) :
    Flat N' S' ∧ ∀ j, j ∈ ids N' ↔ j ∈ ids N ∨ j = N.next := by
  have hid : ∀ j, (ids N').count j = (ids N).count j + (if j = N.next then 1 else 0) := by
    intro j
    have := Arc.count_flatMap_set (fun cs : List (Running V) => cs.map (·.id)) j N.threads t _ (⟨N.next, c, fs⟩ :: cs) ht
    simp only [ids, e1]
    simp only [List.map_cons, List.count_cons, beq_iff_eq] at this
    by_cases e : j = N.next
    · subst e; simp at this ⊢; omega
    · have e' : ¬ N.next = j := fun h => e h.symm
      simp [e, e'] at this ⊢; omega
  have hnew : (ids N).count N.next = 0 := by
    rw [List.count_eq_zero]
    intro hm; have := h.ids_lt hm; omega
  have hmem : ∀ j, j ∈ ids N' ↔ j ∈ ids N ∨ j = N.next := by
    intro j
    rw [← List.count_pos_iff, hid, ← List.count_pos_iff]
    by_cases e : j = N.next <;> simp [e]
  have hold : ∀ {j : Nat} {gs : Stack V}, S.threads[j]? = some gs → (S.threads ++ [fs])[j]? = some gs := by
    intro j gs hj
    rw [List.getElem?_append_left (List.getElem?_eq_some_iff.mp hj).1]; exact hj
  refine ⟨⟨e4, e5, by rw [e2, e3]; simp [h.len], ?_, ?_, ?_, ?_⟩, hmem⟩
  · intro cs' hcs' c' hc'
    rw [e1] at hcs'
    rw [e2]
    rcases mem_set_cons hcs' hc' with rfl | ⟨cs'', h1, h2⟩
    · refine ⟨?_, hfs⟩
      simp only
      rw [List.getElem?_append_right (by rw [h.len]; exact Nat.le_refl _), h.len]
      simp
    · obtain ⟨cs3, h3, h4⟩ := mem_set_tail ht (fun x hx => hx) h1 h2
      exact ⟨hold (h.run cs3 h3 c' h4).1, (h.run cs3 h3 c' h4).2⟩
  · intro j hj hj'
    rw [hmem] at hj'
    rw [e2]
    refine hold (h.idle j ?_ (fun h => hj' (.inl h)))
    rw [e3] at hj
    rcases Nat.lt_or_ge j N.next with h | h
    · exact h
    · exact absurd (.inr (Nat.le_antisymm (Nat.le_of_lt_succ hj) h)) hj'
  · intro j
    rw [hid]
    by_cases e : j = N.next
    · subst e; simp [hnew]
    · simpa [e] using h.nodup j
  · intro g p hg
    have a1 := h.sum g p hg
    have a3 := Arc.count_flatMap_set (fun cs : List (Running V) => cs.flatMap fun c => g c.stack) p N.threads t _ (⟨N.next, c, fs⟩ :: cs) ht
    rw [e1, e2]
    simp only [List.flatMap_cons, List.flatMap_append, List.count_append, List.flatMap_nil, List.count_nil] at a3 ⊢
    omega

/-- A call starts and ends at once. -/
theorem Flat.skip {N : State V} {S : ArcCode.State V} (h : Flat N S) {N' : State V} {S' : ArcCode.State V}
    (e1 : N'.threads = N.threads) (e2 : S'.threads = S.threads ++ [[]])
    (e3 : N'.next = N.next + 1) (e4 : S'.mem = N'.mem) (e5 : S'.handles = N'.handles) : Flat N' S' := by
  have hold : ∀ {j : Nat} {gs : Stack V}, S.threads[j]? = some gs → (S.threads ++ [[]])[j]? = some gs := by
    intro j gs hj
    rw [List.getElem?_append_left (List.getElem?_eq_some_iff.mp hj).1]; exact hj
  have hids : ids N' = ids N := by simp only [ids, e1]
  refine ⟨e4, e5, by rw [e2, e3]; simp [h.len], ?_, ?_, by rw [hids]; exact h.nodup, ?_⟩
  · intro cs hcs c hc
    rw [e1] at hcs; rw [e2]
    exact ⟨hold (h.run cs hcs c hc).1, (h.run cs hcs c hc).2⟩
  · intro j hj hj'
    rw [hids] at hj'
    rw [e2]
    rw [e3] at hj
    rcases Nat.lt_or_ge j N.next with h1 | h1
    · exact hold (h.idle j h1 hj')
    · have : j = N.next := Nat.le_antisymm (Nat.le_of_lt_succ hj) h1
      subst this
      rw [List.getElem?_append_right (by rw [h.len]; exact Nat.le_refl _), h.len]
      simp
  · intro g p hg
    rw [e1, e2]
    simp [List.flatMap_append, hg, h.sum g p hg]

/-- A new thread. -/
theorem Flat.spawn {N : State V} {S : ArcCode.State V} (h : Flat N S) : Flat { N with threads := N.threads ++ [[]] } S := by
  have hids : ids { N with threads := N.threads ++ [[]] } = ids N := by simp [ids]
  refine ⟨h.mem, h.handles, h.len, ?_, by rw [hids]; exact h.idle, by rw [hids]; exact h.nodup, ?_⟩
  · intro cs hcs c hc
    rcases List.mem_append.mp hcs with hcs | hcs
    · exact h.run cs hcs c hc
    · simp at hcs; subst hcs; cases hc
  · intro g p hg
    simp [List.flatMap_append, h.sum g p hg]

theorem Flat.mentions {N : State V} {S : ArcCode.State V} (h : Flat N S) (cfg : Cfg V) (p : Addr) :
    (ArcCode.mentions cfg S).count p = (mentions cfg N).count p := by
  simp only [ArcCode.mentions, ArcNest.mentions, List.count_append, h.handles, h.mem]
  rw [h.sum (fun fs => fs.flatMap (frameMentions cfg)) p rfl]

theorem Flat.few {N : State V} {S : ArcCode.State V} (h : Flat N S) {cfg : Cfg V} (hf : Few cfg N) : ArcCode.Few cfg S :=
  fun p => by rw [h.mentions]; exact hf p

theorem Flat.quiet {N : State V} {S : ArcCode.State V} (h : Flat N S) (hq : Quiet N) : ArcCode.Quiet S := by
  intro fs hfs
  obtain ⟨j, hj⟩ := List.getElem?_of_mem hfs
  have hlt : j < N.next := by rw [← h.len]; exact (List.getElem?_eq_some_iff.mp hj).1
  have := h.idle j hlt (by
    intro hm
    obtain ⟨cs, hcs, c, hc, _⟩ := mem_ids.mp hm
    rw [hq cs hcs] at hc; cases hc)
  rw [hj] at this; exact Option.some.inj this

end Src.ArcNest
