import Verif.Src.NewCells
/-
Tables that are not in use, and poisoned ones.
-/
namespace Src.NewCode
open Arc (Res)
open Pool (Tid Ptr Query Ret Obj Entry)

variable {K V : Type} {cfg : Cfg K V} {N N' : State K V} {m m' : Mem K V}

theorem setCell_get (m : Mem K V) {s pos : Nat} {c0 : Cell} (hc : m.cell s pos = some c0) (c : Cell) (j i : Nat) :
    (m.setCell s pos c).cell j i = if j = s ∧ i = pos then some c else m.cell j i := by
  simp only [Mem.setCell, Mem.cell] at hc ⊢
  by_cases hj : j = s
  · subst hj
    simp only [if_true, true_and]
    by_cases hi : i = pos
    · subst hi
      rw [if_pos rfl, List.getElem?_set_self (List.getElem?_eq_some_iff.mp hc).1]
    · rw [if_neg hi, List.getElem?_set_ne (Ne.symm hi)]
  · simp only [hj, if_false, false_and]

theorem push_get (m : Mem K V) (s : Nat) (c : Cell) (j i : Nat) :
    (m.push s c).cell j i = if j = s ∧ i = (m.cells s).length then some c else m.cell j i := by
  simp only [Mem.push, Mem.cell]
  by_cases hj : j = s
  · subst hj
    simp only [if_true, true_and]
    by_cases hi : i = (m.cells j).length
    · subst hi
      rw [if_pos rfl, List.getElem?_append_right (Nat.le_refl _), Nat.sub_self]; rfl
    · rw [if_neg hi]
      rcases Nat.lt_or_ge i (m.cells j).length with h | h
      · exact List.getElem?_append_left h
      · rw [List.getElem?_append_right h, List.getElem?_eq_none h, List.getElem?_eq_none]
        simp only [List.length_singleton]; omega
  · simp only [hj, if_false, false_and]

theorem firstCell_of {k : K} (h : m'.cells = m.cells) : firstCell cfg m' k = firstCell cfg m k := by simp only [firstCell, h]

theorem cell_of (h : m'.cells = m.cells) (s i : Nat) : m'.cell s i = m.cell s i := by simp only [Mem.cell, h]

theorem firstCell_first {k : K} {d : Cell} (h : firstCell cfg m k = some d) : ∃ pos, First cfg m k pos ∧ m.cell (cfg.shard k) pos = some d := by
  have hs : ((m.cells (cfg.shard k)).findIdx? fun c => decide (c.tid = cfg.typeId k)).isSome = true := by
    rw [List.findIdx?_isSome, List.any_eq_true]
    exact ⟨d, List.mem_of_find?_eq_some h, of_eq_true (by have := List.find?_some (p := fun c : Cell => decide (c.tid = cfg.typeId k)) h; simpa using this)⟩
  obtain ⟨pos, hpos⟩ := Option.isSome_iff_exists.mp hs
  have hf : First cfg m k pos := first_cells.mpr hpos
  obtain ⟨c, k1, k2, k3⟩ := hf.cell
  rw [h] at k3; cases k3
  exact ⟨pos, hf, k1⟩

/-- What a step can do to a mutex that stays in its place. -/
inductive Became (t : Tid) (c : Running K V) (cs : List (Running K V)) (d : Cell) : Cell → Prop
  | lock : d.owner = none → d.poisoned = false → Became t c cs d { d with owner := some t }
  | insert {p : Ptr} : d.owner = some t → Became t c cs d { d with set := p :: d.set }
  | unlock : d.owner = some t → Became t c cs d { d with owner := none, poisoned := d.poisoned || (c.frame.panicking && !(c.unw || unwinding cs)) }

variable {t : Tid} {c : Running K V} {cs : List (Running K V)}

theorem CM.get (h : CM cfg t c cs m m') {s i : Nat} {d' : Cell} (hd : m'.cell s i = some d') : m.cell s i = some d' ∨
    (s = cfg.shard c.op.pool ∧ d' = { tid := cfg.typeId c.op.pool, set := [], owner := none, poisoned := false }) ∨
    (s = cfg.shard c.op.pool ∧ First cfg m c.op.pool i ∧ ∃ d, m.cell s i = some d ∧ Became t c cs d d') := by
  cases h with
  | same e => rw [cell_of e] at hd; exact .inl hd
  | push e =>
    rw [cell_of e, push_get] at hd
    split at hd
    · cases hd; exact .inr (.inl ⟨by rename_i h; exact h.1, rfl⟩)
    · exact .inl hd
  | lock hf hc h1 h2 e =>
    rw [cell_of e, setCell_get m hc] at hd
    split at hd
    · rename_i h; obtain ⟨rfl, rfl⟩ := h
      cases hd; exact .inr (.inr ⟨rfl, hf, _, hc, .lock h1 h2⟩)
    · exact .inl hd
  | insert hf hc h1 e =>
    rw [cell_of e, setCell_get m hc] at hd
    split at hd
    · rename_i h; obtain ⟨rfl, rfl⟩ := h
      cases hd; exact .inr (.inr ⟨rfl, hf, _, hc, .insert h1⟩)
    · exact .inl hd
  | unlock hf hc h1 e =>
    rw [cell_of e, setCell_get m hc] at hd
    split at hd
    · rename_i h; obtain ⟨rfl, rfl⟩ := h
      cases hd; exact .inr (.inr ⟨rfl, hf, _, hc, .unlock h1⟩)
    · exact .inl hd

theorem grows_set {s pos : Nat} {d d' : Cell} (hc : m.cell s pos = some d) (ht : d'.tid = d.tid) (e : m'.cells = (m.setCell s pos d').cells) : Grows m m' :=
  .of_eq fun j => by rw [tids, e]; exact tids_setCell hc ht j

theorem CM.grows (h : CM cfg t c cs m m') : Grows m m' := by
  cases h with
  | same e => exact .of_eq fun s => by simp only [tids, e]
  | push e => intro s; rw [show tids m' s = tids (m.push _ _) s from by rw [tids, e]; rfl]; exact tids_push _ _ _ s
  | lock hf hc h1 h2 e => exact grows_set hc (by rfl) e
  | insert hf hc h1 e => exact grows_set hc (by rfl) e
  | unlock hf hc h1 e => exact grows_set hc (by rfl) e

/-- What a step does to the table in use for a type. -/
theorem CM.first (lay : cfg.Layout) (h : CM cfg t c cs m m') {k : K} {d : Cell} (hd : firstCell cfg m k = some d) :
    firstCell cfg m' k = some d ∨ (k = c.op.pool ∧ ∃ d', firstCell cfg m' k = some d' ∧ Became t c cs d d') := by
  have set : ∀ {pos : Nat} {d0 d' : Cell}, First cfg m c.op.pool pos → m.cell (cfg.shard c.op.pool) pos = some d0 → d'.tid = d0.tid →
      m'.cells = (m.setCell (cfg.shard c.op.pool) pos d').cells → Became t c cs d0 d' →
      firstCell cfg m' k = some d ∨ (k = c.op.pool ∧ ∃ d', firstCell cfg m' k = some d' ∧ Became t c cs d d') := by
    intro pos d0 d' hf hc ht e hb
    obtain ⟨c1, k1, k2, k3⟩ := hf.cell
    rw [hc] at k1; cases k1
    have := firstCell_set lay hf (c := d') (by rw [ht]; exact k2) k
    rw [← firstCell_of e] at this
    by_cases hk : k = c.op.pool
    · subst hk
      rw [hd] at k3; cases k3
      rw [if_pos rfl] at this
      exact .inr ⟨rfl, d', this, hb⟩
    · rw [if_neg fun e => hk (lay.types _ _ e), hd] at this
      exact .inl this
  cases h with
  | same e => rw [firstCell_of e]; exact .inl hd
  | push e =>
    left
    rw [firstCell_of e]
    simp only [firstCell, Mem.push] at hd ⊢
    split
    · rename_i hs; rw [List.find?_append, ← hs, hd]; rfl
    · exact hd
  | lock hf hc h1 h2 e => exact set hf hc (by rfl) e (.lock h1 h2)
  | insert hf hc h1 e => exact set hf hc (by rfl) e (.insert h1)
  | unlock hf hc h1 e => exact set hf hc (by rfl) e (.unlock h1)

/-- A table that comes into use is empty. -/
theorem CM.new (h : CM cfg t c cs m m') {k : K} {d : Cell} (hn : firstCell cfg m k = none) (hd : firstCell cfg m' k = some d) :
    d = { tid := cfg.typeId k, set := [], owner := none, poisoned := false } := by
  have none_of : ∀ {pos : Nat} {d0 d' : Cell}, m.cell (cfg.shard c.op.pool) pos = some d0 → d'.tid = d0.tid →
      m'.cells = (m.setCell (cfg.shard c.op.pool) pos d').cells → firstCell cfg m' k = none := by
    intro pos d0 d' hc ht e
    have h1 : tids m' (cfg.shard k) = tids m (cfg.shard k) := by rw [tids, e]; exact tids_setCell hc ht _
    simp only [firstCell, List.find?_eq_none, decide_eq_true_eq] at hn ⊢
    intro x hx hxt
    have : x.tid ∈ tids m' (cfg.shard k) := List.mem_map_of_mem hx
    rw [h1] at this
    obtain ⟨y, hy, e2⟩ := List.mem_map.mp this
    exact hn y hy (by rw [e2]; exact hxt)
  cases h with
  | same e => rw [firstCell_of e, hn] at hd; cases hd
  | push e =>
    rw [firstCell_of e] at hd
    simp only [firstCell, Mem.push] at hd hn
    split at hd
    · rename_i hs
      rw [List.find?_append, ← hs, hn] at hd
      simp only [Option.none_or, List.find?_cons, List.find?_nil] at hd
      split at hd
      · rename_i ht
        cases hd
        simp only [decide_eq_true_eq] at ht
        rw [ht]
      · cases hd
    · rw [hn] at hd; cases hd
  | lock hf hc h1 h2 e => rw [none_of hc (by rfl) e] at hd; cases hd
  | insert hf hc h1 e => rw [none_of hc (by rfl) e] at hd; cases hd
  | unlock hf hc h1 e => rw [none_of hc (by rfl) e] at hd; cases hd

/-- Facts about the mutexes. -/
structure Cells (cfg : Cfg K V) (N : State K V) : Prop where
  typed : ∀ s i d, N.mem.cell s i = some d → ∃ k, cfg.shard k = s ∧ d.tid = cfg.typeId k
  spare : ∀ k i d, N.mem.cell (cfg.shard k) i = some d → d.tid = cfg.typeId k → First cfg N.mem k i ∨ (d.set = [] ∧ d.owner = none ∧ d.poisoned = false)
  free : ∀ s i d, N.mem.cell s i = some d → d.poisoned = true → d.owner = none
  blame : ∀ k, Poisoned cfg N k → ∃ j o, o.pool = k ∧ Called N j o ∧ (Panicked N j o ∨ ∃ c ∈ N.calls, c.id = j ∧ c.op = o ∧ c.frame.panicking = true)

theorem cells_init : Cells cfg (init : State K V) where
  typed := by intro s i d h; simp [init, Mem.cell] at h
  spare := by intro s i d h; simp [init, Mem.cell] at h
  free := by intro s i d h; simp [init, Mem.cell] at h
  blame := by rintro k ⟨c, h, _⟩; simp [init, tableOf] at h

theorem Became.tid {d d' : Cell} (h : Became t c cs d d') : d'.tid = d.tid := by cases h <;> rfl

variable [DecidableEq K] [BEq V] [Hashable V]

/-- The vectors, in a step. -/
theorem Kind.cm (h : Kind cfg N N') : N'.mem.cells = N.mem.cells ∨ ∃ t c cs f, N.threads[t]? = some (c :: cs) ∧ f.panicking = c.frame.panicking ∧
    N'.threads = N.threads.set t ({ c with frame := f } :: cs) ∧ N'.hist = N.hist ∧ CM cfg t c cs N.mem N'.mem := by
  cases h with
  | run h1 h2 h3 h4 h5 => exact .inr ⟨_, _, _, _, h1, h2, h3, h5, h4⟩
  | spawn _ h _ => exact .inl h
  | call _ _ _ _ h _ => exact .inl h
  | panic _ _ _ h _ => exact .inl h
  | pop _ _ h _ => exact .inl h

theorem Kind.grows (h : Kind cfg N N') : Grows N.mem N'.mem := by
  rcases h.cm with h | ⟨_, _, _, _, _, _, _, _, h⟩
  · exact grows_of h
  · exact h.grows

/-- Calls that are unwinding or have done so. -/
theorem Kind.bad (h : Kind cfg N N') {j : Nat} {o : Pool.Op K V} (hb : Called N j o ∧ (Panicked N j o ∨ ∃ c ∈ N.calls, c.id = j ∧ c.op = o ∧ c.frame.panicking = true)) :
    Called N' j o ∧ (Panicked N' j o ∨ ∃ c ∈ N'.calls, c.id = j ∧ c.op = o ∧ c.frame.panicking = true) := by
  obtain ⟨h1, h2⟩ := hb
  have swap : ∀ {t : Tid} {cs : List (Running K V)} {c : Running K V} {f : Fr K V}, N.threads[t]? = some (c :: cs) → (c.frame.panicking = true → f.panicking = true) →
      N'.threads = N.threads.set t ({ c with frame := f } :: cs) → N'.hist = N.hist →
      Called N' j o ∧ (Panicked N' j o ∨ ∃ c ∈ N'.calls, c.id = j ∧ c.op = o ∧ c.frame.panicking = true) := by
    intro t cs c f ht hf e1 e2
    simp only [Called, Panicked, e2] at h1 h2 ⊢
    refine ⟨h1, h2.imp id ?_⟩
    rintro ⟨c0, hc, g1, g2, g3⟩
    obtain ⟨x, y, k1, k2⟩ := PoolCode.flatten_set ht
    rw [State.calls, k1] at hc
    rw [State.calls, e1, k2]
    simp only [List.mem_append, List.mem_cons] at hc ⊢
    rcases hc with hc | (rfl | hc) | hc
    · exact ⟨c0, .inl hc, g1, g2, g3⟩
    · exact ⟨_, .inr (.inl (.inl rfl)), g1, g2, hf g3⟩
    · exact ⟨c0, .inr (.inl (.inr hc)), g1, g2, g3⟩
    · exact ⟨c0, .inr (.inr hc), g1, g2, g3⟩
  cases h with
  | spawn e1 _ e2 =>
    simp only [Called, Panicked, e2] at h1 h2 ⊢
    refine ⟨h1, h2.imp id ?_⟩
    rintro ⟨c0, hc, g⟩
    exact ⟨c0, by rw [State.calls, e1]; simpa [State.calls] using hc, g⟩
  | call ht _ _ e1 _ e2 =>
    simp only [Called, Panicked, e2] at h1 h2 ⊢
    refine ⟨List.mem_cons_of_mem _ h1, h2.imp (List.mem_cons_of_mem _) ?_⟩
    rintro ⟨c0, hc, g⟩
    obtain ⟨x, y, k1, k2⟩ := PoolCode.flatten_set ht
    rw [State.calls, k1] at hc
    refine ⟨c0, ?_, g⟩
    rw [State.calls, e1, k2]
    simp only [List.mem_append, List.mem_cons] at hc ⊢
    rcases hc with hc | hc | hc
    · exact .inl hc
    · exact .inr (.inl (.inr hc))
    · exact .inr (.inr hc)
  | panic ht hf e1 _ e2 => exact swap ht (fun _ => hf) e1 e2
  | run ht hf e1 _ e2 => exact swap ht (fun h => hf.trans h) e1 e2
  | @pop t cs c ht e1 _ e2 =>
    simp only [Called, Panicked, e2] at h1 h2 ⊢
    refine ⟨List.mem_append_right _ h1, ?_⟩
    rcases h2 with h2 | ⟨c0, hc, g1, g2, g3⟩
    · exact .inl (List.mem_append_right _ h2)
    · obtain ⟨x, y, k1, k2⟩ := PoolCode.flatten_set ht
      rw [State.calls, k1] at hc
      simp only [List.mem_append, List.mem_cons] at hc
      rcases hc with hc | (rfl | hc) | hc
      · exact .inr ⟨c0, by rw [State.calls, e1, k2]; simp [hc], g1, g2, g3⟩
      · left
        subst g1; subst g2
        simp [ends, g3]
      · exact .inr ⟨c0, by rw [State.calls, e1, k2]; simp [hc], g1, g2, g3⟩
      · exact .inr ⟨c0, by rw [State.calls, e1, k2]; simp [hc], g1, g2, g3⟩

theorem Cells.step (lay : cfg.Layout) (h : Cells cfg N) (hi : Ids N) (hk : Kind cfg N N') : Cells cfg N' := by
  rcases hk.cm with e | ⟨t, c, cs, f, ht, hf, e1, e2, hc⟩
  · refine ⟨?_, ?_, ?_, ?_⟩
    · intro s i d hd; rw [cell_of e] at hd; exact h.typed s i d hd
    · intro k i d hd htd
      rw [cell_of e] at hd
      exact (h.spare k i d hd htd).imp_left fun g => g.grows hk.grows
    · intro s i d hd; rw [cell_of e] at hd; exact h.free s i d hd
    · rintro k ⟨d, hd, hp⟩
      have : tableOf cfg N k = some d := by rw [← hd]; exact (firstCell_of e).symm
      obtain ⟨j, o, g1, g2⟩ := h.blame k ⟨d, this, hp⟩
      exact ⟨j, o, g1, hk.bad g2⟩
  · refine ⟨?_, ?_, ?_, ?_⟩
    · intro s i d hd
      rcases hc.get hd with g | ⟨rfl, rfl⟩ | ⟨rfl, _, d0, g, hb⟩
      · exact h.typed s i d g
      · exact ⟨_, rfl, rfl⟩
      · rw [hb.tid]; exact h.typed _ i d0 g
    · intro k i d hd htd
      rcases hc.get hd with g | ⟨_, rfl⟩ | ⟨hs, hf, d0, g, hb⟩
      · exact (h.spare k i d g htd).imp_left fun g => g.grows hk.grows
      · exact .inr ⟨rfl, rfl, rfl⟩
      · left
        obtain ⟨d1, k1, k2, _⟩ := hf.cell
        rw [hs, k1] at g; cases g
        have : k = c.op.pool := lay.types _ _ (by rw [← htd, hb.tid, k2])
        rw [this]
        exact hf.grows hk.grows
    · intro s i d hd hp
      rcases hc.get hd with g | ⟨_, rfl⟩ | ⟨_, _, d0, g, hb⟩
      · exact h.free s i d g hp
      · rfl
      · cases hb with
        | lock g1 g2 => rw [show d0.poisoned = true from hp] at g2; cases g2
        | insert g1 => exact h.free s i d0 g hp
        | unlock g1 => rfl
    · rintro k ⟨d, hd, hp⟩
      cases hd0 : tableOf cfg N k with
      | none => rw [hc.new hd0 hd] at hp; cases hp
      | some d0 =>
        by_cases hp0 : d0.poisoned = true
        · obtain ⟨j, o, g1, g2⟩ := h.blame k ⟨d0, hd0, hp0⟩
          exact ⟨j, o, g1, hk.bad g2⟩
        · rcases hc.first lay hd0 with g | ⟨rfl, d', g, hb⟩
          · rw [show tableOf cfg N' k = some d0 from g] at hd
            cases hd; exact absurd hp hp0
          · rw [show tableOf cfg N' _ = some d' from g] at hd
            cases hd
            cases hb with
            | lock _ _ => exact absurd hp hp0
            | insert _ => exact absurd hp hp0
            | unlock _ =>
              have hpn : c.frame.panicking = true := by
                simp only [Bool.not_eq_true] at hp0
                simp only [hp0, Bool.false_or, Bool.and_eq_true] at hp
                exact hp.1
              have hm : c ∈ N.calls := List.mem_flatten.mpr ⟨_, List.mem_of_getElem? ht, List.mem_cons_self⟩
              refine ⟨c.id, c.op, rfl, ?_, .inr ⟨{ c with frame := f }, ?_, rfl, rfl, hf.trans hpn⟩⟩
              · simp only [Called, e2]; exact hi.called c hm
              · rw [State.calls, e1]
                exact List.mem_flatten.mpr ⟨_, List.mem_of_getElem? (List.getElem?_set_self (List.getElem?_eq_some_iff.mp ht).1), List.mem_cons_self⟩

/-- A poisoned table stays as it is. -/
theorem Cells.frozen (lay : cfg.Layout) (h : Cells cfg N) (hk : Kind cfg N N') {k : K} (hp : Poisoned cfg N k) : tableOf cfg N' k = tableOf cfg N k := by
  obtain ⟨d, hd, hp⟩ := hp
  rcases hk.cm with e | ⟨t, c, cs, f, ht, hf, e1, e2, hc⟩
  · exact firstCell_of e
  · rw [hd]
    rcases hc.first lay hd with g | ⟨rfl, d', g, hb⟩
    · exact g
    · exfalso
      obtain ⟨pos, _, hcell⟩ := firstCell_first hd
      have := h.free _ _ _ hcell hp
      cases hb with
      | lock _ g' => rw [hp] at g'; cases g'
      | insert g' => rw [this] at g'; cases g'
      | unlock g' => rw [this] at g'; cases g'

section
variable [EquivBEq V] [LawfulHashable V]

theorem Reach.kind (lay : cfg.Layout) (h : Reach cfg N) {act : Act K V} (hs : NewCode.step cfg N act = .ok N') : Kind cfg N N' := by
  obtain ⟨S, num, Ls, D, h1, h2⟩ := h.nsim lay
  exact step_kind lay h1 h2 hs

theorem Reach.cells (lay : cfg.Layout) (h : Reach cfg N) : Cells cfg N := by
  induction h with
  | init => exact cells_init
  | step hr hl hs ih => exact ih.step lay hr.ids (hr.kind lay hs)

omit [EquivBEq V] [LawfulHashable V] in
theorem Later.reach (hr : Reach cfg N) (hl : Later cfg N N') : Reach cfg N' := by
  induction hl with
  | refl => exact hr
  | step _ hl hs ih => exact .step ih hl hs

theorem Later.frozen (lay : cfg.Layout) (hr : Reach cfg N) (hl : Later cfg N N') {k : K} (hp : Poisoned cfg N k) : tableOf cfg N' k = tableOf cfg N k := by
  induction hl with
  | refl => rfl
  | step h1 hl hs ih =>
    have h2 := h1.reach hr
    rw [(h2.cells lay).frozen lay (h2.kind lay hs) (by obtain ⟨d, g1, g2⟩ := hp; exact ⟨d, by rw [ih]; exact g1, g2⟩), ih]

end
end Src.NewCode
