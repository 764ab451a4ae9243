import Verif.TypeArena.Model
import Verif.TypeMap.Inv
namespace TypeArena
open TypeMap (Cfg Code Entry Tid Res containerCount Replay set_cases set_self set_other snoc_cases snoc_left shardIndex_lt)
variable {cfg : Cfg}

theorem downcast_isSome (t : cfg.Ty) (x : Cell cfg) : (downcast t x).isSome = decide (x.1 = t) := by
  unfold downcast
  by_cases h : x.1 = t <;> simp [h]

theorem downcast_mk (t : cfg.Ty) (c : Lock (cfg.C t)) : downcast t ⟨t, c⟩ = some c := by
  unfold downcast; simp

theorem downcast_some {t : cfg.Ty} {x : Cell cfg} {c : Lock (cfg.C t)} (h : downcast t x = some c) : x = ⟨t, c⟩ := by
  unfold downcast at h
  split at h
  · rename_i e
    cases x with
    | mk a b =>
      simp only at e
      subst e
      cases h
      rfl
  · cases h

/-- `c`, at position `pos`, is the first mutex for `t`. -/
def IsTab (V : List (List (Cell cfg))) (t : cfg.Ty) (pos : Nat) (c : Lock (cfg.C t)) : Prop :=
  ∃ v, V[cfg.shard t]? = some v ∧ v[pos]? = some ⟨t, c⟩ ∧ ∀ a, a < pos → ∀ x, v[a]? = some x → x.1 ≠ t

theorem IsTab.unique {V : List (List (Cell cfg))} {t : cfg.Ty} {p q : Nat} {c d : Lock (cfg.C t)} (h : IsTab V t p c)
    (h' : IsTab V t q d) : p = q ∧ c = d := by
  obtain ⟨v, hv, hp, hm⟩ := h
  obtain ⟨v', hv', hp', hm'⟩ := h'
  rw [hv] at hv'
  cases hv'
  have : p = q := by
    rcases Nat.lt_trichotomy p q with h | h | h
    · exact absurd rfl (hm' p h _ hp)
    · exact h
    · exact absurd rfl (hm q h _ hp')
  subst this
  rw [hp] at hp'
  cases hp'
  exact ⟨rfl, rfl⟩

theorem IsTab.get {V : List (List (Cell cfg))} {t : cfg.Ty} {p : Nat} {c : Lock (cfg.C t)} (h : IsTab V t p c) :
    getCell V t p = some c := by
  obtain ⟨v, hv, hp, hm⟩ := h
  simp only [getCell, hv, Option.bind_some, hp, downcast_mk]

theorem find_some {V : List (List (Cell cfg))} {t : cfg.Ty} {v : List (Cell cfg)} (hv : V[cfg.shard t]? = some v)
    {n pos : Nat} (h : find v t n = some pos) : pos < n ∧ ∃ c, IsTab V t pos c := by
  unfold find at h
  rw [List.findIdx?_eq_some_iff_getElem] at h
  obtain ⟨hi, hp, hm⟩ := h
  have hi' : pos < n ∧ pos < v.length := by
    rw [List.length_take] at hi
    exact ⟨Nat.lt_of_lt_of_le hi (Nat.min_le_left _ _), Nat.lt_of_lt_of_le hi (Nat.min_le_right _ _)⟩
  rw [List.getElem_take] at hp
  cases hd : downcast t v[pos] with
  | none => rw [hd] at hp; cases hp
  | some c =>
    refine ⟨hi'.1, c, v, hv, by rw [List.getElem?_eq_getElem hi'.2, downcast_some hd], fun a ha x hx e => ?_⟩
    have := hm a ha
    rw [List.getElem_take, downcast_isSome] at this
    rw [List.getElem?_eq_getElem (Nat.lt_trans ha hi'.2)] at hx
    cases hx
    exact this (by simp [e])

theorem find_none {V : List (List (Cell cfg))} {t : cfg.Ty} {v : List (Cell cfg)} (hv : V[cfg.shard t]? = some v)
    {n : Nat} (h : find v t n = none) {pos : Nat} {c : Lock (cfg.C t)} (ht : IsTab V t pos c) : n ≤ pos := by
  obtain ⟨v', hv', hp, _⟩ := ht
  rw [hv] at hv'
  cases hv'
  apply Nat.le_of_not_lt
  intro hlt
  unfold find at h
  rw [List.findIdx?_eq_none_iff] at h
  have hm : (⟨t, c⟩ : Cell cfg) ∈ v.take n := by
    refine List.mem_of_getElem? (i := pos) ?_
    rw [List.getElem?_take_of_lt hlt]; exact hp
  have := h _ hm
  rw [downcast_mk] at this
  cases this

theorem table_iff {s : State cfg} {t : cfg.Ty} {pos : Nat} {c : Lock (cfg.C t)} :
    table s t = some (pos, c) ↔ IsTab s.vecs t pos c := by
  constructor
  · intro h
    unfold table at h
    cases hv : s.vecs[cfg.shard t]? with
    | none => rw [hv] at h; cases h
    | some v =>
      rw [hv] at h
      simp only [Option.bind_some] at h
      cases hf : find v t v.length with
      | none => rw [hf] at h; cases h
      | some p =>
        rw [hf] at h
        simp only [Option.bind_some] at h
        obtain ⟨_, d, ht⟩ := find_some hv hf
        rw [ht.get] at h
        cases h
        exact ht
  · intro h
    have h' := h
    obtain ⟨v, hv, hp, hm⟩ := h'
    unfold table
    simp only [hv, Option.bind_some]
    cases hf : find v t v.length with
    | none => exact absurd (find_none hv hf h) (Nat.not_le.mpr (List.getElem?_eq_some_iff.mp hp).1)
    | some p =>
      obtain ⟨_, d, ht⟩ := find_some hv hf
      obtain ⟨rfl, rfl⟩ := h.unique ht
      simp only [Option.bind_some, h.get, Option.map_some]

theorem getElem?_modify_self {α : Type} {l : List α} {i : Nat} {f : α → α} {x : α} (h : l[i]? = some x) :
    (l.modify i f)[i]? = some (f x) := by simp [h]

theorem isTab_set_same {V : List (List (Cell cfg))} {t : cfg.Ty} {pos : Nat} {c c' : Lock (cfg.C t)} (h : IsTab V t pos c)
    {p : Nat} {d : Lock (cfg.C t)} : IsTab (setCell V t pos c') t p d ↔ p = pos ∧ d = c' := by
  have key : IsTab (setCell V t pos c') t pos c' := by
    obtain ⟨v, hv, hp, hm⟩ := h
    refine ⟨v.set pos ⟨t, c'⟩, getElem?_modify_self hv, set_self hp, fun a ha x hx => ?_⟩
    rw [set_other (Nat.ne_of_lt ha)] at hx
    exact hm a ha x hx
  constructor
  · intro h'
    obtain ⟨rfl, rfl⟩ := h'.unique key
    exact ⟨rfl, rfl⟩
  · rintro ⟨rfl, rfl⟩
    exact key

theorem isTab_set_other {V : List (List (Cell cfg))} {t t' : cfg.Ty} (hne : t' ≠ t) {pos : Nat} {c c' : Lock (cfg.C t)}
    (h : IsTab V t pos c) {p : Nat} {d : Lock (cfg.C t')} : IsTab (setCell V t pos c') t' p d ↔ IsTab V t' p d := by
  obtain ⟨v, hv, hp, hm⟩ := h
  by_cases hs : cfg.shard t' = cfg.shard t
  · unfold IsTab
    rw [hs, setCell, getElem?_modify_self hv, hv]
    constructor
    · rintro ⟨w, hw, h1, h2⟩
      cases hw
      refine ⟨v, rfl, ?_, fun a ha x hx => ?_⟩
      · rcases set_cases h1 with ⟨rfl, e⟩ | ⟨_, h1⟩
        · cases e; exact absurd rfl hne
        · exact h1
      · by_cases e : a = pos
        · subst e
          rw [hp] at hx
          cases hx
          exact fun e => hne e.symm
        · exact h2 a ha x (by rw [set_other e]; exact hx)
    · rintro ⟨w, hw, h1, h2⟩
      cases hw
      refine ⟨_, rfl, ?_, fun a ha x hx => ?_⟩
      · have : p ≠ pos := fun e => by
          rw [e, hp] at h1
          cases h1
          exact hne rfl
        rw [set_other this]; exact h1
      · rcases set_cases hx with ⟨rfl, rfl⟩ | ⟨_, hx⟩
        · exact fun e => hne e.symm
        · exact h2 a ha x hx
  · unfold IsTab setCell
    have hs' : ¬ cfg.shard t = cfg.shard t' := fun e => hs e.symm
    simp only [List.getElem?_modify, hs', if_false]
    simp

theorem isTab_push_other {V : List (List (Cell cfg))} {t t' : cfg.Ty} (hne : t' ≠ t) {v : List (Cell cfg)}
    (hv : V[cfg.shard t]? = some v) {c : Lock (cfg.C t)} {p : Nat} {d : Lock (cfg.C t')} :
    IsTab (V.set (cfg.shard t) (v ++ [⟨t, c⟩])) t' p d ↔ IsTab V t' p d := by
  by_cases hs : cfg.shard t' = cfg.shard t
  · unfold IsTab
    rw [hs, set_self hv, hv]
    constructor
    · rintro ⟨w, hw, h1, h2⟩
      cases hw
      rcases snoc_cases h1 with h1 | ⟨_, e⟩
      · exact ⟨v, rfl, h1, fun a ha x hx => h2 a ha x (snoc_left hx)⟩
      · cases e; exact absurd rfl hne
    · rintro ⟨w, hw, h1, h2⟩
      cases hw
      refine ⟨_, rfl, snoc_left h1, fun a ha x hx => ?_⟩
      rcases snoc_cases hx with hx | ⟨_, rfl⟩
      · exact h2 a ha x hx
      · exact fun e => hne e.symm
  · unfold IsTab
    rw [set_other hs]

theorem isTab_push_same {V : List (List (Cell cfg))} {t : cfg.Ty} {v : List (Cell cfg)}
    (hv : V[cfg.shard t]? = some v) {c : Lock (cfg.C t)} {p : Nat} {d : Lock (cfg.C t)} :
    IsTab (V.set (cfg.shard t) (v ++ [⟨t, c⟩])) t p d ↔
      IsTab V t p d ∨ ((∀ p d, ¬ IsTab V t p d) ∧ p = v.length ∧ d = c) := by
  have up : ∀ p d, IsTab V t p d → IsTab (V.set (cfg.shard t) (v ++ [⟨t, c⟩])) t p d := by
    rintro p d ⟨w, hw, h1, h2⟩
    rw [hv] at hw
    cases hw
    refine ⟨_, set_self hv, snoc_left h1, fun a ha x hx => ?_⟩
    rcases snoc_cases hx with hx | ⟨e, _⟩
    · exact h2 a ha x hx
    · subst e
      exact absurd (List.getElem?_eq_some_iff.mp h1).1 (Nat.not_lt.mpr (Nat.le_of_lt ha))
  constructor
  · intro h
    have h' := h
    obtain ⟨w, hw, h1, h2⟩ := h'
    rw [set_self hv] at hw
    cases hw
    rcases snoc_cases h1 with h1 | ⟨rfl, e⟩
    · exact .inl ⟨v, hv, h1, fun a ha x hx => h2 a ha x (snoc_left hx)⟩
    · cases e
      refine .inr ⟨fun p d ht => ?_, rfl, rfl⟩
      obtain ⟨rfl, _⟩ := (up p d ht).unique h
      obtain ⟨w, hw, h1, _⟩ := ht
      rw [hv] at hw
      cases hw
      exact absurd (List.getElem?_eq_some_iff.mp h1).1 (Nat.lt_irrefl _)
  · rintro (h | ⟨hno, rfl, rfl⟩)
    · exact up p d h
    · refine ⟨_, set_self hv, by simp, fun a ha x hx e => ?_⟩
      rcases snoc_cases hx with hx | ⟨e', _⟩
      · -- the first occurrence would be a table
        have : ∃ p, find v t v.length = some p := by
          cases hf : find v t v.length with
          | some p => exact ⟨p, rfl⟩
          | none =>
            unfold find at hf
            rw [List.take_length, List.findIdx?_eq_none_iff] at hf
            have := hf x (List.mem_of_getElem? hx)
            rw [downcast_isSome] at this
            simp [e] at this
        obtain ⟨p, hf⟩ := this
        obtain ⟨_, d', ht⟩ := find_some hv hf
        exact hno p d' ht
      · exact absurd ha (by rw [e']; exact Nat.lt_irrefl _)

theorem setLog_same (s : State cfg) (t : cfg.Ty) (e : Entry (cfg.C t) (cfg.R t)) : s.setLog t e t = e :: s.log t := by
  unfold State.setLog; simp

theorem setLog_other (s : State cfg) {t t' : cfg.Ty} (h : t ≠ t') (e : Entry (cfg.C t) (cfg.R t)) :
    s.setLog t e t' = s.log t' := by
  unfold State.setLog; rw [dif_neg h]

structure Inv (s : State cfg) : Prop where
  len : s.vecs.length = containerCount
  lock : ∀ (u : Tid) t code pos, s.threads[u]? = some (.lock t code pos) → ∃ c, IsTab s.vecs t pos c
  again : ∀ (u : Tid) t code m, s.threads[u]? = some (.again t code m) → ∃ pos c, pos < m ∧ IsTab s.vecs t pos c
  own : ∀ t pos c u, IsTab s.vecs t pos c → c.owner = some u → ∃ orig n k, s.threads[u]? = some (.inside t orig n k pos)
  ins : ∀ (u : Tid) t orig n k pos, s.threads[u]? = some (.inside t orig n k pos) →
    ∃ c c0, IsTab s.vecs t pos c ∧ c.owner = some u ∧ c.poisoned = false ∧ Replay (cfg.dflt t) (s.log t) c0 ∧
      orig.steps n c0 = (c.val, k)
  rest : ∀ t pos c, IsTab s.vecs t pos c → c.owner = none → Replay (cfg.dflt t) (s.log t) c.val
  none : ∀ t, (∀ pos c, ¬ IsTab s.vecs t pos c) → s.log t = []
  pois : ∀ t pos c, IsTab s.vecs t pos c → (c.poisoned = true ↔ ∃ e ∈ s.log t, e.res = Option.none)

theorem no_tab_init (t : cfg.Ty) (pos : Nat) (c : Lock (cfg.C t)) : ¬ IsTab (init cfg).vecs t pos c := by
  rintro ⟨v, hv, hp, _⟩
  have := List.eq_of_mem_replicate (List.mem_of_getElem? hv)
  subst this
  simp at hp

theorem Inv.init : Inv (init cfg) where
  len := by simp [TypeArena.init]
  lock u t code pos h := by simp [TypeArena.init] at h
  again u t code pos h := by simp [TypeArena.init] at h
  own t pos c u h := absurd h (no_tab_init t pos c)
  ins u t orig n k pos h := by simp [TypeArena.init] at h
  rest t pos c h := absurd h (no_tab_init t pos c)
  none t _ := rfl
  pois t pos c h := absurd h (no_tab_init t pos c)

/-- A thread moves between points outside the closure. -/
theorem Inv.outer {s : State cfg} (I : Inv s) {u : Tid} {pc pc' : Pc cfg} (hu : s.threads[u]? = some pc)
    (h1 : ∀ t orig n k pos, pc ≠ .inside t orig n k pos) (h2 : ∀ t orig n k pos, pc' ≠ .inside t orig n k pos)
    (hl : ∀ t code pos, pc' = .lock t code pos → ∃ c, IsTab s.vecs t pos c)
    (ha : ∀ t code m, pc' = .again t code m → ∃ pos c, pos < m ∧ IsTab s.vecs t pos c) (r) :
    Inv { s with threads := s.threads.set u pc', refused := r } where
  len := I.len
  lock u' t code pos h := by
    rcases set_cases h with ⟨rfl, e⟩ | ⟨_, h⟩
    · exact hl t code pos e.symm
    · exact I.lock u' t code pos h
  again u' t code m h := by
    rcases set_cases h with ⟨rfl, e⟩ | ⟨_, h⟩
    · exact ha t code m e.symm
    · exact I.again u' t code m h
  own t pos c u' ht ho := by
    obtain ⟨orig, n, k, h⟩ := I.own t pos c u' ht ho
    have : u' ≠ u := fun e => by rw [e, hu] at h; cases h; exact h1 _ _ _ _ _ rfl
    exact ⟨orig, n, k, by rw [set_other this]; exact h⟩
  ins u' t orig n k pos h := by
    rcases set_cases h with ⟨rfl, e⟩ | ⟨_, h⟩
    · exact absurd e.symm (h2 _ _ _ _ _)
    · exact I.ins u' t orig n k pos h
  rest := I.rest
  none := I.none
  pois := I.pois

theorem Inv.pushed {s : State cfg} (I : Inv s) {u : Tid} {t : cfg.Ty} {code : Code (cfg.C t) (cfg.R t)}
    (hu : s.threads[u]? = some (.push t code)) {v : List (Cell cfg)} (hv : s.vecs[cfg.shard t]? = some v) :
    Inv { s with vecs := s.vecs.set (cfg.shard t) (v ++ [⟨t, { val := cfg.dflt t, owner := Option.none, poisoned := false }⟩]),
                 threads := s.threads.set u (.again t code (v.length + 1)) } := by
  have up : ∀ t' p d, IsTab s.vecs t' p d → IsTab (s.vecs.set (cfg.shard t) (v ++ [⟨t, { val := cfg.dflt t, owner := Option.none, poisoned := false }⟩])) t' p d := by
    intro t' p d h
    by_cases e : t' = t
    · subst e; exact (isTab_push_same hv).mpr (.inl h)
    · exact (isTab_push_other e hv).mpr h
  have down : ∀ t' p d, IsTab (s.vecs.set (cfg.shard t) (v ++ [⟨t, { val := cfg.dflt t, owner := Option.none, poisoned := false }⟩])) t' p d →
      IsTab s.vecs t' p d ∨ ((∀ p d, ¬ IsTab s.vecs t' p d) ∧ d.val = cfg.dflt t' ∧ d.owner = Option.none ∧ d.poisoned = false) := by
    intro t' p d h
    by_cases e : t' = t
    · subst e
      rcases (isTab_push_same hv).mp h with h | ⟨hno, _, rfl⟩
      · exact .inl h
      · exact .inr ⟨hno, rfl, rfl, rfl⟩
    · exact .inl ((isTab_push_other e hv).mp h)
  constructor
  · simpa using I.len
  · intro u' t' code' pos h
    rcases set_cases h with ⟨rfl, e⟩ | ⟨_, h⟩
    · cases e
    · obtain ⟨c, hc⟩ := I.lock u' t' code' pos h
      exact ⟨c, up _ _ _ hc⟩
  · intro u' t' code' m h
    rcases set_cases h with ⟨rfl, e⟩ | ⟨_, h⟩
    · cases e
      by_cases hex : ∃ p d, IsTab s.vecs t p d
      · obtain ⟨p, d, h⟩ := hex
        refine ⟨p, d, ?_, up _ _ _ h⟩
        obtain ⟨w, hw, hp, _⟩ := h
        rw [hv] at hw
        cases hw
        exact Nat.lt_succ_of_lt (List.getElem?_eq_some_iff.mp hp).1
      · exact ⟨v.length, _, Nat.lt_succ_self _, (isTab_push_same hv).mpr (.inr ⟨fun p d h => hex ⟨p, d, h⟩, rfl, rfl⟩)⟩
    · obtain ⟨pos, c, hlt, hc⟩ := I.again u' t' code' m h
      exact ⟨pos, c, hlt, up _ _ _ hc⟩
  · intro t' pos c u' ht ho
    rcases down _ _ _ ht with ht | ⟨_, _, h, _⟩
    · obtain ⟨orig, n, k, h⟩ := I.own t' pos c u' ht ho
      have : u' ≠ u := fun e => by rw [e, hu] at h; cases h
      exact ⟨orig, n, k, by rw [set_other this]; exact h⟩
    · rw [ho] at h; cases h
  · intro u' t' orig n k pos h
    rcases set_cases h with ⟨rfl, e⟩ | ⟨_, h⟩
    · cases e
    · obtain ⟨c, c0, h1, h2⟩ := I.ins u' t' orig n k pos h
      exact ⟨c, c0, up _ _ _ h1, h2⟩
  · intro t' pos c ht ho
    rcases down _ _ _ ht with ht | ⟨hno, h, _⟩
    · exact I.rest t' pos c ht ho
    · rw [h]
      simp only [I.none t' hno]
      exact .nil
  · intro t' hno
    exact I.none t' (fun p d h => hno p d (up _ _ _ h))
  · intro t' pos c ht
    rcases down _ _ _ ht with ht | ⟨hno, _, _, h⟩
    · exact I.pois t' pos c ht
    · simp only [I.none t' hno, h]
      simp

/-- A thread inside its closure, or entering it, changes the mutex. -/
theorem Inv.update {s : State cfg} (I : Inv s) {u : Tid} {t : cfg.Ty} {pos : Nat} {c c' : Lock (cfg.C t)}
    (ht : IsTab s.vecs t pos c) {pc pc' : Pc cfg} (hu : s.threads[u]? = some pc)
    (h1 : ∀ t' orig n k p, pc = .inside t' orig n k p → t' = t)
    (h2 : ∀ u', c.owner = some u' → u' = u)
    (hpc' : (pc' = .idle ∧ c'.owner = Option.none) ∨ (∃ orig n k, pc' = .inside t orig n k pos ∧ c'.owner = some u))
    {log : (t : cfg.Ty) → List (Entry (cfg.C t) (cfg.R t))} (hlog : ∀ t', t' ≠ t → log t' = s.log t')
    (hrest : c'.owner = Option.none → Replay (cfg.dflt t) (log t) c'.val)
    (hins : ∀ orig n k, pc' = .inside t orig n k pos → c'.poisoned = false ∧
      ∃ c0, Replay (cfg.dflt t) (log t) c0 ∧ orig.steps n c0 = (c'.val, k))
    (hpois : c'.poisoned = true ↔ ∃ e ∈ log t, e.res = Option.none) :
    Inv { s with vecs := setCell s.vecs t pos c', threads := s.threads.set u pc', log := log } := by
  have notIns : ∀ (u' : Tid) t' orig n k p, u' ≠ u → s.threads[u']? = some (.inside t' orig n k p) → t' ≠ t := by
    intro u' t' orig n k p hne h e
    subst e
    obtain ⟨d, _, hd, ho, _⟩ := I.ins u' t' orig n k p h
    obtain ⟨rfl, rfl⟩ := hd.unique ht
    exact hne (h2 u' ho)
  have upd : ∀ t' p d, IsTab s.vecs t' p d → ∃ d', IsTab (setCell s.vecs t pos c') t' p d' := by
    intro t' p d h
    by_cases e : t' = t
    · subst e
      obtain ⟨rfl, rfl⟩ := h.unique ht
      exact ⟨c', (isTab_set_same ht).mpr ⟨rfl, rfl⟩⟩
    · exact ⟨d, (isTab_set_other e ht).mpr h⟩
  constructor
  · simpa [setCell] using I.len
  · intro u' t' code p h
    rcases set_cases h with ⟨rfl, e⟩ | ⟨_, h⟩
    · rcases hpc' with ⟨rfl, _⟩ | ⟨_, _, _, rfl, _⟩ <;> cases e
    · obtain ⟨d, hd⟩ := I.lock u' t' code p h
      exact upd _ _ _ hd
  · intro u' t' code m h
    rcases set_cases h with ⟨rfl, e⟩ | ⟨_, h⟩
    · rcases hpc' with ⟨rfl, _⟩ | ⟨_, _, _, rfl, _⟩ <;> cases e
    · obtain ⟨p, d, hlt, hd⟩ := I.again u' t' code m h
      obtain ⟨d', hd'⟩ := upd _ _ _ hd
      exact ⟨p, d', hlt, hd'⟩
  · intro t' p d u' hd ho
    by_cases e : t' = t
    · subst e
      obtain ⟨rfl, rfl⟩ := (isTab_set_same ht).mp hd
      rcases hpc' with ⟨_, e⟩ | ⟨orig, n, k, rfl, e⟩
      · rw [ho] at e; cases e
      · rw [ho] at e
        cases e
        exact ⟨orig, n, k, set_self hu⟩
    · obtain ⟨orig, n, k, h⟩ := I.own t' p d u' ((isTab_set_other e ht).mp hd) ho
      have : u' ≠ u := fun e' => by
        rw [e', hu] at h
        injection h with h
        exact e (h1 _ _ _ _ _ h)
      exact ⟨orig, n, k, by rw [set_other this]; exact h⟩
  · intro u' t' orig n k p h
    rcases set_cases h with ⟨rfl, e⟩ | ⟨hne, h⟩
    · rcases hpc' with ⟨rfl, _⟩ | ⟨_, _, _, rfl, ho⟩
      · cases e
      · cases e
        obtain ⟨hp, c0, h3, h4⟩ := hins _ _ _ rfl
        exact ⟨c', c0, (isTab_set_same ht).mpr ⟨rfl, rfl⟩, ho, hp, h3, h4⟩
    · have hnt := notIns _ _ _ _ _ _ hne h
      obtain ⟨d, c0, g1, g2, g3, g4, g5⟩ := I.ins u' t' orig n k p h
      exact ⟨d, c0, (isTab_set_other hnt ht).mpr g1, g2, g3, by simp only [hlog t' hnt]; exact g4, g5⟩
  · intro t' p d hd ho
    by_cases e : t' = t
    · subst e
      obtain ⟨rfl, rfl⟩ := (isTab_set_same ht).mp hd
      exact hrest ho
    · simp only [hlog t' e]
      exact I.rest t' p d ((isTab_set_other e ht).mp hd) ho
  · intro t' hno
    by_cases e : t' = t
    · subst e
      exact absurd ((isTab_set_same ht).mpr ⟨rfl, rfl⟩) (hno pos c')
    · simp only [hlog t' e]
      exact I.none t' (fun p d h => hno p d ((isTab_set_other e ht).mpr h))
  · intro t' p d hd
    by_cases e : t' = t
    · subst e
      obtain ⟨rfl, rfl⟩ := (isTab_set_same ht).mp hd
      exact hpois
    · simp only [hlog t' e]
      exact I.pois t' p d ((isTab_set_other e ht).mp hd)

/-- No `unreachable!`, index or downcast fails, and steps keep the invariant. -/
theorem Inv.step {s : State cfg} (I : Inv s) (a : Act cfg) : step s a = .blocked ∨ ∃ s', step s a = .ok s' ∧ Inv s' := by
  cases a with
  | spawn =>
    refine .inr ⟨_, rfl, ?_⟩
    constructor
    · exact I.len
    · intro u t code pos h
      rcases snoc_cases h with h | ⟨_, e⟩
      · exact I.lock u t code pos h
      · cases e
    · intro u t code m h
      rcases snoc_cases h with h | ⟨_, e⟩
      · exact I.again u t code m h
      · cases e
    · intro t pos c u ht ho
      obtain ⟨orig, n, k, h⟩ := I.own t pos c u ht ho
      exact ⟨orig, n, k, snoc_left h⟩
    · intro u t orig n k pos h
      rcases snoc_cases h with h | ⟨_, e⟩
      · exact I.ins u t orig n k pos h
      · cases e
    · exact I.rest
    · exact I.none
    · exact I.pois
  | call u t code =>
    simp only [TypeArena.step]
    cases hu : s.threads[u]? with
    | none => exact .inl rfl
    | some pc =>
      cases pc with
      | idle => exact .inr ⟨_, rfl, I.outer hu (by intros; intro h; cases h) (by intros; intro h; cases h) (by intros _ _ _ h; cases h) (by intros _ _ _ h; cases h) s.refused⟩
      | _ => exact .inl rfl
  | run u n =>
    simp only [TypeArena.step]
    cases hu : s.threads[u]? with
    | none => exact .inl rfl
    | some pc =>
      simp only
      have exV : ∀ t : cfg.Ty, ∃ v, s.vecs[cfg.shard t]? = some v := by
        intro t
        have hlt : cfg.shard t < s.vecs.length := by rw [I.len]; exact shardIndex_lt _ _
        exact ⟨_, List.getElem?_eq_getElem hlt⟩
      cases pc with
      | idle => exact .inl rfl
      | search t code =>
        obtain ⟨v, hv⟩ := exV t
        simp only [run, hv]
        split
        · exact .inl rfl
        · cases hf : find v t n with
          | some pos =>
            obtain ⟨_, c, hc⟩ := find_some hv hf
            exact .inr ⟨_, rfl, I.outer hu (by intros; intro h; cases h) (by intros; intro h; cases h) (by intros _ _ _ h; cases h; exact ⟨c, hc⟩) (by intros _ _ _ h; cases h) s.refused⟩
          | none =>
            exact .inr ⟨_, rfl, I.outer hu (by intros; intro h; cases h) (by intros; intro h; cases h) (by intros _ _ _ h; cases h) (by intros _ _ _ h; cases h) s.refused⟩
      | push t code =>
        obtain ⟨v, hv⟩ := exV t
        simp only [run, hv]
        exact .inr ⟨_, rfl, I.pushed hu hv⟩
      | again t code m =>
        obtain ⟨v, hv⟩ := exV t
        simp only [run, hv]
        split
        · exact .inl rfl
        · rename_i hn
          cases hf : find v t n with
          | some pos =>
            obtain ⟨_, c, hc⟩ := find_some hv hf
            exact .inr ⟨_, rfl, I.outer hu (by intros; intro h; cases h) (by intros; intro h; cases h) (by intros _ _ _ h; cases h; exact ⟨c, hc⟩) (by intros _ _ _ h; cases h) s.refused⟩
          | none =>
            obtain ⟨pos, c, hlt, hc⟩ := I.again u t code m hu
            have := find_none hv hf hc
            omega
      | lock t code pos =>
        obtain ⟨c, hc⟩ := I.lock u t code pos hu
        simp only [run, hc.get]
        cases ho : c.owner with
        | some w => exact .inl rfl
        | none =>
          simp only [Option.isSome_none, Bool.false_eq_true, if_false]
          cases hp : c.poisoned with
          | true =>
            exact .inr ⟨_, rfl, I.outer hu (by intros; intro h; cases h) (by intros; intro h; cases h) (by intros _ _ _ h; cases h) (by intros _ _ _ h; cases h) _⟩
          | false =>
            simp only [Bool.false_eq_true, if_false]
            refine .inr ⟨_, rfl, I.update (log := s.log) hc hu (by intros _ _ _ _ _ h; cases h) (by intro u' h; rw [ho] at h; cases h)
              (.inr ⟨_, _, _, rfl, rfl⟩) (fun _ _ => rfl) (fun h => by cases h) (fun orig n k e => ?_) ?_⟩
            · cases e
              exact ⟨rfl, c.val, I.rest t pos c hc ho, rfl⟩
            · have := I.pois t pos c hc
              rw [hp] at this
              exact this
      | inside t orig i k pos =>
        obtain ⟨c, c0, hc, ho, hp, h3, h4⟩ := I.ins u t orig i k pos hu
        have hpo := I.pois t pos c hc
        rw [hp] at hpo
        cases k with
        | ret r =>
          simp only [run, hc.get]
          refine .inr ⟨_, rfl, I.update hc hu (by intros _ _ _ _ _ h; cases h; rfl) (by intro u' h; rw [ho] at h; cases h; rfl)
              (.inl ⟨rfl, rfl⟩) (fun t' h => setLog_other s (fun e => h e.symm) _) (fun _ => ?_) (fun orig n k e => by cases e) ?_⟩
          · rw [setLog_same]; exact .ret h3 h4
          · rw [setLog_same]
            simp only [hp]
            rw [hpo]
            simp
        | next f k =>
          simp only [run, hc.get]
          refine .inr ⟨_, rfl, I.update (log := s.log) (c' := { c with val := f c.val }) hc hu (by intros _ _ _ _ _ h; cases h; rfl) (by intro u' h; rw [ho] at h; cases h; rfl)
              (.inr ⟨_, _, _, rfl, ho⟩) (fun _ _ => rfl) (fun h => by simp only [ho] at h; cases h) (fun orig n k e => ?_) ?_⟩
          · cases e
            exact ⟨hp, c0, h3, Code.steps_succ _ _ _ _ _ _ h4⟩
          · simp only [hp]; exact hpo
  | panic u =>
    simp only [TypeArena.step]
    cases hu : s.threads[u]? with
    | none => exact .inl rfl
    | some pc =>
      cases pc with
      | inside t orig i k pos =>
        obtain ⟨c, c0, hc, ho, hp, h3, h4⟩ := I.ins u t orig i k pos hu
        simp only [runPanic, hc.get]
        refine .inr ⟨_, rfl, I.update hc hu (by intros _ _ _ _ _ h; cases h; rfl) (by intro u' h; rw [ho] at h; cases h; rfl)
              (.inl ⟨rfl, rfl⟩) (fun t' h => setLog_other s (fun e => h e.symm) _) (fun _ => ?_) (fun orig n k e => by cases e) ?_⟩
        · rw [setLog_same]; exact .panic h3 h4
        · rw [setLog_same]; simp
      | _ => exact .inl rfl

theorem Reach.inv {s : State cfg} (h : Reach s) : Inv s := by
  induction h with
  | init => exact Inv.init
  | @step s s' a _ hs ih =>
    rcases ih.step a with e | ⟨s1, e, I⟩
    · rw [e] at hs; cases hs
    · rw [e] at hs; cases hs; exact I

end TypeArena
