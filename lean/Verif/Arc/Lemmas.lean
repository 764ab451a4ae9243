import Verif.Arc.Spec
/-! Helper lemmas about heaps, lists of threads and multiset counts. -/
namespace Arc
variable {V : Type}

theorem count_flatMap_set {α : Type} (f : α → List Addr) (p : Addr) :
    ∀ (l : List α) (t : Nat) (x y : α), l[t]? = some x →
      ((l.set t y).flatMap f).count p + (f x).count p = (l.flatMap f).count p + (f y).count p
  | [], t, x, y, h => by simp at h
  | z :: l, 0, x, y, h => by
      simp at h; subst h; simp [List.count_append]; omega
  | z :: l, t + 1, x, y, h => by
      simp at h
      have := count_flatMap_set f p l t x y h
      simp [List.count_append]; omega

theorem mem_of_getElem? {α : Type} {l : List α} {t : Nat} {x : α} (h : l[t]? = some x) : x ∈ l :=
  List.mem_of_getElem? h

theorem set_getElem? {α : Type} (l : List α) (t u : Nat) (x y : α) (h : l[t]? = some x) :
    (l.set t y)[u]? = if u = t then some y else l[u]? := by
  have ht : t < l.length := by
    rcases Nat.lt_or_ge t l.length with h' | h'
    · exact h'
    · simp [List.getElem?_eq_none h'] at h
  rw [List.getElem?_set]
  by_cases hu : t = u
  · subst hu; simp [ht]
  · simp [hu, Ne.symm hu]

theorem count_flatMap_pos {α : Type} (f : α → List Addr) (p : Addr) (l : List α) :
    0 < (l.flatMap f).count p ↔ ∃ (t : Nat) (x : α), l[t]? = some x ∧ p ∈ f x := by
  rw [List.count_pos_iff, List.mem_flatMap]
  constructor
  · rintro ⟨x, hx, hp⟩
    obtain ⟨t, ht⟩ := List.getElem?_of_mem hx
    exact ⟨t, x, ht, hp⟩
  · rintro ⟨t, x, hx, hp⟩
    exact ⟨x, List.mem_of_getElem? hx, hp⟩

/-! ### heap -/

@[simp] theorem keys_setCount (h : List (Addr × Cell V)) (a : Addr) (n : Nat) :
    keys (setCount h a n) = keys h := by
  simp only [keys, setCount, List.map_map]
  apply List.map_congr_left
  intro e _
  simp only [Function.comp]; split <;> rfl

theorem get_setCount (h : List (Addr × Cell V)) (a : Addr) (n : Nat) (b : Addr) :
    get (setCount h a n) b = if b = a then (get h b).map (fun c => { c with count := n }) else get h b := by
  induction h with
  | nil => simp [setCount, get]
  | cons e h ih =>
    obtain ⟨x, c⟩ := e
    simp only [setCount, List.map_cons] at ih ⊢
    by_cases hxa : x = a <;> by_cases hxb : x = b <;> by_cases hba : b = a <;> simp_all [get]

theorem get_data_setCount (h : List (Addr × Cell V)) (a : Addr) (n : Nat) (b : Addr) :
    (get (setCount h a n) b).map (·.data) = (get h b).map (·.data) := by
  rw [get_setCount]; split
  · cases get h b <;> rfl
  · rfl

theorem get_isSome (h : List (Addr × Cell V)) (a : Addr) : (get h a).isSome ↔ a ∈ keys h := by
  induction h with
  | nil => simp [get, keys]
  | cons e h ih =>
    obtain ⟨x, c⟩ := e
    simp only [get, keys, List.map_cons, List.mem_cons] at *
    by_cases hx : x = a
    · simp [hx]
    · simp [hx, Ne.symm hx]; simpa using ih

theorem get_none (h : List (Addr × Cell V)) (a : Addr) : get h a = none ↔ a ∉ keys h := by
  rw [← get_isSome]; cases get h a <;> simp

theorem mem_keys_of_get {h : List (Addr × Cell V)} {a : Addr} {c : Cell V} (e : get h a = some c) :
    a ∈ keys h := by rw [← get_isSome, e]; rfl

theorem exists_get {h : List (Addr × Cell V)} {a : Addr} (e : a ∈ keys h) : ∃ c, get h a = some c := by
  rw [← get_isSome] at e; exact Option.isSome_iff_exists.mp e

theorem mem_of_get {h : List (Addr × Cell V)} {a : Addr} {c : Cell V} (e : get h a = some c) :
    (a, c) ∈ h := by
  induction h with
  | nil => simp [get] at e
  | cons x h ih =>
    obtain ⟨x, d⟩ := x
    simp only [get] at e
    split at e
    · simp_all
    · exact List.mem_cons_of_mem _ (ih e)

theorem keys_free (h : List (Addr × Cell V)) (a b : Addr) :
    (keys (free h a)).count b = if b = a then 0 else (keys h).count b := by
  induction h with
  | nil => simp [free, keys]
  | cons e h ih =>
    obtain ⟨x, c⟩ := e
    simp only [free, keys] at ih ⊢
    by_cases hx : x = a
    · subst hx
      simp only [ne_eq, not_true_eq_false, decide_false, Bool.false_eq_true, not_false_eq_true,
        List.filter_cons_of_neg, List.map_cons]
      rw [ih]
      by_cases hb : b = x
      · simp [hb]
      · simp [hb, Ne.symm hb]
    · rw [List.filter_cons_of_pos (by simpa using hx)]
      simp only [List.map_cons, List.count_cons]
      rw [ih]
      by_cases hb : b = a
      · subst hb; simp [hx]
      · simp [hb]

theorem get_free (h : List (Addr × Cell V)) (a b : Addr) :
    get (free h a) b = if b = a then none else get h b := by
  induction h with
  | nil => simp [free, get]
  | cons e h ih =>
    obtain ⟨x, c⟩ := e
    simp only [free] at ih ⊢
    by_cases hx : x = a
    · subst hx
      simp only [ne_eq, not_true_eq_false, decide_false, Bool.false_eq_true, not_false_eq_true,
        List.filter_cons_of_neg]
      rw [ih]
      by_cases hb : b = x
      · simp [hb]
      · simp [hb, get, Ne.symm hb]
    · rw [List.filter_cons_of_pos (by simpa using hx)]
      simp only [get]
      rw [ih]
      by_cases hb : b = a
      · subst hb; simp [hx]
      · simp [hb]

@[simp] theorem storedHandles_setCount (cfg : Cfg V) (h : List (Addr × Cell V)) (a : Addr) (n : Nat) :
    storedHandles cfg (setCount h a n) = storedHandles cfg h := by
  simp only [storedHandles, setCount, List.flatMap_map]
  apply congrArg (List.flatMap · h)
  funext e
  split <;> rfl

theorem free_eq_self {h : List (Addr × Cell V)} {a : Addr} (ha : a ∉ keys h) : free h a = h := by
  unfold free
  rw [List.filter_eq_self]
  intro e he
  simp only [ne_eq, decide_not, Bool.not_eq_eq_eq_not, Bool.not_true, decide_eq_false_iff_not]
  intro h1
  exact ha (by rw [← h1]; exact List.mem_map_of_mem he)

theorem storedHandles_free (cfg : Cfg V) (p : Addr) :
    ∀ (h : List (Addr × Cell V)) (a : Addr) (c : Cell V), get h a = some c →
      (∀ b, (keys h).count b ≤ 1) →
      (storedHandles cfg (free h a)).count p + (cfg.kids c.data).count p = (storedHandles cfg h).count p
  | [], a, c, e, _ => by simp [get] at e
  | (x, d) :: h, a, c, e, nd => by
    have nd' : ∀ b, (keys h).count b ≤ 1 := by
      intro b; have := nd b; simp only [keys, List.map_cons, List.count_cons] at *; omega
    simp only [get] at e
    by_cases hx : x = a
    · subst hx
      simp only [↓reduceIte, Option.some.injEq] at e
      subst e
      have hn : x ∉ keys h := by
        intro hm
        have := nd x
        simp only [keys, List.map_cons, List.count_cons, BEq.rfl, ↓reduceIte] at this
        have h2 : 0 < (keys h).count x := List.count_pos_iff.mpr hm
        simp only [keys] at h2; omega
      have : free ((x, d) :: h) x = h := by
        unfold free
        rw [List.filter_cons_of_neg (by simp)]
        exact free_eq_self hn
      rw [this]
      simp [storedHandles, List.count_append]; omega
    · rw [if_neg hx] at e
      have ih := storedHandles_free cfg p h a c e nd'
      have : free ((x, d) :: h) a = (x, d) :: free h a := by
        unfold free; rw [List.filter_cons_of_pos (by simpa using hx)]
      rw [this]
      simp only [storedHandles, List.flatMap_cons, List.count_append] at *
      omega

theorem count_erase' (l : List Addr) (a p : Addr) :
    (l.erase a).count p = l.count p - if a = p then 1 else 0 := by
  rw [List.count_erase]
  by_cases h : a = p <;> simp [h]

theorem count_eraseAll (ks l : List Addr) (p : Addr) :
    (eraseAll l ks).count p = l.count p - ks.count p := by
  induction ks generalizing l with
  | nil => simp [eraseAll]
  | cons k ks ih =>
    simp only [eraseAll, List.foldl_cons] at ih ⊢
    rw [ih, List.count_erase, List.count_cons]
    by_cases h : k = p <;> simp [h]; omega

theorem ownsAll_iff (l ks : List Addr) : ownsAll l ks = true ↔ ∀ p, ks.count p ≤ l.count p := by
  simp only [ownsAll, List.all_eq_true, decide_eq_true_eq]
  constructor
  · intro h p
    by_cases hp : p ∈ ks
    · exact h p hp
    · rw [List.count_eq_zero.mpr hp]; omega
  · intro h p _; exact h p

theorem inc_eq {cfg : Cfg V} {n : Nat} (h : n + 1 < cfg.W) : cfg.inc n = n + 1 :=
  Nat.mod_eq_of_lt h

theorem dec_eq {cfg : Cfg V} {n : Nat} (h1 : 1 ≤ n) (h2 : n < cfg.W) : cfg.dec n = n - 1 := by
  unfold Cfg.dec
  have : n + (cfg.W - 1) = (n - 1) + cfg.W := by omega
  rw [this, Nat.add_mod_right, Nat.mod_eq_of_lt (by omega)]

theorem get_of_mem_nodup {h : List (Addr × Cell V)} {e : Addr × Cell V} (he : e ∈ h)
    (nd : ∀ b, (keys h).count b ≤ 1) : get h e.1 = some e.2 := by
  induction h with
  | nil => simp at he
  | cons z h ih =>
    obtain ⟨x, c⟩ := z
    simp only [get]
    have nd' : ∀ b, (keys h).count b ≤ 1 := by
      intro b; have := nd b; simp only [keys, List.map_cons, List.count_cons] at this ⊢; omega
    rcases List.mem_cons.mp he with he' | he'
    · subst he'; simp
    · have hne : x ≠ e.1 := by
        rintro rfl
        have h1 := nd e.1
        have h2 : 0 < (keys h).count e.1 := List.count_pos_iff.mpr (List.mem_map_of_mem he')
        simp only [keys, List.map_cons, List.count_cons_self] at h1 h2; omega
      rw [if_neg hne]; exact ih he' nd'

theorem snocInd {α : Type} {motive : List α → Prop} (l : List α) (nil : motive [])
    (append_singleton : ∀ l x, motive l → motive (l ++ [x])) : motive l := by
  have : ∀ m : List α, motive m.reverse := by
    intro m
    induction m with
    | nil => exact nil
    | cons x m ih => rw [List.reverse_cons]; exact append_singleton _ _ ih
  rw [← List.reverse_reverse l]; exact this _

end Arc
