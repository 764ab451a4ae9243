import Verif.TypeMap.Model
namespace TypeMap
variable {cfg : Cfg}

theorem shardIndex_lt (w : Nat) (h : UInt64) : shardIndex w h < containerCount := Nat.mod_lt _ (by decide)

def Pc.holds : Pc cfg → Option Nat
  | .inside t _ _ _ _ => some (cfg.shard t)
  | _ => none

structure Inv (s : State cfg) : Prop where
  len : s.shards.length = containerCount
  uniq : ∀ (i : Nat) v (a b : Nat) x y, s.shards[i]? = some v → v[a]? = some x → v[b]? = some y → x.1 = y.1 → a = b
  place : ∀ (i : Nat) v (a : Nat) x, s.shards[i]? = some v → v[a]? = some x → cfg.shard x.1 = i
  holder : ∀ (u : Tid) pc i, s.threads[u]? = some pc → pc.holds = some i → s.lock i = some u
  held : ∀ i (u : Tid), s.lock i = some u → ∃ pc, s.threads[u]? = some pc ∧ pc.holds = some i
  inside : ∀ (u : Tid) t orig n k pos, s.threads[u]? = some (.inside t orig n k pos) →
    ∃ c c0, Holds s (cfg.shard t) pos t c ∧ Replay (cfg.dflt t) (s.log t) c0 ∧ orig.steps n c0 = (c, k)
  rest : ∀ t, (∀ (u : Tid) orig n k pos, s.threads[u]? ≠ some (.inside t orig n k pos)) →
    (∀ pos c, Holds s (cfg.shard t) pos t c → Replay (cfg.dflt t) (s.log t) c) ∧
    ((∀ pos c, ¬ Holds s (cfg.shard t) pos t c) → Replay (cfg.dflt t) (s.log t) (cfg.dflt t))

theorem set_cases {α : Type} {l : List α} {t u : Nat} {x y : α} (h : (l.set t x)[u]? = some y) :
    (u = t ∧ y = x) ∨ (u ≠ t ∧ l[u]? = some y) := by
  rw [List.getElem?_set] at h
  split at h
  · rename_i e
    split at h
    · injection h with h
      exact .inl ⟨e.symm, h.symm⟩
    · cases h
  · rename_i e
    exact .inr ⟨fun e' => e e'.symm, h⟩

theorem set_self {α : Type} {l : List α} {t : Nat} {x y : α} (h : l[t]? = some y) : (l.set t x)[t]? = some x := by
  have := (List.getElem?_eq_some_iff.mp h).1
  simp [this]

theorem set_other {α : Type} {l : List α} {t u : Nat} {x : α} (h : u ≠ t) : (l.set t x)[u]? = l[u]? := by
  rw [List.getElem?_set, if_neg (fun e => h e.symm)]

theorem snoc_cases {α : Type} {l : List α} {x a : α} {i : Nat} (h : (l ++ [x])[i]? = some a) :
    l[i]? = some a ∨ (i = l.length ∧ a = x) := by
  by_cases hi : i < l.length
  · rw [List.getElem?_append_left hi] at h; exact .inl h
  · have hle : l.length ≤ i := Nat.le_of_not_lt hi
    rw [List.getElem?_append_right hle] at h
    cases hd : i - l.length with
    | zero =>
      rw [hd] at h
      cases h
      exact .inr ⟨Nat.le_antisymm (Nat.sub_eq_zero_iff_le.mp hd) hle, rfl⟩
    | succ n => rw [hd] at h; simp at h

theorem snoc_left {α : Type} {l m : List α} {i : Nat} {a : α} (h : l[i]? = some a) : (l ++ m)[i]? = some a := by
  rw [List.getElem?_append_left (List.getElem?_eq_some_iff.mp h).1]; exact h

theorem downcast_isSome (t : cfg.Ty) (x : Dyn cfg) : (downcast t x).isSome = decide (x.1 = t) := by
  unfold downcast
  by_cases h : x.1 = t <;> simp [h]

theorem downcast_mk (t : cfg.Ty) (c : cfg.C t) : downcast t ⟨t, c⟩ = some c := by
  unfold downcast; simp

theorem downcast_some {t : cfg.Ty} {x : Dyn cfg} {c : cfg.C t} (h : downcast t x = some c) : x = ⟨t, c⟩ := by
  unfold downcast at h
  split at h
  · rename_i e
    cases x with
    | mk a b =>
      simp only at e
      subst e
      cases h
      rfl
  · cases h

theorem getTypeMut_spec (v : List (Dyn cfg)) (t : cfg.Ty) :
    (∃ pos c, v[pos]? = some ⟨t, c⟩ ∧ getTypeMut v t = some (v, pos)) ∨
    ((∀ (a : Nat) x, v[a]? = some x → x.1 ≠ t) ∧
      getTypeMut v t = some (v ++ [⟨t, cfg.dflt t⟩], v.length)) := by
  unfold getTypeMut
  cases hf : v.findIdx? (fun x => (downcast t x).isSome) with
  | some i =>
    rw [List.findIdx?_eq_some_iff_getElem] at hf
    obtain ⟨hi, hp, _⟩ := hf
    left
    simp only [List.getElem?_eq_getElem hi]
    cases hd : downcast t v[i] with
    | none => rw [hd] at hp; cases hp
    | some c =>
      exact ⟨i, c, by rw [List.getElem?_eq_getElem hi, downcast_some hd], by simp⟩
  | none =>
    right
    rw [List.findIdx?_eq_none_iff] at hf
    refine ⟨fun a x hx e => ?_, ?_⟩
    · have := hf x (List.mem_of_getElem? hx)
      rw [downcast_isSome] at this
      simp [e] at this
    · simp [downcast_mk]

/-- Writing a vector that keeps all old elements (by type). -/
theorem Holds.set_iff {s : State cfg} {i : Nat} {v v' : List (Dyn cfg)} (hv : s.shards[i]? = some v) {j pos : Nat}
    {t : cfg.Ty} {c : cfg.C t} {lk th lg} :
    Holds { shards := s.shards.set i v', lock := lk, threads := th, log := lg } j pos t c ↔
      (j = i ∧ v'[pos]? = some ⟨t, c⟩) ∨ (j ≠ i ∧ Holds s j pos t c) := by
  constructor
  · rintro ⟨x, hx, hp⟩
    rcases set_cases hx with ⟨rfl, rfl⟩ | ⟨hne, hx⟩
    · exact .inl ⟨rfl, hp⟩
    · exact .inr ⟨hne, x, hx, hp⟩
  · rintro (⟨rfl, hp⟩ | ⟨hne, x, hx, hp⟩)
    · exact ⟨v', set_self hv, hp⟩
    · exact ⟨x, by rw [set_other hne]; exact hx, hp⟩

theorem setLog_same (s : State cfg) (t : cfg.Ty) (e : Entry (cfg.C t) (cfg.R t)) : s.setLog t e t = e :: s.log t := by
  unfold State.setLog; simp

theorem setLog_other (s : State cfg) {t t' : cfg.Ty} (h : t ≠ t') (e : Entry (cfg.C t) (cfg.R t)) :
    s.setLog t e t' = s.log t' := by
  unfold State.setLog; rw [dif_neg h]

theorem Inv.init : Inv (init cfg) where
  len := by simp [TypeMap.init]
  uniq i v a b x y h hx := by
    have := List.eq_of_mem_replicate (List.mem_of_getElem? h)
    subst this
    simp at hx
  place i v a x h hx := by
    have := List.eq_of_mem_replicate (List.mem_of_getElem? h)
    subst this
    simp at hx
  holder u pc i h := by simp [TypeMap.init] at h
  held i u h := by cases h
  inside u t orig n k pos h := by simp [TypeMap.init] at h
  rest t _ := by
    refine ⟨fun pos c h => ?_, fun _ => .nil⟩
    obtain ⟨v, hv, hp⟩ := h
    have := List.eq_of_mem_replicate (List.mem_of_getElem? hv)
    subst this
    simp at hp

/-- Changing a thread that is not inside to one that is not inside. -/
theorem Inv.outer {s : State cfg} (I : Inv s) {th : List (Pc cfg)}
    (h : ∀ (u : Tid) t orig n k pos, th[u]? = some (.inside t orig n k pos) ↔ s.threads[u]? = some (.inside t orig n k pos)) :
    Inv { s with threads := th } where
  len := I.len
  uniq := I.uniq
  place := I.place
  holder u pc i hu hi := by
    cases pc with
    | inside t orig n k pos => exact I.holder u _ i ((h ..).mp hu) hi
    | _ => cases hi
  held i u hl := by
    obtain ⟨pc, hu, hi⟩ := I.held i u hl
    cases pc with
    | inside t orig n k pos => exact ⟨_, (h ..).mpr hu, hi⟩
    | _ => cases hi
  inside u t orig n k pos hu := I.inside u t orig n k pos ((h ..).mp hu)
  rest t ht := I.rest t (fun u orig n k pos e => ht u orig n k pos ((h ..).mpr e))

theorem Inv.sole {s : State cfg} (I : Inv s) {u u' : Tid} {pc pc' : Pc cfg} {i : Nat} (h : s.threads[u]? = some pc)
    (h' : s.threads[u']? = some pc') (hi : pc.holds = some i) (hi' : pc'.holds = some i) : u = u' := by
  have := I.holder u pc i h hi
  rw [I.holder u' pc' i h' hi'] at this
  injection this with this
  exact this.symm

theorem Inv.acquire {s : State cfg} (I : Inv s) {u : Tid} {t : cfg.Ty} {code : Code (cfg.C t) (cfg.R t)}
    (hu : s.threads[u]? = some (.want t code)) (hl : s.lock (cfg.shard t) = none) {v v' : List (Dyn cfg)} {pos : Nat}
    (hv : s.shards[cfg.shard t]? = some v) (hg : getTypeMut v t = some (v', pos)) :
    Inv { s with shards := s.shards.set (cfg.shard t) v',
                 lock := fun j => if j = cfg.shard t then some u else s.lock j,
                 threads := s.threads.set u (.inside t code 0 code pos) } := by
  -- description of the new vector
  have hvec : (∃ c, v'[pos]? = some ⟨t, c⟩ ∧ (v[pos]? = some ⟨t, c⟩ ∨ (c = cfg.dflt t ∧ ∀ (a : Nat) x, v[a]? = some x → x.1 ≠ t))) ∧
      (∀ (a : Nat) x, v[a]? = some x → v'[a]? = some x) ∧
      (∀ (a : Nat) x, v'[a]? = some x → v[a]? = some x ∨ (x.1 = t ∧ a = pos ∧ v.length = pos ∧ x = ⟨t, cfg.dflt t⟩ ∧ ∀ (a : Nat) x, v[a]? = some x → x.1 ≠ t)) := by
    rcases getTypeMut_spec v t with ⟨p, c, h1, h2⟩ | ⟨h1, h2⟩
    · rw [h2] at hg
      cases hg
      exact ⟨⟨c, h1, .inl h1⟩, fun _ _ h => h, fun _ _ h => .inl h⟩
    · rw [h2] at hg
      cases hg
      refine ⟨⟨cfg.dflt t, by simp, .inr ⟨rfl, h1⟩⟩, fun _ _ h => snoc_left h, fun a x h => ?_⟩
      rcases snoc_cases h with h | ⟨rfl, rfl⟩
      · exact .inl h
      · exact .inr ⟨rfl, rfl, rfl, rfl, h1⟩
  obtain ⟨⟨c, hc, hc'⟩, hold, hnew⟩ := hvec
  have noin : ∀ (u' : Tid) t' orig n k p, s.threads[u']? = some (.inside t' orig n k p) → cfg.shard t' ≠ cfg.shard t := by
    intro u' t' orig n k p h e
    have := I.holder u' _ _ h (rfl : _ = some (cfg.shard t'))
    rw [e, hl] at this
    cases this
  have hkeep : ∀ j p t' c', Holds s j p t' c' → Holds { s with
      shards := s.shards.set (cfg.shard t) v', lock := fun j => if j = cfg.shard t then some u else s.lock j,
      threads := s.threads.set u (.inside t code 0 code pos) } j p t' c' := by
    intro j p t' c' h
    rw [Holds.set_iff hv]
    by_cases e : j = cfg.shard t
    · subst e
      obtain ⟨x, hx, hp⟩ := h
      rw [hv] at hx; cases hx
      exact .inl ⟨rfl, hold _ _ hp⟩
    · exact .inr ⟨e, h⟩
  constructor
  · simpa using I.len
  · intro i x a b y z hx ha hb e
    rcases set_cases hx with ⟨rfl, rfl⟩ | ⟨hne, hx⟩
    · rcases hnew _ _ ha with ha | ⟨ea, rfl, la, _, fa⟩ <;> rcases hnew _ _ hb with hb | ⟨eb, rfl, lb, _, fb⟩
      · exact I.uniq _ _ _ _ _ _ hv ha hb e
      · exact absurd (e.trans eb) (fb _ _ ha)
      · exact absurd (e.symm.trans ea) (fa _ _ hb)
      · rfl
    · exact I.uniq _ _ _ _ _ _ hx ha hb e
  · intro i x a y hx ha
    rcases set_cases hx with ⟨rfl, rfl⟩ | ⟨hne, hx⟩
    · rcases hnew _ _ ha with ha | ⟨ea, _⟩
      · exact I.place _ _ _ _ hv ha
      · rw [ea]
    · exact I.place _ _ _ _ hx ha
  · intro u' pc i hu' hi
    rcases set_cases hu' with ⟨rfl, rfl⟩ | ⟨hne, hu'⟩
    · cases hi; exact if_pos rfl
    · cases pc with
      | inside t' orig n k p =>
        cases hi
        simp only [if_neg (noin _ _ _ _ _ _ hu')]
        exact I.holder u' _ _ hu' rfl
      | _ => cases hi
  · intro i u' hl'
    by_cases e : i = cfg.shard t
    · subst e
      simp only [if_true] at hl'
      cases hl'
      exact ⟨_, set_self hu, rfl⟩
    · simp only [if_neg e] at hl'
      obtain ⟨pc, h1, h2⟩ := I.held i u' hl'
      have hne : u' ≠ u := fun e' => by rw [e', hu] at h1; cases h1; cases h2
      exact ⟨pc, by rw [set_other hne]; exact h1, h2⟩
  · intro u' t' orig n k p hu'
    rcases set_cases hu' with ⟨rfl, e⟩ | ⟨hne, hu'⟩
    · cases e
      refine ⟨c, c, (Holds.set_iff hv).mpr (.inl ⟨rfl, hc⟩), ?_, rfl⟩
      have hr := I.rest t (fun u' orig n k p h => noin _ _ _ _ _ _ h rfl)
      rcases hc' with hc' | ⟨rfl, hno⟩
      · exact hr.1 pos c ⟨v, hv, hc'⟩
      · exact hr.2 (fun p c' ⟨x, hx, hp⟩ => by rw [hv] at hx; cases hx; exact hno _ _ hp rfl)
    · obtain ⟨c', c0, h1, h2, h3⟩ := I.inside u' t' orig n k p hu'
      exact ⟨c', c0, hkeep _ _ _ _ h1, h2, h3⟩
  · intro t' ht'
    have ht : t' ≠ t := fun e => by
      subst e
      exact ht' u code 0 code pos (set_self hu)
    have hr := I.rest t' (fun u' orig n k p h => by
      have hne : u' ≠ u := fun e' => by rw [e', hu] at h; cases h
      exact ht' u' orig n k p (by rw [set_other hne]; exact h))
    refine ⟨fun p c' h => ?_, fun h => hr.2 (fun p c' h' => h p c' (hkeep _ _ _ _ h'))⟩
    rw [Holds.set_iff hv] at h
    rcases h with ⟨e, hp⟩ | ⟨hne, h⟩
    · rcases hnew _ _ hp with hp | ⟨ea, _⟩
      · exact hr.1 p c' ⟨v, by rw [e]; exact hv, hp⟩
      · exact absurd ea ht
    · exact hr.1 p c' h

theorem Inv.advance {s : State cfg} (I : Inv s) {u : Tid} {t : cfg.Ty} {orig : Code (cfg.C t) (cfg.R t)} {n pos : Nat}
    {f : cfg.C t → cfg.C t} {k : cfg.C t → Code (cfg.C t) (cfg.R t)}
    (hu : s.threads[u]? = some (.inside t orig n (.next f k) pos)) {v : List (Dyn cfg)} {c : cfg.C t}
    (hv : s.shards[cfg.shard t]? = some v) (hp : v[pos]? = some ⟨t, c⟩) :
    Inv { s with shards := s.shards.set (cfg.shard t) (v.set pos ⟨t, f c⟩),
                 threads := s.threads.set u (.inside t orig (n + 1) (k c) pos) } := by
  have types : ∀ (a : Nat) x, (v.set pos ⟨t, f c⟩)[a]? = some x → ∃ y, v[a]? = some y ∧ y.1 = x.1 := by
    intro a x h
    rcases set_cases h with ⟨rfl, rfl⟩ | ⟨_, h⟩
    · exact ⟨_, hp, rfl⟩
    · exact ⟨x, h, rfl⟩
  have same : ∀ (u' : Tid) t' o' n' k' p', s.threads[u']? = some (.inside t' o' n' k' p') → cfg.shard t' = cfg.shard t → u' = u := by
    intro u' t' o' n' k' p' h e
    exact I.sole h hu rfl (by rw [e]; rfl)
  have hkeep : ∀ j p t' c', t' ≠ t → (Holds { s with
      shards := s.shards.set (cfg.shard t) (v.set pos ⟨t, f c⟩),
      threads := s.threads.set u (.inside t orig (n + 1) (k c) pos) } j p t' c' ↔ Holds s j p t' c') := by
    intro j p t' c' hne
    rw [Holds.set_iff hv]
    constructor
    · rintro (⟨rfl, h⟩ | ⟨_, h⟩)
      · rcases set_cases h with ⟨rfl, e⟩ | ⟨_, h⟩
        · cases e; exact absurd rfl hne
        · exact ⟨v, hv, h⟩
      · exact h
    · intro h
      by_cases e : j = cfg.shard t
      · subst e
        obtain ⟨x, hx, hq⟩ := h
        rw [hv] at hx; cases hx
        refine .inl ⟨rfl, ?_⟩
        have : p ≠ pos := fun e => by
          rw [e, hp] at hq
          cases hq
          exact hne rfl
        rw [set_other this]; exact hq
      · exact .inr ⟨e, h⟩
  constructor
  · simpa using I.len
  · intro i x a b y z hx ha hb e
    rcases set_cases hx with ⟨rfl, rfl⟩ | ⟨_, hx⟩
    · obtain ⟨y', h1, e1⟩ := types _ _ ha
      obtain ⟨z', h2, e2⟩ := types _ _ hb
      exact I.uniq _ _ _ _ _ _ hv h1 h2 (by rw [e1, e2, e])
    · exact I.uniq _ _ _ _ _ _ hx ha hb e
  · intro i x a y hx ha
    rcases set_cases hx with ⟨rfl, rfl⟩ | ⟨_, hx⟩
    · obtain ⟨y', h1, e1⟩ := types _ _ ha
      rw [← e1]; exact I.place _ _ _ _ hv h1
    · exact I.place _ _ _ _ hx ha
  · intro u' pc i hu' hi
    rcases set_cases hu' with ⟨rfl, rfl⟩ | ⟨_, hu'⟩
    · cases hi; exact I.holder u' _ _ hu rfl
    · exact I.holder u' pc i hu' hi
  · intro i u' hl
    obtain ⟨pc, h1, h2⟩ := I.held i u' hl
    by_cases e : u' = u
    · subst e
      rw [hu] at h1
      cases h1; cases h2
      exact ⟨_, set_self hu, rfl⟩
    · exact ⟨pc, by rw [set_other e]; exact h1, h2⟩
  · intro u' t' o' n' k' p' hu'
    rcases set_cases hu' with ⟨rfl, e⟩ | ⟨hne, hu'⟩
    · cases e
      obtain ⟨c1, c0, h1, h2, h3⟩ := I.inside _ _ _ _ _ _ hu
      obtain ⟨x, hx, hq⟩ := h1
      rw [hv] at hx; cases hx
      rw [hp] at hq; cases hq
      exact ⟨f c, c0, (Holds.set_iff hv).mpr (.inl ⟨rfl, set_self hp⟩), h2, Code.steps_succ _ _ _ _ _ _ h3⟩
    · obtain ⟨c', c0, h1, h2, h3⟩ := I.inside u' t' _ _ _ _ hu'
      have : t' ≠ t := fun e => hne (same _ _ _ _ _ _ hu' (by rw [e]))
      exact ⟨c', c0, (hkeep _ _ _ _ this).mpr h1, h2, h3⟩
  · intro t' ht'
    have ht : t' ≠ t := fun e => by
      subst e
      exact ht' u _ _ _ _ (set_self hu)
    have hr := I.rest t' (fun u' o' n' k' p' h => by
      have hne : u' ≠ u := fun e' => by rw [e', hu] at h; cases h; exact ht rfl
      exact ht' u' o' n' k' p' (by rw [set_other hne]; exact h))
    exact ⟨fun p c' h => hr.1 p c' ((hkeep _ _ _ _ ht).mp h),
      fun h => hr.2 (fun p c' h' => h p c' ((hkeep _ _ _ _ ht).mpr h'))⟩

theorem Inv.finish {s : State cfg} (I : Inv s) {u : Tid} {t : cfg.Ty} {orig k : Code (cfg.C t) (cfg.R t)} {n pos : Nat}
    (hu : s.threads[u]? = some (.inside t orig n k pos)) (e : Entry (cfg.C t) (cfg.R t))
    (he : ∀ c c0, Replay (cfg.dflt t) (s.log t) c0 → orig.steps n c0 = (c, k) → Replay (cfg.dflt t) (e :: s.log t) c) :
    Inv (s.finish u t e) := by
  have same : ∀ (u' : Tid) t' o' n' k' p', s.threads[u']? = some (.inside t' o' n' k' p') → cfg.shard t' = cfg.shard t → u' = u := by
    intro u' t' o' n' k' p' h e
    exact I.sole h hu rfl (by rw [e]; rfl)
  constructor
  · exact I.len
  · exact I.uniq
  · exact I.place
  · intro u' pc i hu' hi
    rcases set_cases hu' with ⟨rfl, rfl⟩ | ⟨hne, hu'⟩
    · cases hi
    · cases pc with
      | inside t' o' n' k' p' =>
        cases hi
        have : cfg.shard t' ≠ cfg.shard t := fun e => hne (same _ _ _ _ _ _ hu' e)
        simp only [State.finish, if_neg this]
        exact I.holder u' _ _ hu' rfl
      | _ => cases hi
  · intro i u' hl
    simp only [State.finish] at hl ⊢
    by_cases e : i = cfg.shard t
    · simp [e] at hl
    · simp only [if_neg e] at hl
      obtain ⟨pc, h1, h2⟩ := I.held i u' hl
      have hne : u' ≠ u := fun e' => by
        rw [e', hu] at h1; cases h1; cases h2; exact e rfl
      exact ⟨pc, by rw [set_other hne]; exact h1, h2⟩
  · intro u' t' o' n' k' p' hu'
    rcases set_cases hu' with ⟨rfl, e⟩ | ⟨hne, hu'⟩
    · cases e
    · have : t ≠ t' := fun e => hne (same _ _ _ _ _ _ hu' (by rw [e]))
      obtain ⟨c, c0, h1, h2, h3⟩ := I.inside _ _ _ _ _ _ hu'
      exact ⟨c, c0, h1, by
        show Replay _ (s.setLog t e t') _
        rw [setLog_other s this]; exact h2, h3⟩
  · intro t' ht'
    by_cases ht : t = t'
    · subst ht
      obtain ⟨c, c0, h1, h2, h3⟩ := I.inside _ _ _ _ _ _ hu
      have hlog : (s.finish u t e).log t = e :: s.log t := setLog_same s t e
      rw [hlog]
      refine ⟨fun p c' h => ?_, fun h => absurd h1 (h pos c)⟩
      obtain ⟨v, hv, hq⟩ := h1
      obtain ⟨v', hv', hq'⟩ := h
      have hv' : s.shards[cfg.shard t]? = some v' := hv'
      rw [hv] at hv'
      cases hv'
      have := I.uniq _ _ _ _ _ _ hv hq hq' rfl
      subst this
      rw [hq] at hq'
      cases hq'
      exact he c c0 h2 h3
    · have hlog : (s.finish u t e).log t' = s.log t' := setLog_other s ht e
      rw [hlog]
      refine I.rest t' (fun u' o' n' k' p' h => ?_)
      have hne : u' ≠ u := fun e' => by rw [e', hu] at h; cases h; exact ht rfl
      exact ht' u' o' n' k' p' (by simp only [State.finish]; rw [set_other hne]; exact h)

/-- No step of the code panics by itself, and steps keep the invariant. -/
theorem Inv.step {s : State cfg} (I : Inv s) (a : Act cfg) :
    step s a = .blocked ∨ ∃ s', step s a = .ok s' ∧ Inv s' := by
  cases a with
  | spawn =>
    refine .inr ⟨_, rfl, I.outer (fun u t orig n k pos => ?_)⟩
    constructor
    · intro h
      rcases snoc_cases h with h | ⟨_, e⟩
      · exact h
      · cases e
    · exact snoc_left
  | call u t code =>
    simp only [TypeMap.step]
    cases hu : s.threads[u]? with
    | none => exact .inl rfl
    | some pc =>
      cases pc with
      | idle =>
        refine .inr ⟨_, rfl, I.outer (fun u' t' orig n k pos => ?_)⟩
        constructor
        · intro h
          rcases set_cases h with ⟨_, e⟩ | ⟨_, h⟩
          · cases e
          · exact h
        · intro h
          have hne : u' ≠ u := fun e' => by rw [e', hu] at h; cases h
          rw [set_other hne]; exact h
      | _ => exact .inl rfl
  | run u =>
    simp only [TypeMap.step]
    cases hu : s.threads[u]? with
    | none => exact .inl rfl
    | some pc =>
      simp only
      cases pc with
      | idle => exact .inl rfl
      | want t code =>
        simp only [run]
        have hlt : cfg.shard t < s.shards.length := by rw [I.len]; exact shardIndex_lt _ _
        rw [List.getElem?_eq_getElem hlt]
        simp only
        cases hl : s.lock (cfg.shard t) with
        | some w => exact .inl rfl
        | none =>
          simp only [Option.isSome_none, Bool.false_eq_true, if_false]
          have hv := List.getElem?_eq_getElem hlt
          have hg : ∃ v' pos, getTypeMut s.shards[cfg.shard t] t = some (v', pos) := by
            rcases getTypeMut_spec s.shards[cfg.shard t] t with ⟨p, c, _, h⟩ | ⟨_, h⟩ <;> exact ⟨_, _, h⟩
          obtain ⟨v', pos, hg⟩ := hg
          rw [hg]
          exact .inr ⟨_, rfl, I.acquire hu hl hv hg⟩
      | inside t orig n k pos =>
        obtain ⟨c, c0, ⟨v, hv, hp⟩, h2, h3⟩ := I.inside _ _ _ _ _ _ hu
        cases k with
        | ret r =>
          refine .inr ⟨_, rfl, I.finish hu _ (fun c c0 h h' => .ret h h')⟩
        | next f k =>
          simp only [run, hv, hp, downcast_mk]
          exact .inr ⟨_, rfl, I.advance hu hv hp⟩
  | panic u =>
    simp only [TypeMap.step]
    cases hu : s.threads[u]? with
    | none => exact .inl rfl
    | some pc =>
      cases pc with
      | inside t orig n k pos => exact .inr ⟨_, rfl, I.finish hu _ (fun c c0 h h' => .panic h h')⟩
      | _ => exact .inl rfl

theorem Reach.inv {s : State cfg} (h : Reach s) : Inv s := by
  induction h with
  | init => exact Inv.init
  | @step s s' a _ hs ih =>
    rcases ih.step a with e | ⟨s1, e, I⟩
    · rw [e] at hs; cases hs
    · rw [e] at hs; cases hs; exact I

end TypeMap
