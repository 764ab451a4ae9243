import Verif.Pool.Inv
namespace Pool
variable {K V : Type} [DecidableEq K] [BEq V] [Hashable V]

section
variable {cfg : Cfg K V} {s : State K V}

theorem getElem?_set_cases {α : Type} {l : List α} {t u : Nat} {x y : α} (h : (l.set t x)[u]? = some y) :
    (u = t ∧ y = x) ∨ (u ≠ t ∧ l[u]? = some y) := by
  rw [List.getElem?_set] at h
  split at h
  · rename_i e
    split at h
    · injection h with h
      exact .inl ⟨e.symm, h.symm⟩
    · cases h
  · rename_i e
    exact .inr ⟨fun e' => e e'.symm, h⟩

theorem getElem?_set_self' {α : Type} {l : List α} {t : Nat} {x y : α} (h : l[t]? = some x) :
    (l.set t y)[t]? = some y := by
  rw [List.getElem?_set]
  have : t < l.length := (List.getElem?_eq_some_iff.mp h).1
  simp [this]

theorem getElem?_set_other {α : Type} {l : List α} {t u : Nat} {x y : α} (h : l[u]? = some y) (hu : u ≠ t) :
    (l.set t x)[u]? = some y := by
  rw [List.getElem?_set, if_neg (fun e => hu e.symm)]
  exact h

theorem countP_set {α : Type} (f : α → Bool) {l : List α} {t : Nat} {x y : α} (h : l[t]? = some x) :
    (l.set t y).countP f + (if f x then 1 else 0) = l.countP f + (if f y then 1 else 0) := by
  induction l generalizing t with
  | nil => cases h
  | cons a l ih =>
    cases t with
    | zero =>
      simp only [List.getElem?_cons_zero, Option.some.injEq] at h
      subst h
      simp only [List.set_cons_zero, List.countP_cons]
      omega
    | succ t =>
      simp only [List.getElem?_cons_succ] at h
      have := ih h
      simp only [List.set_cons_succ, List.countP_cons]
      omega

/-- Two threads do not hold the same lock. -/
theorem Inv.excl (I : Inv cfg s) {t u : Tid} {pc pc' : Pc K V} {i : Nat} (h : s.threads[t]? = some pc)
    (h' : s.threads[u]? = some pc') (hi : pc.holds cfg = some i) (hi' : pc'.holds cfg = some i) : u = t := by
  have a := I.holder t pc i h hi
  have b := I.holder u pc' i h' hi'
  rw [a] at b
  exact (Option.some.inj b).symm

theorem not_insert_count {k : K} {p : Ptr} {t : Tid} {pc pc' : Pc K V} (h : s.threads[t]? = some pc)
    (n : ∀ k p, pc.isInsert k p = false) (n' : ∀ k p, pc'.isInsert k p = false) :
    (s.threads.set t pc').countP (Pc.isInsert k p) = s.threads.countP (Pc.isInsert k p) := by
  have := countP_set (Pc.isInsert k p) h (y := pc')
  rw [n, n'] at this
  simpa using this

/-- A thread moves on without touching anything shared. -/
theorem Inv.pc (I : Inv cfg s) {t : Tid} {pc pc' : Pc K V} (h : s.threads[t]? = some pc)
    (hh : pc'.holds cfg = pc.holds cfg) (hok : PcOk s pc')
    (hal : ∀ k, pc'.pool? = some k → k ∉ s.gone)
    (n : ∀ k p, pc.isInsert k p = false) (n' : ∀ k p, pc'.isInsert k p = false) :
    Inv cfg (s.at t pc') where
  holder u pu i hu hi := by
    rcases getElem?_set_cases hu with ⟨rfl, rfl⟩ | ⟨hne, hu'⟩
    · exact I.holder u pc i h (hh ▸ hi)
    · exact I.holder u pu i hu' hi
  held i u hu := by
    obtain ⟨pu, h1, h2⟩ := I.held i u hu
    by_cases e : u = t
    · subst e
      rw [h] at h1
      injection h1 with h1
      subst h1
      exact ⟨pc', getElem?_set_self' h, hh ▸ h2⟩
    · exact ⟨pu, getElem?_set_other h1 e, h2⟩
  shape := I.shape
  addrs := I.addrs
  mem := I.mem
  pcs u pu hu := by
    rcases getElem?_set_cases hu with ⟨rfl, rfl⟩ | ⟨hne, hu'⟩
    · exact hok
    · exact I.pcs u pu hu'
  alive u pu k hu hk := by
    rcases getElem?_set_cases hu with ⟨rfl, rfl⟩ | ⟨hne, hu'⟩
    · exact hal k hk
    · exact I.alive u pu k hu' hk
  tab := I.tab
  goneTab := I.goneTab
  vals := I.vals
  seq := I.seq
  owned k hk p := by
    show _ = _ + (s.threads.set t pc').countP _
    rw [not_insert_count h n n']
    exact I.owned k hk p
  goneOwned := I.goneOwned

/-- A thread leaves its critical section. -/
theorem Inv.unlocked (I : Inv cfg s) {t : Tid} {pc : Pc K V} {i : Nat} (h : s.threads[t]? = some pc)
    (hi : pc.holds cfg = some i) (n : ∀ k p, pc.isInsert k p = false) :
    Inv cfg ((s.unlock i).at t .idle) where
  holder u pu j hu hj := by
    rcases getElem?_set_cases hu with ⟨rfl, rfl⟩ | ⟨hne, hu'⟩
    · cases hj
    · show (if j = i then none else s.lock j) = _
      by_cases e : j = i
      · subst e
        exact absurd (I.excl h hu' hi hj) hne
      · rw [if_neg e]
        exact I.holder u pu j hu' hj
  held j u hu := by
    have hu' : (if j = i then none else s.lock j) = some u := hu
    by_cases e : j = i
    · rw [if_pos e] at hu'; cases hu'
    · rw [if_neg e] at hu'
      obtain ⟨pu, h1, h2⟩ := I.held j u hu'
      by_cases e' : u = t
      · subst e'
        rw [h] at h1
        injection h1 with h1
        subst h1
        rw [hi] at h2
        injection h2 with h2
        exact absurd h2.symm e
      · exact ⟨pu, getElem?_set_other h1 e', h2⟩
  shape := I.shape
  addrs := I.addrs
  mem := I.mem
  pcs u pu hu := by
    rcases getElem?_set_cases hu with ⟨rfl, rfl⟩ | ⟨hne, hu'⟩
    · exact True.intro
    · exact I.pcs u pu hu'
  alive u pu k hu hk := by
    rcases getElem?_set_cases hu with ⟨rfl, rfl⟩ | ⟨hne, hu'⟩
    · cases hk
    · exact I.alive u pu k hu' hk
  tab := I.tab
  goneTab := I.goneTab
  vals := I.vals
  seq := I.seq
  owned k hk p := by
    show _ = _ + (s.threads.set t .idle).countP _
    rw [not_insert_count h n (fun _ _ => rfl)]
    exact I.owned k hk p
  goneOwned := I.goneOwned

/-- A thread takes its lock. -/
theorem Inv.locked (I : Inv cfg s) {t : Tid} {o : Op K V} (h : s.threads[t]? = some (.want o))
    (hi : s.lock (cfg.lockOf o.pool) = none) :
    Inv cfg ({ s with lock := fun j => if j = cfg.lockOf o.pool then some t else s.lock j }.at t (.inside o)) where
  holder u pu j hu hj := by
    show (if j = cfg.lockOf o.pool then some t else s.lock j) = _
    rcases getElem?_set_cases hu with ⟨rfl, rfl⟩ | ⟨hne, hu'⟩
    · injection hj with hj
      rw [if_pos hj.symm]
    · have := I.holder u pu j hu' hj
      by_cases e : j = cfg.lockOf o.pool
      · rw [e, hi] at this; cases this
      · rw [if_neg e]; exact this
  held j u hu := by
    have hu' : (if j = cfg.lockOf o.pool then some t else s.lock j) = some u := hu
    by_cases e : j = cfg.lockOf o.pool
    · rw [if_pos e] at hu'
      injection hu' with hu'
      subst hu'
      exact ⟨_, getElem?_set_self' h, by rw [e]; rfl⟩
    · rw [if_neg e] at hu'
      obtain ⟨pu, h1, h2⟩ := I.held j u hu'
      by_cases e' : u = t
      · subst e'
        rw [h] at h1
        injection h1 with h1
        subst h1
        cases h2
      · exact ⟨pu, getElem?_set_other h1 e', h2⟩
  shape := I.shape
  addrs := I.addrs
  mem := I.mem
  pcs u pu hu := by
    rcases getElem?_set_cases hu with ⟨rfl, rfl⟩ | ⟨hne, hu'⟩
    · exact I.pcs u (.want o) h
    · exact I.pcs u pu hu'
  alive u pu k hu hk := by
    rcases getElem?_set_cases hu with ⟨rfl, rfl⟩ | ⟨hne, hu'⟩
    · exact I.alive u (.want o) k h hk
    · exact I.alive u pu k hu' hk
  tab := I.tab
  goneTab := I.goneTab
  vals := I.vals
  seq := I.seq
  owned k hk p := by
    show _ = _ + (s.threads.set t (.inside o)).countP _
    rw [not_insert_count h (fun _ _ => rfl) (fun _ _ => rfl)]
    exact I.owned k hk p
  goneOwned := I.goneOwned

/-- A call takes effect without changing the pool. -/
theorem Inv.commit (I : Inv cfg s) {t : Tid} {pc : Pc K V} {o : Op K V} {r : Ret} (h : s.threads[t]? = some pc)
    (hh : pc.holds cfg = some (cfg.lockOf o.pool)) (hok : PcOk s (.leave o r)) (hal : o.pool ∉ s.gone)
    (n : ∀ k p, pc.isInsert k p = false) (hc : Correct s.log o r)
    (hs : ∀ k, interned (⟨t, o, r⟩ :: s.log) k = interned s.log k) :
    Inv cfg (s.commit t o r) :=
  have J := I.pc (pc' := .leave o r) h hh.symm hok (fun k hk => by cases hk; exact hal) n (fun _ _ => rfl)
  { holder := J.holder, held := J.held, shape := J.shape, addrs := J.addrs, mem := J.mem, pcs := J.pcs
    alive := J.alive
    tab := fun k hk => by rw [show (s.commit t o r).log = ⟨t, o, r⟩ :: s.log from rfl, hs]; exact I.tab k hk
    goneTab := J.goneTab
    vals := fun k hk => by rw [show (s.commit t o r).log = ⟨t, o, r⟩ :: s.log from rfl, hs]; exact I.vals k hk
    seq := ⟨hc, I.seq⟩
    owned := J.owned, goneOwned := J.goneOwned }

/-- The values stored in a live pool are those of the history. -/
theorem Inv.stored (I : Inv cfg s) (lay : cfg.Layout) {k : K} (hk : k ∉ s.gone) {p : Ptr} {x : V} :
    (p ∈ s.table k ∧ ⟨k, p, x⟩ ∈ s.heap) ↔ (p, x) ∈ interned s.log k := by
  constructor
  · rintro ⟨h1, h2⟩
    rw [I.tab k hk] at h1
    obtain ⟨y, hy, e⟩ := List.mem_map.mp h1
    have := I.vals k hk y hy
    rw [e] at this
    have := same_val lay I.shape I.addrs this h2
    subst this
    subst e
    exact hy
  · intro h
    refine ⟨?_, I.vals k hk _ h⟩
    rw [I.tab k hk]
    exact List.mem_map.mpr ⟨_, h, rfl⟩

end
end Pool
