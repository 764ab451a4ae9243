import Verif.Arc.Container
/-!
C14: one container per type (src/arc.rs `get_container`).
-/
namespace Cont
variable {Ty : Type} [DecidableEq Ty]

/-- The container registered for `ty`. -/
def registered (cfg : Cfg Ty) (s : St Ty) (ty : Ty) : Option CId :=
  if cfg.common ty then s.cells ty else look ty s.map

structure Inv (cfg : Cfg Ty) (s : St Ty) : Prop where
  typed : ∀ ty c, registered cfg s ty = some c → look c s.made = some ty
  res : ∀ ty c, (ty, c) ∈ s.results → registered cfg s ty = some c
  guard : ∀ ty c, Pc.guard ty c ∈ s.threads → registered cfg s ty = some c ∧ cfg.common ty = false
  ret : ∀ ty c, Pc.ret ty c ∈ s.threads → registered cfg s ty = some c
  vac : ∀ ty, Pc.vacant ty ∈ s.threads → look ty s.map = none ∧ cfg.common ty = false
  vac1 : ∀ (t u : Tid) (ty ty' : Ty), s.threads[t]? = some (.vacant ty) → s.threads[u]? = some (.vacant ty') →
    cfg.shard ty = cfg.shard ty' → t = u
  cell : ∀ ty, Pc.cellInit ty ∈ s.threads → s.cells ty = none ∧ cfg.common ty = true
  cell1 : ∀ (t u : Tid) (ty : Ty), s.threads[t]? = some (.cellInit ty) → s.threads[u]? = some (.cellInit ty) → t = u
  dyn : ∀ ty, (Pc.get ty ∈ s.threads ∨ Pc.entry ty ∈ s.threads ∨ Pc.outerInit ty ∈ s.threads) → cfg.common ty = false

theorem set_mem {α : Type} {l : List α} {t : Nat} {x y : α} (h : y ∈ l.set t x) : y = x ∨ y ∈ l :=
  (List.mem_or_eq_of_mem_set h).symm

theorem get_set {α : Type} {l : List α} {t u : Nat} {x y z : α} (ht : l[t]? = some z) (h : (l.set t x)[u]? = some y) :
    (u = t ∧ y = x) ∨ (u ≠ t ∧ l[u]? = some y) := by
  by_cases hut : u = t
  · subst hut
    rw [List.getElem?_set_self (by have := List.getElem?_eq_some_iff.mp ht; exact this.1)] at h
    left; exact ⟨rfl, by cases h; rfl⟩
  · rw [List.getElem?_set_ne (by omega)] at h
    exact Or.inr ⟨hut, h⟩

/-- A thread moves to a program counter with no obligations; nothing else changes. -/
theorem inv_at {cfg : Cfg Ty} {s : St Ty} (hI : Inv cfg s) {t : Tid} {pc0 pc : Pc Ty} (ht : s.threads[t]? = some pc0)
    (h1 : ∀ ty c, pc = .guard ty c → registered cfg s ty = some c ∧ cfg.common ty = false)
    (h2 : ∀ ty c, pc = .ret ty c → registered cfg s ty = some c)
    (h3 : ∀ ty, pc = .vacant ty → look ty s.map = none ∧ cfg.common ty = false ∧ wlocked cfg s (cfg.shard ty) = false)
    (h4 : ∀ ty, pc = .cellInit ty → s.cells ty = none ∧ cfg.common ty = true ∧ cellBusy s ty = false)
    (h5 : ∀ ty, pc = .get ty ∨ pc = .entry ty ∨ pc = .outerInit ty → cfg.common ty = false) :
    Inv cfg (s.at t pc) where
  typed := hI.typed
  res := hI.res
  guard := by
    intro ty c h
    rcases set_mem h with h | h
    · exact h1 ty c h.symm
    · exact hI.guard ty c h
  ret := by
    intro ty c h
    rcases set_mem h with h | h
    · exact h2 ty c h.symm
    · exact hI.ret ty c h
  vac := by
    intro ty h
    rcases set_mem h with h | h
    · exact ⟨(h3 ty h.symm).1, (h3 ty h.symm).2.1⟩
    · exact hI.vac ty h
  vac1 := by
    have busy : ∀ (w : Tid) (ty ty' : Ty), s.threads[w]? = some (.vacant ty') → cfg.shard ty' = cfg.shard ty →
        wlocked cfg s (cfg.shard ty) = true := by
      intro w ty ty' hw he
      simp only [wlocked, List.any_eq_true]
      exact ⟨_, List.mem_of_getElem? hw, by simpa using he⟩
    intro u w ty ty' hu hw he
    rcases get_set ht hu with ⟨rfl, e1⟩ | ⟨n1, hu'⟩ <;> rcases get_set ht hw with ⟨rfl, e2⟩ | ⟨n2, hw'⟩
    · rfl
    · have := (h3 ty e1.symm).2.2
      rw [busy w ty ty' hw' he.symm] at this; cases this
    · have := (h3 ty' e2.symm).2.2
      rw [busy u ty' ty hu' he] at this; cases this
    · exact hI.vac1 u w ty ty' hu' hw' he
  cell := by
    intro ty h
    rcases set_mem h with h | h
    · exact ⟨(h4 ty h.symm).1, (h4 ty h.symm).2.1⟩
    · exact hI.cell ty h
  cell1 := by
    have busy : ∀ (w : Tid) (ty : Ty), s.threads[w]? = some (.cellInit ty) → cellBusy s ty = true := by
      intro w ty hw
      simp only [cellBusy, List.any_eq_true]
      exact ⟨_, List.mem_of_getElem? hw, by simp⟩
    intro u w ty hu hw
    rcases get_set ht hu with ⟨rfl, e1⟩ | ⟨n1, hu'⟩ <;> rcases get_set ht hw with ⟨rfl, e2⟩ | ⟨n2, hw'⟩
    · rfl
    · have := (h4 ty e1.symm).2.2
      rw [busy w ty hw'] at this; cases this
    · have := (h4 ty e2.symm).2.2
      rw [busy u ty hu'] at this; cases this
    · exact hI.cell1 u w ty hu' hw'
  dyn := by
    intro ty h
    rcases h with h | h | h <;> rcases set_mem h with h | h
    · exact h5 ty (Or.inl h.symm)
    · exact hI.dyn ty (Or.inl h)
    · exact h5 ty (Or.inr (Or.inl h.symm))
    · exact hI.dyn ty (Or.inr (Or.inl h))
    · exact h5 ty (Or.inr (Or.inr h.symm))
    · exact hI.dyn ty (Or.inr (Or.inr h))

/-- A container is registered for a type that had none. -/
theorem inv_add {cfg : Cfg Ty} {s s' : St Ty} (hI : Inv cfg s) {t : Tid} {pc0 : Pc Ty} (ht : s.threads[t]? = some pc0)
    {ty0 : Ty} {a : CId} (hnew : registered cfg s ty0 = none) (ha : look a s.made = none)
    (hreg : ∀ ty, registered cfg s' ty = if ty = ty0 then some a else registered cfg s ty)
    (hmade : s'.made = (a, ty0) :: s.made)
    (hth : s'.threads = s.threads.set t (if cfg.common ty0 then .ret ty0 a else .guard ty0 a))
    (hres : s'.results = s.results)
    (hpc : pc0 = if cfg.common ty0 then .cellInit ty0 else .vacant ty0)
    (hcells : ∀ ty, (cfg.common ty = false ∨ ty ≠ ty0) → s'.cells ty = s.cells ty)
    (hmap : ∀ ty, (cfg.common ty = true ∨ ty ≠ ty0) → look ty s'.map = look ty s.map) : Inv cfg s' := by
  have keep : ∀ ty c, registered cfg s ty = some c → registered cfg s' ty = some c := by
    intro ty c h
    rw [hreg, if_neg]; exact h
    rintro rfl; rw [hnew] at h; cases h
  have mem : ∀ pc, pc ∈ s'.threads → pc = (if cfg.common ty0 then .ret ty0 a else .guard ty0 a) ∨
      ∃ u, u ≠ t ∧ s.threads[u]? = some pc := by
    intro pc h
    rw [hth] at h
    obtain ⟨u, hu⟩ := List.mem_iff_getElem?.mp h
    rcases get_set ht hu with ⟨_, e⟩ | ⟨n, h⟩
    · exact Or.inl e
    · exact Or.inr ⟨u, n, h⟩
  have mem' : ∀ u pc, s'.threads[u]? = some pc → (pc = (if cfg.common ty0 then .ret ty0 a else .guard ty0 a)) ∨
      (u ≠ t ∧ s.threads[u]? = some pc) := by
    intro u pc h
    rw [hth] at h
    rcases get_set ht h with ⟨_, e⟩ | ⟨n, h⟩
    · exact Or.inl e
    · exact Or.inr ⟨n, h⟩
  have hself : registered cfg s' ty0 = some a := by rw [hreg, if_pos rfl]
  constructor
  · intro ty c h
    rw [hreg] at h
    rw [hmade, look]
    by_cases hty : ty = ty0
    · subst hty; rw [if_pos rfl] at h; cases h; rw [if_pos rfl]
    · rw [if_neg hty] at h
      have := hI.typed ty c h
      rw [if_neg]; exact this
      rintro rfl; rw [ha] at this; cases this
  · intro ty c h; rw [hres] at h; exact keep ty c (hI.res ty c h)
  · intro ty c h
    rcases mem _ h with e | ⟨u, _, hu⟩
    · cases hc : cfg.common ty0 <;> simp only [hc, if_true] at e
      · cases e; exact ⟨hself, hc⟩
      · cases e
    · have := hI.guard ty c (List.mem_of_getElem? hu)
      exact ⟨keep ty c this.1, this.2⟩
  · intro ty c h
    rcases mem _ h with e | ⟨u, _, hu⟩
    · cases hc : cfg.common ty0 <;> simp only [hc, if_true] at e
      · cases e
      · cases e; exact hself
    · exact keep ty c (hI.ret ty c (List.mem_of_getElem? hu))
  · intro ty h
    rcases mem _ h with e | ⟨u, hne, hu⟩
    · cases hc : cfg.common ty0 <;> simp [hc] at e
    · have := hI.vac ty (List.mem_of_getElem? hu)
      refine ⟨?_, this.2⟩
      rw [hmap ty]; exact this.1
      right; rintro rfl
      rw [this.2] at hpc
      exact hne (hI.vac1 u t ty ty hu (by rw [ht, hpc]; rfl) rfl)
  · intro u w ty ty' hu hw he
    have key : ∀ (u : Tid) (ty : Ty), s'.threads[u]? = some (.vacant ty) → s.threads[u]? = some (.vacant ty) := by
      intro u ty h
      rcases mem' u _ h with e | ⟨_, h⟩
      · cases hc : cfg.common ty0 <;> simp [hc] at e
      · exact h
    exact hI.vac1 u w ty ty' (key u ty hu) (key w ty' hw) he
  · intro ty h
    rcases mem _ h with e | ⟨u, hne, hu⟩
    · cases hc : cfg.common ty0 <;> simp [hc] at e
    · have := hI.cell ty (List.mem_of_getElem? hu)
      refine ⟨?_, this.2⟩
      rw [hcells ty]; exact this.1
      right; rintro rfl
      rw [this.2] at hpc
      exact hne (hI.cell1 u t ty hu (by rw [ht, hpc]; rfl))
  · intro u w ty hu hw
    have key : ∀ (u : Tid) (ty : Ty), s'.threads[u]? = some (.cellInit ty) → s.threads[u]? = some (.cellInit ty) := by
      intro u ty h
      rcases mem' u _ h with e | ⟨_, h⟩
      · cases hc : cfg.common ty0 <;> simp [hc] at e
      · exact h
    exact hI.cell1 u w ty (key u ty hu) (key w ty hw)
  · intro ty h
    rcases h with h | h | h <;> rcases mem _ h with e | ⟨u, _, hu⟩
    · cases hc : cfg.common ty0 <;> simp [hc] at e
    · exact hI.dyn ty (Or.inl (List.mem_of_getElem? hu))
    · cases hc : cfg.common ty0 <;> simp [hc] at e
    · exact hI.dyn ty (Or.inr (Or.inl (List.mem_of_getElem? hu)))
    · cases hc : cfg.common ty0 <;> simp [hc] at e
    · exact hI.dyn ty (Or.inr (Or.inr (List.mem_of_getElem? hu)))

/-- A call returns. -/
theorem inv_ret {cfg : Cfg Ty} {s : St Ty} (hI : Inv cfg s) {t : Tid} {pc0 : Pc Ty} (ht : s.threads[t]? = some pc0)
    {ty : Ty} {c : CId} (h : registered cfg s ty = some c) :
    Inv cfg { s.at t .idle with results := (ty, c) :: s.results } := by
  have := inv_at (pc := .idle) hI ht (by simp) (by simp) (by simp) (by simp) (by simp)
  exact { typed := this.typed, guard := this.guard, ret := this.ret, vac := this.vac, vac1 := this.vac1, cell := this.cell,
          cell1 := this.cell1, dyn := this.dyn,
          res := by
            intro ty' c' h'
            rcases List.mem_cons.mp h' with e | h'
            · cases e; exact h
            · exact hI.res ty' c' h' }

theorem not_isSome {α : Type} {o : Option α} (h : ¬ o.isSome = true) : o = none := by cases o <;> simp_all

/-! ### Exclusion -/

/-- Has the thread obtained `ARC_CONTAINERS`? -/
def Past : Pc Ty → Prop
  | .get _ | .entry _ | .vacant _ | .guard _ _ => True
  | _ => False

/-- Who excludes whom. -/
structure Excl (cfg : Cfg Ty) (s : St Ty) : Prop where
  empty : s.outer = false → s.map = []
  past : ∀ pc ∈ s.threads, Past pc → s.outer = true
  outer : ∀ (t : Tid) (ty : Ty), s.threads[t]? = some (.outerInit ty) → s.outer = false
  outer1 : ∀ (t u : Tid) (ty ty' : Ty), s.threads[t]? = some (.outerInit ty) → s.threads[u]? = some (.outerInit ty') → t = u
  vac1 : ∀ (t u : Tid) (ty ty' : Ty), s.threads[t]? = some (.vacant ty) → s.threads[u]? = some (.vacant ty') →
    cfg.shard ty = cfg.shard ty' → t = u
  guard : ∀ (t u : Tid) (ty ty' : Ty) (c : CId), s.threads[t]? = some (.vacant ty) → s.threads[u]? = some (.guard ty' c) →
    cfg.shard ty ≠ cfg.shard ty'

omit [DecidableEq Ty] in
/-- One thread moves. -/
theorem excl_at {cfg : Cfg Ty} {s s' : St Ty} (hE : Excl cfg s) {t : Tid} {pc0 pc : Pc Ty} (ht : s.threads[t]? = some pc0)
    (hth : s'.threads = s.threads.set t pc)
    (hv : ∀ ty, pc = .vacant ty → wlocked cfg s (cfg.shard ty) = false ∧ rlocked cfg s (cfg.shard ty) = false)
    (hg : ∀ ty c, pc = .guard ty c → pc0 = .vacant ty ∨ wlocked cfg s (cfg.shard ty) = false)
    (ho : ∀ ty, pc = .outerInit ty → s.outer = false ∧ outerBusy s = false)
    (hp : Past pc → s'.outer = true) (hm : s'.outer = false → s'.map = [])
    (hout : s'.outer = s.outer ∨ s'.outer = true ∧ (∃ ty, pc0 = .outerInit ty) ∧ ∀ ty, pc ≠ .outerInit ty) : Excl cfg s' := by
  have wb : ∀ (w : Tid) (ty ty' : Ty), s.threads[w]? = some (.vacant ty') → cfg.shard ty' = cfg.shard ty →
      wlocked cfg s (cfg.shard ty) = true := by
    intro w ty ty' hw he
    simp only [wlocked, List.any_eq_true]
    exact ⟨_, List.mem_of_getElem? hw, by simpa using he⟩
  have rb : ∀ (w : Tid) (ty ty' : Ty) (c : CId), s.threads[w]? = some (.guard ty' c) → cfg.shard ty' = cfg.shard ty →
      rlocked cfg s (cfg.shard ty) = true := by
    intro w ty ty' c hw he
    simp only [rlocked, List.any_eq_true]
    exact ⟨_, List.mem_of_getElem? hw, by simpa using he⟩
  have ob : ∀ (w : Tid) (ty : Ty), s.threads[w]? = some (.outerInit ty) → outerBusy s = true := by
    intro w ty hw
    simp only [outerBusy, List.any_eq_true]
    exact ⟨_, List.mem_of_getElem? hw, rfl⟩
  constructor
  · exact hm
  · intro q hq hpq
    rw [hth] at hq
    rcases set_mem hq with rfl | hq
    · exact hp hpq
    · have := hE.past q hq hpq
      rcases hout with h | h
      · rw [h]; exact this
      · exact h.1
  · intro u ty hu
    rw [hth] at hu
    rcases get_set ht hu with ⟨rfl, e⟩ | ⟨n, hu⟩
    · rcases hout with h | h
      · rw [h]; exact (ho ty e.symm).1
      · exact absurd e.symm (h.2.2 ty)
    · rcases hout with h | ⟨_, ⟨ty', rfl⟩, _⟩
      · rw [h]; exact hE.outer u ty hu
      · exact absurd (hE.outer1 u t ty ty' hu ht) n
  · intro u w ty ty' hu hw
    rw [hth] at hu hw
    rcases get_set ht hu with ⟨rfl, e1⟩ | ⟨n1, hu'⟩ <;> rcases get_set ht hw with ⟨rfl, e2⟩ | ⟨n2, hw'⟩
    · rfl
    · have := (ho ty e1.symm).2
      rw [ob w ty' hw'] at this; cases this
    · have := (ho ty' e2.symm).2
      rw [ob u ty hu'] at this; cases this
    · exact hE.outer1 u w ty ty' hu' hw'
  · intro u w ty ty' hu hw he
    rw [hth] at hu hw
    rcases get_set ht hu with ⟨rfl, e1⟩ | ⟨n1, hu'⟩ <;> rcases get_set ht hw with ⟨rfl, e2⟩ | ⟨n2, hw'⟩
    · rfl
    · have := (hv ty e1.symm).1
      rw [wb w ty ty' hw' he.symm] at this; cases this
    · have := (hv ty' e2.symm).1
      rw [wb u ty' ty hu' he] at this; cases this
    · exact hE.vac1 u w ty ty' hu' hw' he
  · intro u w ty ty' c hu hw he
    rw [hth] at hu hw
    rcases get_set ht hu with ⟨rfl, e1⟩ | ⟨n1, hu'⟩ <;> rcases get_set ht hw with ⟨rfl, e2⟩ | ⟨n2, hw'⟩
    · rw [← e1] at e2; cases e2
    · have := (hv ty e1.symm).2
      rw [rb w ty ty' c hw' he.symm] at this; cases this
    · rcases hg ty' c e2.symm with rfl | h
      · exact n1 (hE.vac1 u w ty ty' hu' ht he)
      · rw [wb u ty' ty hu' he] at h; cases h
    · exact hE.guard u w ty ty' c hu' hw' he

theorem reach_excl {cfg : Cfg Ty} {s : St Ty} (h : Reach cfg s) : Excl cfg s := by
  induction h with
  | init => constructor <;> simp [init]
  | @step s s' a _ hst hE =>
    cases a with
    | spawn =>
      cases hst
      have getA : ∀ (t : Tid) pc, (s.threads ++ [Pc.idle])[t]? = some pc → pc = .idle ∨ s.threads[t]? = some pc := by
        intro t pc h
        by_cases hlt : t < s.threads.length
        · rw [List.getElem?_append_left hlt] at h; exact Or.inr h
        · rw [List.getElem?_append_right (Nat.le_of_not_lt hlt)] at h
          cases hk : t - s.threads.length with
          | zero => rw [hk] at h; left; simpa using h.symm
          | succ k => rw [hk] at h; simp at h
      constructor
      · exact hE.empty
      · intro pc hm hp
        rcases List.mem_append.mp hm with h | h
        · exact hE.past pc h hp
        · simp at h; subst h; exact hp.elim
      · intro t ty h; rcases getA _ _ h with h | h; cases h; exact hE.outer t ty h
      · intro t u ty ty' h1 h2
        rcases getA _ _ h1 with h1 | h1; cases h1
        rcases getA _ _ h2 with h2 | h2; cases h2
        exact hE.outer1 t u ty ty' h1 h2
      · intro t u ty ty' h1 h2
        rcases getA _ _ h1 with h1 | h1; cases h1
        rcases getA _ _ h2 with h2 | h2; cases h2
        exact hE.vac1 t u ty ty' h1 h2
      · intro t u ty ty' c h1 h2
        rcases getA _ _ h1 with h1 | h1; cases h1
        rcases getA _ _ h2 with h2 | h2; cases h2
        exact hE.guard t u ty ty' c h1 h2
    | call t ty =>
      simp only [step] at hst
      split at hst
      · rename_i ht
        cases hst
        exact excl_at hE ht rfl (by simp) (by simp) (by simp) (fun h => h.elim) hE.empty (Or.inl rfl)
      · cases hst
    | run t a =>
      simp only [step] at hst
      cases ht : s.threads[t]? with
      | none => simp [ht] at hst
      | some pc =>
        simp only [ht] at hst
        have hm := List.mem_of_getElem? ht
        cases pc with
        | idle => cases hst
        | start ty =>
          simp only [run] at hst
          by_cases hc : cfg.common ty = true
          · rw [if_pos hc] at hst
            cases hcell : s.cells ty with
            | some c =>
              simp only [hcell] at hst; cases hst
              exact excl_at hE ht rfl (by simp) (by simp) (by simp) (fun h => h.elim) hE.empty (Or.inl rfl)
            | none =>
              simp only [hcell] at hst
              by_cases hb : cellBusy s ty = true
              · rw [if_pos hb] at hst; cases hst
              · rw [if_neg hb] at hst; cases hst
                exact excl_at hE ht rfl (by simp) (by simp) (by simp) (fun h => h.elim) hE.empty (Or.inl rfl)
          · rw [if_neg hc] at hst
            by_cases ho : s.outer = true
            · rw [if_pos ho] at hst; cases hst
              exact excl_at hE ht rfl (by simp) (by simp) (by simp) (fun _ => ho) hE.empty (Or.inl rfl)
            · rw [if_neg ho] at hst
              by_cases hb : outerBusy s = true
              · rw [if_pos hb] at hst; cases hst
              · rw [if_neg hb] at hst; cases hst
                exact excl_at hE ht rfl (by simp) (by simp) (fun _ _ => ⟨by simpa using ho, by simpa using hb⟩)
                  (fun h => h.elim) hE.empty (Or.inl rfl)
        | cellInit ty =>
          simp only [run] at hst
          by_cases ha : (look a s.made).isSome = true
          · rw [if_pos ha] at hst; cases hst
          · rw [if_neg ha] at hst; cases hst
            exact excl_at hE ht rfl (by simp) (by simp) (by simp) (fun h => h.elim) hE.empty (Or.inl rfl)
        | outerInit ty =>
          cases hst
          exact excl_at hE ht rfl (by simp) (by simp) (by simp) (fun _ => rfl) (fun h => by cases h)
            (Or.inr ⟨rfl, ⟨ty, rfl⟩, by simp⟩)
        | get ty =>
          simp only [run] at hst
          have hpa := hE.past _ hm trivial
          by_cases hw : wlocked cfg s (cfg.shard ty) = true
          · rw [if_pos hw] at hst; cases hst
          · rw [if_neg hw] at hst
            cases hl : look ty s.map with
            | some c =>
              simp only [hl] at hst; cases hst
              refine excl_at hE ht rfl (by simp) ?_ (by simp) (fun _ => hpa) hE.empty (Or.inl rfl)
              intro ty' c' e; cases e; exact Or.inr (by simpa using hw)
            | none =>
              simp only [hl] at hst; cases hst
              exact excl_at hE ht rfl (by simp) (by simp) (by simp) (fun _ => hpa) hE.empty (Or.inl rfl)
        | entry ty =>
          simp only [run] at hst
          have hpa := hE.past _ hm trivial
          by_cases hw : (wlocked cfg s (cfg.shard ty) || rlocked cfg s (cfg.shard ty)) = true
          · rw [if_pos hw] at hst; cases hst
          · rw [if_neg hw] at hst
            simp only [Bool.or_eq_true, not_or, Bool.not_eq_true] at hw
            cases hl : look ty s.map with
            | some c =>
              simp only [hl] at hst; cases hst
              refine excl_at hE ht rfl (by simp) ?_ (by simp) (fun _ => hpa) hE.empty (Or.inl rfl)
              intro ty' c' e; cases e; exact Or.inr hw.1
            | none =>
              simp only [hl] at hst; cases hst
              refine excl_at hE ht rfl ?_ (by simp) (by simp) (fun _ => hpa) hE.empty (Or.inl rfl)
              intro ty' e; cases e; exact hw
        | vacant ty =>
          simp only [run] at hst
          have hpa := hE.past _ hm trivial
          by_cases ha : (look a s.made).isSome = true
          · rw [if_pos ha] at hst; cases hst
          · rw [if_neg ha] at hst; cases hst
            refine excl_at hE ht rfl (by simp) ?_ (by simp) (fun _ => hpa) ?_ (Or.inl rfl)
            · intro ty' c' e; cases e; exact Or.inl rfl
            · intro h; rw [show s.outer = false from h] at hpa; cases hpa
        | guard ty c =>
          simp only [run] at hst
          split at hst
          · cases hst
            exact excl_at hE ht rfl (by simp) (by simp) (by simp) (fun h => h.elim) hE.empty (Or.inl rfl)
          · cases hst
        | ret ty c =>
          cases hst
          exact excl_at hE ht rfl (by simp) (by simp) (by simp) (fun h => h.elim) hE.empty (Or.inl rfl)

theorem reach_inv {cfg : Cfg Ty} {s : St Ty} (h : Reach cfg s) : Inv cfg s := by
  induction h with
  | init => constructor <;> simp [init, registered, look]
  | @step s s' a hr hst hI =>
    cases a with
    | spawn =>
      cases hst
      have memA : ∀ pc, pc ∈ s.threads ++ [Pc.idle] → pc = .idle ∨ pc ∈ s.threads := by
        intro pc h; rcases List.mem_append.mp h with h | h
        · exact Or.inr h
        · simp at h; exact Or.inl h
      have getA : ∀ (t : Tid) pc, (s.threads ++ [Pc.idle])[t]? = some pc → pc = .idle ∨ s.threads[t]? = some pc := by
        intro t pc h
        by_cases hlt : t < s.threads.length
        · rw [List.getElem?_append_left hlt] at h; exact Or.inr h
        · rw [List.getElem?_append_right (Nat.le_of_not_lt hlt)] at h
          cases hk : t - s.threads.length with
          | zero => rw [hk] at h; left; simpa using h.symm
          | succ k => rw [hk] at h; simp at h
      constructor
      · exact hI.typed
      · exact hI.res
      · intro ty c h; rcases memA _ h with h | h; cases h; exact hI.guard ty c h
      · intro ty c h; rcases memA _ h with h | h; cases h; exact hI.ret ty c h
      · intro ty h; rcases memA _ h with h | h; cases h; exact hI.vac ty h
      · intro t u ty ty' h1 h2
        rcases getA _ _ h1 with h1 | h1; cases h1
        rcases getA _ _ h2 with h2 | h2; cases h2
        exact hI.vac1 t u ty ty' h1 h2
      · intro ty h; rcases memA _ h with h | h; cases h; exact hI.cell ty h
      · intro t u ty h1 h2
        rcases getA _ _ h1 with h1 | h1; cases h1
        rcases getA _ _ h2 with h2 | h2; cases h2
        exact hI.cell1 t u ty h1 h2
      · intro ty h
        apply hI.dyn ty
        rcases h with h | h | h <;> rcases memA _ h with h | h
        · cases h
        · exact Or.inl h
        · cases h
        · exact Or.inr (Or.inl h)
        · cases h
        · exact Or.inr (Or.inr h)
    | call t ty =>
      simp only [step] at hst
      split at hst
      · rename_i ht
        cases hst
        exact inv_at hI ht (by simp) (by simp) (by simp) (by simp) (by simp)
      · cases hst
    | run t a =>
      simp only [step] at hst
      cases ht : s.threads[t]? with
      | none => simp [ht] at hst
      | some pc =>
        simp only [ht] at hst
        have hm := List.mem_of_getElem? ht
        cases pc with
        | idle => cases hst
        | start ty =>
          simp only [run] at hst
          by_cases hc : cfg.common ty = true
          · rw [if_pos hc] at hst
            cases hcell : s.cells ty with
            | some c =>
              simp only [hcell] at hst; cases hst
              refine inv_at hI ht (by simp) ?_ (by simp) (by simp) (by simp)
              intro ty' c' e; cases e; simp [registered, hc, hcell]
            | none =>
              simp only [hcell] at hst
              by_cases hb : cellBusy s ty = true
              · rw [if_pos hb] at hst; cases hst
              · rw [if_neg hb] at hst; cases hst
                refine inv_at hI ht (by simp) (by simp) (by simp) ?_ (by simp)
                intro ty' e; cases e; exact ⟨hcell, hc, by simpa using hb⟩
          · rw [if_neg hc] at hst
            have hc' : cfg.common ty = false := by simpa using hc
            by_cases ho : s.outer = true
            · rw [if_pos ho] at hst; cases hst
              refine inv_at hI ht (by simp) (by simp) (by simp) (by simp) ?_
              intro ty' e; rcases e with e | e | e <;> cases e; exact hc'
            · rw [if_neg ho] at hst
              by_cases hb : outerBusy s = true
              · rw [if_pos hb] at hst; cases hst
              · rw [if_neg hb] at hst; cases hst
                refine inv_at hI ht (by simp) (by simp) (by simp) (by simp) ?_
                intro ty' e; rcases e with e | e | e <;> cases e; exact hc'
        | cellInit ty =>
          simp only [run] at hst
          by_cases ha : (look a s.made).isSome = true
          · rw [if_pos ha] at hst; cases hst
          · rw [if_neg ha] at hst; cases hst
            have hcl := hI.cell ty hm
            refine inv_add hI ht (ty0 := ty) (a := a) (by simp [registered, hcl]) (not_isSome ha) ?_ rfl
              (by simp [St.at, hcl.2]) rfl (by simp [hcl.2]) ?_ (fun _ _ => rfl)
            · intro ty'
              by_cases e : ty' = ty
              · subst e; simp [registered, St.at, hcl.2]
              · simp [registered, St.at, e]
            · intro ty' h
              have : ty' ≠ ty := by
                rcases h with h | h
                · rintro rfl; rw [hcl.2] at h; cases h
                · exact h
              simp [St.at, this]
        | outerInit ty =>
          cases hst
          have hd := hI.dyn ty (Or.inr (Or.inr hm))
          have := inv_at (pc := .get ty) hI ht (by simp) (by simp) (by simp) (by simp) (by
            intro ty' e; rcases e with e | e | e <;> cases e; exact hd)
          have hE := reach_excl hr
          rw [← hE.empty (hE.outer t ty ht)]
          exact ⟨this.typed, this.res, this.guard, this.ret, this.vac, this.vac1, this.cell, this.cell1, this.dyn⟩
        | get ty =>
          simp only [run] at hst
          have hd := hI.dyn ty (Or.inl hm)
          by_cases hw : wlocked cfg s (cfg.shard ty) = true
          · rw [if_pos hw] at hst; cases hst
          · rw [if_neg hw] at hst
            cases hl : look ty s.map with
            | some c =>
              simp only [hl] at hst; cases hst
              refine inv_at hI ht ?_ (by simp) (by simp) (by simp) (by simp)
              intro ty' c' e; cases e; simp [registered, hd, hl]
            | none =>
              simp only [hl] at hst; cases hst
              refine inv_at hI ht (by simp) (by simp) (by simp) (by simp) ?_
              intro ty' e; rcases e with e | e | e <;> cases e; exact hd
        | entry ty =>
          simp only [run] at hst
          have hd := hI.dyn ty (Or.inr (Or.inl hm))
          by_cases hw : (wlocked cfg s (cfg.shard ty) || rlocked cfg s (cfg.shard ty)) = true
          · rw [if_pos hw] at hst; cases hst
          · rw [if_neg hw] at hst
            cases hl : look ty s.map with
            | some c =>
              simp only [hl] at hst; cases hst
              refine inv_at hI ht ?_ (by simp) (by simp) (by simp) (by simp)
              intro ty' c' e; cases e; simp [registered, hd, hl]
            | none =>
              simp only [hl] at hst; cases hst
              refine inv_at hI ht (by simp) (by simp) ?_ (by simp) (by simp)
              intro ty' e; cases e
              simp only [Bool.or_eq_true, not_or, Bool.not_eq_true] at hw
              exact ⟨hl, hd, hw.1⟩
        | vacant ty =>
          simp only [run] at hst
          by_cases ha : (look a s.made).isSome = true
          · rw [if_pos ha] at hst; cases hst
          · rw [if_neg ha] at hst; cases hst
            have hvc := hI.vac ty hm
            refine inv_add hI ht (ty0 := ty) (a := a) (by simp [registered, hvc]) (not_isSome ha) ?_ rfl
              (by simp [St.at, hvc.2]) rfl (by simp [hvc.2]) (fun _ _ => rfl) ?_
            · intro ty'
              by_cases e : ty' = ty
              · subst e; simp [registered, St.at, hvc.2, look]
              · simp [registered, St.at, look, Ne.symm e, e]
            · intro ty' h
              have : ty ≠ ty' := by
                rcases h with h | h
                · rintro rfl; rw [hvc.2] at h; cases h
                · exact Ne.symm h
              simp [St.at, look, this]
        | guard ty c =>
          simp only [run] at hst
          split at hst
          · cases hst; exact inv_ret hI ht (hI.guard ty c hm).1
          · cases hst
        | ret ty c => cases hst; exact inv_ret hI ht (hI.ret ty c hm)

/-- C14 (a). All calls for one type that ever return, on any threads and at any time, return the same container. -/
theorem C14_same_container {cfg : Cfg Ty} {s : St Ty} (h : Reach cfg s) {ty : Ty} {c c' : CId}
    (h1 : (ty, c) ∈ s.results) (h2 : (ty, c') ∈ s.results) : c = c' := by
  have hI := reach_inv h
  have := hI.res _ _ h1
  rw [hI.res _ _ h2] at this; cases this; rfl

/-- C14 (b). Calls for different types return different containers. -/
theorem C14_distinct_containers {cfg : Cfg Ty} {s : St Ty} (h : Reach cfg s) {ty ty' : Ty} {c c' : CId}
    (h1 : (ty, c) ∈ s.results) (h2 : (ty', c') ∈ s.results) (hne : ty ≠ ty') : c ≠ c' := by
  rintro rfl
  have hI := reach_inv h
  have e1 := hI.typed _ _ (hI.res _ _ h1)
  have e2 := hI.typed _ _ (hI.res _ _ h2)
  rw [e1] at e2; cases e2; exact hne rfl

/-- C14 (c). The container obtained for `ty` is a container of `ty`s, and the `downcast_ref().unwrap()` never panics. -/
theorem C14_typed_no_panic {cfg : Cfg Ty} {s : St Ty} (h : Reach cfg s) :
    (∀ ty c, (ty, c) ∈ s.results → look c s.made = some ty) ∧ ∀ a : Act Ty, step cfg s a ≠ .panic := by
  have hI := reach_inv h
  refine ⟨fun ty c hr => hI.typed _ _ (hI.res _ _ hr), ?_⟩
  intro a ha
  cases a with
  | spawn => cases ha
  | call t ty => simp only [step] at ha; split at ha <;> cases ha
  | run t a =>
    simp only [step] at ha
    cases ht : s.threads[t]? with
    | none => simp [ht] at ha
    | some pc =>
      simp only [ht] at ha
      cases pc with
      | guard ty c =>
        have := hI.typed _ _ (hI.guard ty c (List.mem_of_getElem? ht)).1
        simp [run, this] at ha
      | idle => cases ha
      | outerInit ty => cases ha
      | ret ty c => cases ha
      | _ => simp only [run] at ha; repeat' split at ha
             all_goals cases ha

omit [DecidableEq Ty] in
/-- Fresh addresses exist. -/
theorem fresh (l : List (CId × Ty)) : ∃ a, look a l = none := by
  have main : ∃ n : Nat, ∀ a : Nat, n ≤ a → look a l = none := by
    induction l with
    | nil => exact ⟨0, fun _ _ => rfl⟩
    | cons e l ih =>
      obtain ⟨n, hn⟩ := ih
      refine ⟨n + e.1 + 1, fun a ha => ?_⟩
      rw [look, if_neg (by omega)]
      exact hn a (by omega)
  obtain ⟨n, hn⟩ := main
  exact ⟨n, hn n (Nat.le_refl n)⟩

/-- C14 (d). Looking containers up never deadlocks: if some thread is inside `get_container`, some thread can take a
step. -/
theorem C14_no_deadlock {cfg : Cfg Ty} {s : St Ty} (h : Reach cfg s) (hne : ∃ pc ∈ s.threads, pc ≠ .idle) :
    ∃ t a s', s.threads[t]? ≠ some .idle ∧ step cfg s (.run t a) = .ok s' := by
  have hI := reach_inv h
  obtain ⟨a, ha⟩ := fresh s.made
  -- a thread in the middle of something exclusive can always go on
  by_cases hx : ∃ pc ∈ s.threads, (match pc with | .idle | .start _ | .get _ | .entry _ => False | _ => True)
  · obtain ⟨pc, hm, hp⟩ := hx
    obtain ⟨t, ht⟩ := List.mem_iff_getElem?.mp hm
    refine ⟨t, a, ?_⟩
    cases pc with
    | idle | start _ | get _ | entry _ => exact hp.elim
    | cellInit ty | vacant ty => exact ⟨_, by simp [ht], by simp only [step, ht, run]; rw [ha]; rfl⟩
    | outerInit ty | ret ty c => exact ⟨_, by simp [ht], by simp only [step, ht, run]; rfl⟩
    | guard ty c =>
      have := hI.typed _ _ (hI.guard ty c hm).1
      exact ⟨_, by simp [ht], by simp only [step, ht, run]; rw [if_pos this]⟩
  · have hno : ∀ pc ∈ s.threads, (match pc with | .idle | .start _ | .get _ | .entry _ => True | _ => False) := by
      intro pc hm
      apply Classical.byContradiction
      intro hn; apply hx; refine ⟨pc, hm, ?_⟩
      cases pc <;> simp_all
    have hw : ∀ i, wlocked cfg s i = false := by
      intro i
      simp only [wlocked, List.any_eq_false]
      intro pc hm; have := hno pc hm; cases pc <;> simp_all
    have hr : ∀ i, rlocked cfg s i = false := by
      intro i
      simp only [rlocked, List.any_eq_false]
      intro pc hm; have := hno pc hm; cases pc <;> simp_all
    have hc : ∀ ty, cellBusy s ty = false := by
      intro ty
      simp only [cellBusy, List.any_eq_false]
      intro pc hm; have := hno pc hm; cases pc <;> simp_all
    have ho : outerBusy s = false := by
      simp only [outerBusy, List.any_eq_false]
      intro pc hm; have := hno pc hm; cases pc <;> simp_all
    obtain ⟨pc, hm, hpi⟩ := hne
    obtain ⟨t, ht⟩ := List.mem_iff_getElem?.mp hm
    have hp := hno pc hm
    refine ⟨t, a, ?_⟩
    cases pc with
    | idle => exact absurd rfl hpi
    | start ty =>
      cases hcm : cfg.common ty
      · cases hou : s.outer
        · exact ⟨_, by simp [ht], by simp [step, ht, run, hcm, hou, ho]; rfl⟩
        · exact ⟨_, by simp [ht], by simp [step, ht, run, hcm, hou]; rfl⟩
      · cases hcl : s.cells ty
        · exact ⟨_, by simp [ht], by simp [step, ht, run, hcm, hcl, hc]; rfl⟩
        · exact ⟨_, by simp [ht], by simp [step, ht, run, hcm, hcl]; rfl⟩
    | get ty =>
      cases hl : look ty s.map
      · exact ⟨_, by simp [ht], by simp [step, ht, run, hw, hl]; rfl⟩
      · exact ⟨_, by simp [ht], by simp [step, ht, run, hw, hl]; rfl⟩
    | entry ty =>
      cases hl : look ty s.map
      · exact ⟨_, by simp [ht], by simp [step, ht, run, hw, hr, hl]; rfl⟩
      · exact ⟨_, by simp [ht], by simp [step, ht, run, hw, hr, hl]; rfl⟩
    | cellInit _ | outerInit _ | vacant _ | guard _ _ | ret _ _ => exact hp.elim

/-- C14 (e). While a thread holds a reference into the table of containers (arc.rs:169, 177) no other thread changes the part of the
table that the reference points into, and no two threads change the same part at once. At most one thread creates the table, and only
if there is none; at most one thread creates the container of a common type, and only if there is none. -/
theorem C14_exclusive {cfg : Cfg Ty} {s : St Ty} (h : Reach cfg s) {t u : Tid} (hne : t ≠ u) :
    (∀ ty ty' c, s.threads[t]? = some (.vacant ty) → s.threads[u]? = some (.guard ty' c) → cfg.shard ty ≠ cfg.shard ty') ∧
    (∀ ty ty', s.threads[t]? = some (.vacant ty) → s.threads[u]? = some (.vacant ty') → cfg.shard ty ≠ cfg.shard ty') ∧
    (∀ ty, s.threads[t]? = some (.outerInit ty) → s.outer = false ∧ ∀ ty', s.threads[u]? ≠ some (.outerInit ty')) ∧
    (∀ ty, s.threads[t]? = some (.cellInit ty) → s.cells ty = none ∧ s.threads[u]? ≠ some (.cellInit ty)) := by
  have hE := reach_excl h
  have hI := reach_inv h
  exact ⟨fun ty ty' c h1 h2 => hE.guard t u ty ty' c h1 h2,
    fun ty ty' h1 h2 he => hne (hE.vac1 t u ty ty' h1 h2 he),
    fun ty h1 => ⟨hE.outer t ty h1, fun ty' h2 => hne (hE.outer1 t u ty ty' h1 h2)⟩,
    fun ty h1 => ⟨(hI.cell ty (List.mem_of_getElem? h1)).1, fun h2 => hne (hI.cell1 t u ty h1 h2)⟩⟩

/-! Example: two threads race for type 7, both miss in `get`, one inserts; a third thread asks for a common type. -/
def exCfg : Cfg Nat := { common := fun ty => ty == 0, shard := fun ty => ty % 4 }
def exec (s : St Nat) : List (Act Nat) → Option (St Nat)
  | [] => some s
  | a :: as => match step exCfg s a with
    | .ok s' => exec s' as
    | _ => none
theorem exec_reach : ∀ (as : List (Act Nat)) {s s' : St Nat}, Reach exCfg s → exec s as = some s' → Reach exCfg s'
  | [], s, s', h, e => by simp only [exec, Option.some.injEq] at e; exact e ▸ h
  | a :: as, s, s', h, e => by
    simp only [exec] at e
    cases hs : step exCfg s a with
    | ok s1 => simp only [hs] at e; exact exec_reach as (.step h hs) e
    | blocked => simp [hs] at e
    | panic => simp [hs] at e
def exTrace : List (Act Nat) :=
  [.spawn, .spawn, .spawn, .call 0 7, .call 1 7, .call 2 0, .run 0 0, .run 0 0, .run 1 0, .run 0 0, .run 1 0, .run 1 0,
   .run 1 100, .run 2 0, .run 2 101, .run 2 0, .run 1 0, .run 0 0, .run 0 0, .call 1 8, .run 1 0, .run 1 0, .run 1 0, .run 1 102, .run 1 0]
example : ∃ s, Reach exCfg s ∧ s.results = [(8, 102), (7, 100), (7, 100), (0, 101)] :=
  ⟨(exec init exTrace).getD init, by
    have h : (exec init exTrace).isSome = true := by decide
    obtain ⟨s, hs⟩ := Option.isSome_iff_exists.mp h
    rw [hs]; exact exec_reach _ .init hs, by decide⟩

/-! A thread inserts the container of type 7 while another one holds a reference into another part of the table, and a third one waits
for the latter. -/
def exTrace2 : List (Act Nat) :=
  [.spawn, .spawn, .spawn, .call 2 8, .run 2 0, .run 2 0, .run 2 0, .call 1 8, .run 1 0, .run 1 0, .run 1 0, .run 1 100,
   .call 0 7, .run 0 0, .run 0 0, .run 0 0]
example : ∃ s, Reach exCfg s ∧ s.threads[0]? = some (.vacant 7) ∧ s.threads[1]? = some (.guard 8 100) ∧
    s.threads[2]? = some (.entry 8) ∧ (match step exCfg s (.run 2 0) with | .blocked => true | _ => false) = true :=
  ⟨(exec init exTrace2).getD init, exec_reach exTrace2 .init rfl, by decide, by decide, by decide, by decide⟩

end Cont
