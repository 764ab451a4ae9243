import Verif.Client.PoolAble
/-
Calls of the `Intern` of typearena.rs can be carried through, one after the other, if the mutexes of the types are not poisoned (C92).
-/
namespace Src.NewCode
open Pool (Tid Ptr Query)
variable {K V : Type} [DecidableEq K] [BEq V] [Hashable V] {cfg : Cfg K V}

/-- A function that finds a poisoned mutex. -/
theorem Pre.poisoned {m : Mem K V} {o : Pool.Op K V} {byRef : Bool} {l : List (K × V)} {f : Fr K V} (h : Pre cfg m o byRef l f)
    (hr : NewCode.refused cfg m f = true) : ∃ d, firstCell cfg m o.pool = some d ∧ d.poisoned = true := by
  cases h with
  | start hc => cases hr
  | miss hc => cases hr
  | push hc => cases hr
  | again hc h1 h2 => cases hr
  | @refused l f h1 h2 h3 =>
    obtain ⟨scs, items, ex, r, pn⟩ := f
    simp only at h1 h2 h3
    subst h1 h2
    cases h3 <;> cases hr
  | @found x body y body' j J pos hc hJ hf =>
    have hr : (panics m [[(.v, some (.cell (cfg.shard o.pool) pos))], bot j (some x)] (.lock .v) : Option (Scopes Var (Val K V) × List (Glue K V))).isSome = true := hr
    obtain ⟨d, h1, h2, h3⟩ := hf.cell
    refine ⟨d, h3, ?_⟩
    simp only [panics, Scopes.get, scopeGet, if_true, h1] at hr
    split at hr
    · rename_i e
      simp only [Bool.and_eq_true] at e
      exact e.2
    · cases hr

variable [EquivBEq V] [LawfulHashable V]

theorem Reach.not_refused (lay : cfg.Layout) {N : State K V} (h : Reach cfg N) {t : Tid} {c : Running K V} {cs : List (Running K V)}
    (ht : N.threads[t]? = some (c :: cs)) (hp : ¬ Poisoned cfg N c.op.pool) : refused cfg N.mem c.frame = false := by
  obtain ⟨S, num, Ls, D, h1, h2⟩ := h.nsim lay
  obtain ⟨ps, L, hps, hL, hst⟩ := h1.stacks t _ ht
  cases hst with
  | @pre _ _ _ l L g1 g2 g3 g4 g5 =>
    cases hr : refused cfg N.mem c.frame with
    | false => rfl
    | true =>
      obtain ⟨d, k1, k2⟩ := g1.poisoned hr
      exact absurd ⟨d, k1, k2⟩ hp
  | @post _ _ p ps _ pos g1 g2 g3 g4 g5 g6 g7 => exact g2.refused _

/-- A step poisons nothing if no call is panicking. -/
theorem Reach.stays_clean (lay : cfg.Layout) {N N' : State K V} (h : Reach cfg N) {act : Act K V} (hs : NewCode.step cfg N act = .ok N')
    (hc : ∀ (t : Tid) (c : Running K V) (cs : List (Running K V)), N.threads[t]? = some (c :: cs) → c.frame.panicking = false) {k : K} (hk : ¬ Poisoned cfg N k) : ¬ Poisoned cfg N' k := by
  rintro ⟨d', h1, h2⟩
  cases hd : tableOf cfg N k with
  | none =>
    have := (C86_new_table lay h hs hd h1).2.2
    rw [h2] at this; cases this
  | some d =>
    obtain ⟨d'', g1, g2⟩ := C86_poison_rule lay h hs hd
    rw [h1] at g1; cases g1
    rcases g2.mp h2 with g | ⟨_, t, c, cs, _, g, _, g', _⟩
    · exact hk ⟨d, hd, g⟩
    · rw [hc t c cs g] at g'; cases g'

/-- Only thread `t` is executing anything: call `c`. -/
structure Alone (S : State K V) (t : Tid) (c : Running K V) : Prop where
  this : S.threads[t]? = some [c]
  others : ∀ (u : Tid) (cs : List (Running K V)), S.threads[u]? = some cs → u ≠ t → cs = []

/-- Steps of thread `t`. Its call goes on. -/
inductive Goes (cfg : Cfg K V) (t : Tid) (S : State K V) : State K V → Prop
  | refl : Goes cfg t S S
  | step {S' S'' : State K V} {a : Nat} : Goes cfg t S S' → NewCode.step cfg S' (.run t a) = .ok S'' → S''.hist = S'.hist →
      (∀ u, u ≠ t → S''.threads[u]? = S'.threads[u]?) → S''.threads[t]? ≠ some [] → Goes cfg t S S''

omit [EquivBEq V] [LawfulHashable V] in
theorem Goes.head {t : Tid} {S S' S'' : State K V} {a : Nat} (h1 : NewCode.step cfg S (.run t a) = .ok S') (h2 : S'.hist = S.hist)
    (h4 : ∀ u, u ≠ t → S'.threads[u]? = S.threads[u]?) (h5 : S'.threads[t]? ≠ some []) (h : Goes cfg t S' S'') : Goes cfg t S S'' := by
  induction h with
  | refl => exact .step .refl h1 h2 h4 h5
  | step _ k1 k2 k4 k5 ih => exact .step ih k1 k2 k4 k5

/-- A call that is alone comes to its end. -/
theorem Alone.ends (lay : cfg.Layout) {ks : K → Prop} {k : K} {v : V} {t : Tid} {q : Query V} : ∀ (n : Nat) {S : State K V} {c : Running K V}, stateW S ≤ n →
    Reach cfg S → Alone S t c → c.op = .intern k q v → c.frame.panicking = false → ks k → (∀ k, ks k → ¬ Poisoned cfg S k) →
    ∃ S1 S2 a c' p, Goes cfg t S S1 ∧ S1.threads[t]? = some [c'] ∧ step cfg S1 (.run t a) = .ok S2 ∧ S2.threads[t]? = some [] ∧ Quiet S2 ∧
      (∀ k, ks k → ¬ Poisoned cfg S2 k) ∧ S2.hist = .ret ⟨c'.id, .intern k q v, .ptr p⟩ :: S1.hist := by
  intro n
  induction n with
  | zero =>
    intro S c hn hr h _ _ _ _
    have h1 := stateW_pop (N' := { S with threads := S.threads.set t [] }) h.this rfl
    omega
  | succ n ih =>
    intro S c hn hr h hc hp hk hpo
    obtain ⟨a, S', hs⟩ : ∃ a S', step cfg S (.run t a) = .ok S' := by
      rcases hr.step_or_wait lay h.this with hw | ⟨⟨d, hd, hl⟩, hno⟩
      · exact hw
      · obtain ⟨u, hu⟩ := Option.isSome_iff_exists.mp hl
        obtain ⟨pos, _, hcell⟩ := firstCell_first hd
        obtain ⟨ds, hd, d, hd', hi, _⟩ := hr.lock_of lay hcell hu
        by_cases hut : u = t
        · subst hut
          rw [h.this] at hd; cases hd
          rcases List.mem_singleton.mp hd' with rfl
          rw [hno] at hi; cases hi
        · rw [h.others u ds hd hut] at hd'; cases hd'
    have hless := hr.run_less lay hs
    have hr' : Reach cfg S' := .step (act := .run t a) hr trivial hs
    have hpo' : ∀ k, ks k → ¬ Poisoned cfg S' k := fun k hk => hr.stays_clean lay hs (fun u d ds hu => by
      by_cases hut : u = t
      · subst hut; rw [h.this] at hu; cases hu; exact hp
      · cases h.others u _ hu hut) (hpo k hk)
    have hs0 := hs
    simp only [step, h.this] at hs
    rw [hr.not_refused lay h.this (by rw [hc]; exact hpo k hk)] at hs
    simp only [Bool.false_eq_true, if_false] at hs
    cases hrun : (lang cfg).run (S.seen [c]) t a [c.frame] with
    | blocked => rw [hrun] at hs; cases hs
    | ub => rw [hrun] at hs; cases hs
    | ok d =>
      obtain ⟨m', fs', x⟩ := d
      have hcalm := (lang cfg).run_calm (by
        intro m t g m' more f hd
        cases g <;> simp only [drop] at hd <;> (try split at hd) <;> cases hd) hrun (by simpa using hp)
      rw [hrun] at hs
      cases fs' with
      | nil =>
        have hthr : S'.threads[t]? = some [] := by cases hs; exact Pool.getElem?_set_self' h.this
        obtain ⟨r, hret⟩ := hr.returns lay h.this hs0 hthr hp
        rw [hc] at hret
        obtain ⟨p, _, e, _⟩ := C86_handle_valid lay hr' (j := c.id) (k := k) (q := q) (v := v) (r := r) (by rw [Returned, hret]; exact List.mem_cons_self)
        subst e
        refine ⟨S, S', a, c, p, .refl, h.this, hs0, hthr, ?_, hpo', hret⟩
        intro cs hcs
        obtain ⟨u, hu⟩ := List.mem_iff_getElem?.mp hcs
        by_cases hut : u = t
        · subst hut; rw [hthr] at hu; cases hu; rfl
        · have : S.threads[u]? = some cs := by
            cases hs; rwa [List.getElem?_set_ne (Ne.symm hut)] at hu
          exact h.others u cs this hut
      | cons f fs' =>
        have hthr : S'.threads[t]? = some [{ c with frame := f }] := by cases hs; exact Pool.getElem?_set_self' h.this
        have hoth : ∀ u, u ≠ t → S'.threads[u]? = S.threads[u]? := by
          intro u hut; cases hs; exact List.getElem?_set_ne (Ne.symm hut)
        have hhist : S'.hist = S.hist := by cases hs; rfl
        obtain ⟨S1, S2, a', c', p, g1, g2, g3, g4, g5, g6, g7⟩ := ih (by omega) hr'
          ⟨hthr, fun u cs hu hut => h.others u cs (by rw [← hoth u hut]; exact hu) hut⟩ hc (hcalm f List.mem_cons_self) hk hpo'
        exact ⟨S1, S2, a', c', p, .head hs0 hhist hoth (by rw [hthr]; simp) g1, g2, g3, g4, g5, g6, g7⟩

/-- A call in a quiet state. -/
theorem Quiet.call (lay : cfg.Layout) {S : State K V} (hr : Reach cfg S) (hq : Quiet S) {ks : K → Prop} (hpo : ∀ k, ks k → ¬ Poisoned cfg S k) {t : Tid}
    (ht : S.threads[t]? = some []) {k : K} (hk : ks k) (v : V) :
    ∃ S0 S1 S2 a c p, step cfg S (.call t (.intern k (.ofVal v) v) false false) = .ok S0 ∧ (∀ e, Returned S e → Returned S0 e) ∧
      Goes cfg t S0 S1 ∧ S1.threads[t]? = some [c] ∧ step cfg S1 (.run t a) = .ok S2 ∧ S2.threads[t]? = some [] ∧ Quiet S2 ∧
      (∀ k, ks k → ¬ Poisoned cfg S2 k) ∧ S2.hist = .ret ⟨c.id, .intern k (.ofVal v) v, .ptr p⟩ :: S1.hist := by
  obtain ⟨f, hf, hp⟩ : ∃ f, start cfg (.intern k (.ofVal v) v) false = some f ∧ f.panicking = false := ⟨_, rfl, rfl⟩
  let S0 : State K V := { S with
    mem := { S.mem with born := taken (.intern k (.ofVal v) v) false ++ S.mem.born }
    threads := S.threads.set t ({ id := S.next, op := .intern k (.ofVal v) v, byRef := false, unw := false, frame := f } :: [])
    next := S.next + 1
    hist := .call S.next (.intern k (.ofVal v) v) :: S.hist }
  have hs : step cfg S (.call t (.intern k (.ofVal v) v) false false) = .ok S0 := by
    simp only [step, ht, hf]
    rw [if_pos (show canCall cfg ([] : List (Running K V)) = true from rfl)]
  obtain ⟨S1, S2, a, c', p, g1, g2, g3, g4, g5, g6, g7⟩ := Alone.ends lay (ks := ks) (stateW S0) (S := S0) (Nat.le_refl _)
    (.step (act := .call t (.intern k (.ofVal v) v) false false) hr (Pool.lawful_new k v) hs)
    ⟨Pool.getElem?_set_self' ht, fun u cs hu hut => by
      have hu : (S.threads.set t _)[u]? = some cs := hu
      rw [List.getElem?_set_ne (Ne.symm hut)] at hu
      exact hq cs (List.mem_of_getElem? hu)⟩ rfl hp hk hpo
  exact ⟨S0, S1, S2, a, c', p, hs, fun e he => List.mem_cons_of_mem _ he, g1, g2, g3, g4, g5, g6, g7⟩

end Src.NewCode

namespace Client
open Pool (Ptr Query)
variable {K V : Type} [DecidableEq K] [BEq V] [Hashable V]

theorem NewGoes.path {cfg : Src.NewCode.Cfg K V} {t : Tid} {n : K × Ptr → Nat} {S S' : Src.NewCode.State K V} (h : Src.NewCode.Goes cfg t S S')
    (ho : (newInterns cfg).Owns S n) : Path (newInterns cfg) t True n S S' ∧ (newInterns cfg).Owns S' n := by
  induction h with
  | refl => exact ⟨.refl, ho⟩
  | @step S1 S2 a _ h1 h2 h4 h5 ih =>
    obtain ⟨g1, g2⟩ := ih
    have ho2 : (newInterns cfg).Owns S2 n := by
      intro p hp
      obtain ⟨j, q, v, k2⟩ := g2 p hp
      exact ⟨j, q, v, by rw [Src.NewCode.Returned, h2]; exact k2⟩
    refine ⟨.step g1 ⟨.run t a, trivial, h1⟩ (fun u hu => ?_) (fun _ => h5) ho2, ho2⟩
    show _ = _ ↔ _ = _
    rw [h4 u hu]

variable [EquivBEq V] [LawfulHashable V]

theorem newInterns_able {cfg : Src.NewCode.Cfg K V} (lay : cfg.Layout) (ks : K → Prop) (N : Nat) :
    Able (newInterns cfg) N (fun x => ks x.1) fun _ S => Src.NewCode.Quiet S ∧ ∀ k, ks k → ¬ Src.NewCode.Poisoned cfg S k where
  perm h _ := h
  news {l S t x} hr hq _ hx ho hi := by
    obtain ⟨S0, S1, S2, a, c, p, g1, g3, g4, g5, g6, g7, g8, g8', g9⟩ := hq.1.call lay hr hq.2 hi hx x.2
    have ho0 : (newInterns cfg).Owns S0 (copies l) := by
      intro p hp
      obtain ⟨j, q, v, k2⟩ := ho p hp
      exact ⟨j, q, v, g3 _ k2⟩
    exact ⟨S0, S1, (x.1, p), S2, ⟨hi, _, _, _, Pool.lawful_new x.1 x.2, g1⟩, ho0, (NewGoes.path g4 ho0).1, ⟨c, a, _, _, g5, g6, g7, g9⟩, g8, g8'⟩
  clones _ hq _ _ _ hi := ⟨_, ⟨hi, rfl⟩, hq⟩
  drops _ hq _ hi := ⟨_, _, ⟨hi, rfl⟩, .refl, hi, hq⟩

end Client
