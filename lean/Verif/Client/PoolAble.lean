import Verif.Client.Able
import Verif.Client.PoolLaws
import Verif.Client.Many
import Verif.Src.PoolFair
/-
Calls of the interners whose handles are `Copy` can be carried through, one after the other (C92).
-/
namespace Src

/-- Functions that are not panicking do not begin to. -/
theorem Lang.run_calm (L : Lang) (hd : ∀ {m t g m' more f}, L.drop m t g = .ok (m', more, some f) → f.panicking = false) {m m' : L.Mem} {t : Arc.Tid} {a : Nat}
    {fs fs' : L.Stack} {r : Option L.Val} (h : L.run m t a fs = .ok (m', fs', r)) (hc : ∀ f ∈ fs, f.panicking = false) :
    ∀ f ∈ fs', f.panicking = false := by
  have stmt : ∀ {f f' : L.TFrame} {r : List L.TItem} {s : Stmt L.Var L.Op} {m' : L.Mem}, L.stmt m t a f r s = .ok (m', f') →
      f'.panicking = f.panicking := by
    intro f f' r s m' h
    cases s <;> simp only [Lang.stmt] at h <;> (try split at h) <;> cases h <;> rfl
  cases fs with
  | nil => cases h
  | cons f fs =>
    simp only [Lang.run] at h
    have h0 := hc f List.mem_cons_self
    have h1 : ∀ g ∈ fs, g.panicking = false := fun g hg => hc g (List.mem_cons_of_mem _ hg)
    split at h
    · split at h
      · cases h; exact fun _ h => nomatch h
      · cases h
        intro g hg
        rcases List.mem_cons.mp hg with rfl | hg
        · simp [h0, h1 _ List.mem_cons_self]
        · exact h1 g (List.mem_cons_of_mem _ hg)
    · split at h
      · rename_i callee hdr
        cases h
        intro g hg
        rcases List.mem_append.mp hg with hg | hg
        · cases callee with
          | none => cases hg
          | some f0 =>
            simp only [Option.toList_some, List.mem_singleton] at hg
            subst hg
            exact hd hdr
        · rcases List.mem_cons.mp hg with rfl | hg
          · exact h0
          · exact h1 g hg
      · cases h
      · cases h
    · split at h
      · cases h
        intro g hg
        rcases List.mem_cons.mp hg with rfl | hg
        · exact h0
        · exact h1 g hg
      · cases h
    · split at h <;> cases h <;> intro g hg <;> rcases List.mem_cons.mp hg with rfl | hg <;> first | exact h0 | exact h1 g hg
    · split at h
      · cases h
        intro g hg
        rcases List.mem_cons.mp hg with rfl | hg
        · exact h0
        · exact h1 g hg
      · split at h
        · rename_i hs
          cases h
          intro g hg
          rcases List.mem_cons.mp hg with rfl | hg
          · exact (stmt hs).trans h0
          · exact h1 g hg
        · cases h
        · cases h

end Src

/-! ### `Intern`, `ArenaIntern` -/

namespace Src.PoolCode
open Pool (Tid Ptr Query Cfg)
variable {K V : Type} [DecidableEq K] [BEq V] [Hashable V] [EquivBEq V] [LawfulHashable V] {cfg : Cfg K V}

/-- Only thread `t` is executing anything: call `c`. -/
structure Alone (S : State K V) (t : Tid) (c : Running K V) : Prop where
  this : S.threads[t]? = some [c]
  others : ∀ (u : Tid) (cs : List (Running K V)), S.threads[u]? = some cs → u ≠ t → cs = []

/-- Steps of thread `t`. Its call goes on. -/
inductive Goes (cfg : Cfg K V) (t : Tid) (S : State K V) : State K V → Prop
  | refl : Goes cfg t S S
  | step {S' S'' : State K V} {a : Nat} : Goes cfg t S S' → PoolCode.step cfg S' (.run t a) = .ok S'' → S''.hist = S'.hist → S''.gone = S'.gone →
      (∀ u, u ≠ t → S''.threads[u]? = S'.threads[u]?) → S''.threads[t]? ≠ some [] → Goes cfg t S S''

omit [EquivBEq V] [LawfulHashable V] in
theorem Goes.head {t : Tid} {S S' S'' : State K V} {a : Nat} (h1 : PoolCode.step cfg S (.run t a) = .ok S') (h2 : S'.hist = S.hist) (h3 : S'.gone = S.gone)
    (h4 : ∀ u, u ≠ t → S'.threads[u]? = S.threads[u]?) (h5 : S'.threads[t]? ≠ some []) (h : Goes cfg t S' S'') : Goes cfg t S S'' := by
  induction h with
  | refl => exact .step .refl h1 h2 h3 h4 h5
  | step _ k1 k2 k3 k4 k5 ih => exact .step ih k1 k2 k3 k4 k5

/-- A call that is alone comes to its end. -/
theorem Alone.ends (lay : cfg.Layout) {k : K} {v : V} {t : Tid} {q : Query V} {byRef : Bool} : ∀ (n : Nat) {S : State K V} {c : Running K V}, stateW S ≤ n →
    Reach cfg S → Alone S t c → c.call = .op (.intern k q v) byRef → c.frame.panicking = false → k ∉ S.gone →
    ∃ S1 S2 a c' p, Goes cfg t S S1 ∧ S1.threads[t]? = some [c'] ∧ step cfg S1 (.run t a) = .ok S2 ∧ S2.threads[t]? = some [] ∧ Quiet S2 ∧
      S2.hist = .ret ⟨c'.id, .intern k q v, .ptr p⟩ :: S1.hist := by
  intro n
  induction n with
  | zero =>
    intro S c hn hr h _ _ _
    obtain ⟨rest, p1, _, _, _⟩ := split_calls h.this
    have e1 : stateW S = frameW c.frame + callsW rest := callsW_perm p1
    have := frameW_pos c.frame
    omega
  | succ n ih =>
    intro S c hn hr h hc hp hk
    obtain ⟨s, h1, h2⟩ := hr.sim lay
    obtain ⟨a, hf⟩ := fresh_exists S
    obtain ⟨S', hs⟩ : ∃ S', step cfg S (.run t a) = .ok S' := by
      rcases h1.step_or_wait lay h2 h.this with hw | ⟨hl, hno⟩
      · exact hw a hf
      · obtain ⟨u, hu⟩ := Option.isSome_iff_exists.mp hl
        obtain ⟨ds, hd, d, hd', hi⟩ := h1.lock_of hu
        by_cases hut : u = t
        · subst hut
          rw [h.this] at hd; cases hd
          rcases List.mem_singleton.mp hd' with rfl
          rw [hno] at hi; cases hi
        · rw [h.others u ds hd hut] at hd'; cases hd'
    have hless := h1.run_less hs
    have hr' : Reach cfg S' := .step (act := .run t a) hr trivial hs
    have hs0 := hs
    simp only [step, h.this] at hs
    cases hrun : (lang cfg).run S.mem t a [c.frame] with
    | blocked => rw [hrun] at hs; cases hs
    | ub => rw [hrun] at hs; cases hs
    | ok d =>
      obtain ⟨m', fs', x⟩ := d
      have hcalm := (lang cfg).run_calm (by
        intro m t g m' more f hd
        cases g <;> simp only [drop] at hd <;> (try split at hd) <;> cases hd) hrun (by simpa using hp)
      rw [hrun] at hs
      cases fs' with
      | nil =>
        have hthr : S'.threads[t]? = some [] := by cases hs; exact Pool.getElem?_set_self' h.this
        obtain ⟨r, hret⟩ := C81_returns lay hr h.this hs0 hthr hc hp
        have hgone : S'.gone = S.gone := by cases hs; rfl
        obtain ⟨p, _, e, _⟩ := C81_handle_valid lay hr' (j := c.id) (k := k) (q := q) (v := v) (r := r) (by rw [Returned, hret]; exact List.mem_cons_self)
          (by rw [hgone]; exact hk)
        subst e
        refine ⟨S, S', a, c, p, .refl, h.this, hs0, hthr, ?_, hret⟩
        intro cs hcs
        obtain ⟨u, hu⟩ := List.mem_iff_getElem?.mp hcs
        by_cases hut : u = t
        · subst hut; rw [hthr] at hu; cases hu; rfl
        · have : S.threads[u]? = some cs := by
            cases hs; rwa [List.getElem?_set_ne (Ne.symm hut)] at hu
          exact h.others u cs this hut
      | cons f fs' =>
        have hthr : S'.threads[t]? = some [{ c with frame := f }] := by cases hs; exact Pool.getElem?_set_self' h.this
        have hoth : ∀ u, u ≠ t → S'.threads[u]? = S.threads[u]? := by
          intro u hut; cases hs; exact List.getElem?_set_ne (Ne.symm hut)
        have hgone : S'.gone = S.gone := by cases hs; rfl
        have hhist : S'.hist = S.hist := by cases hs; rfl
        obtain ⟨S1, S2, a', c', p, g1, g2, g3, g4, g5, g6⟩ := ih (by omega) hr'
          ⟨hthr, fun u cs hu hut => h.others u cs (by rw [← hoth u hut]; exact hu) hut⟩ hc (hcalm f List.mem_cons_self) (by rw [hgone]; exact hk)
        exact ⟨S1, S2, a', c', p, .head hs0 hhist hgone hoth (by rw [hthr]; simp) g1, g2, g3, g4, g5, g6⟩

/-- A call in a quiet state. -/
theorem Quiet.call (lay : cfg.Layout) {S : State K V} (hr : Reach cfg S) (hq : Quiet S) {t : Tid} (ht : S.threads[t]? = some []) {k : K} (hk : k ∉ S.gone)
    (v : V) : ∃ S0 S1 S2 a c p, step cfg S (.call t (.intern k (.ofVal v) v) false) = .ok S0 ∧ S0.gone = S.gone ∧ (∀ e, Returned S e → Returned S0 e) ∧
      Goes cfg t S0 S1 ∧ S1.threads[t]? = some [c] ∧ step cfg S1 (.run t a) = .ok S2 ∧ S2.threads[t]? = some [] ∧ Quiet S2 ∧
      S2.hist = .ret ⟨c.id, .intern k (.ofVal v) v, .ptr p⟩ :: S1.hist := by
  obtain ⟨f, hf, hp⟩ : ∃ f, start cfg (.intern k (.ofVal v) v) false = some f ∧ f.panicking = false := by
    simp only [start]
    split <;> exact ⟨_, rfl, rfl⟩
  let S0 : State K V := { S with
    mem := { S.mem with born := taken (.intern k (.ofVal v) v) false ++ S.mem.born }
    threads := S.threads.set t ({ id := S.next, call := .op (.intern k (.ofVal v) v) false, frame := f } :: [])
    next := S.next + 1
    hist := .call S.next (.intern k (.ofVal v) v) :: S.hist }
  have hs : step cfg S (.call t (.intern k (.ofVal v) v) false) = .ok S0 := by
    simp only [step, ht, hf]
    rw [if_pos]
    simp [canCall, Pool.Op.pool, hk]
  obtain ⟨S1, S2, a, c', p, g1, g2, g3, g4, g5, g6⟩ := Alone.ends lay (stateW S0) (S := S0) (Nat.le_refl _) (.step (act := .call t (.intern k (.ofVal v) v) false) hr (Pool.lawful_new k v) hs)
    ⟨Pool.getElem?_set_self' ht, fun u cs hu hut => by
      have hu : (S.threads.set t _)[u]? = some cs := hu
      rw [List.getElem?_set_ne (Ne.symm hut)] at hu
      exact hq cs (List.mem_of_getElem? hu)⟩ rfl hp hk
  exact ⟨S0, S1, S2, a, c', p, hs, rfl, fun e he => List.mem_cons_of_mem _ he, g1, g2, g3, g4, g5, g6⟩

end Src.PoolCode

namespace Client
open Pool (Ptr Query)
variable {K V : Type} [DecidableEq K] [BEq V] [Hashable V]

theorem Goes.path {cfg : Pool.Cfg K V} {ks : K → Prop} {t : Tid} {n : K × Ptr → Nat} {S S' : Src.PoolCode.State K V} (h : Src.PoolCode.Goes cfg t S S')
    (ho : (pools cfg ks).Owns S n) : Path (pools cfg ks) t True n S S' ∧ (pools cfg ks).Owns S' n := by
  induction h with
  | refl => exact ⟨.refl, ho⟩
  | @step S1 S2 a _ h1 h2 h3 h4 h5 ih =>
    obtain ⟨g1, g2⟩ := ih
    have ho2 : (pools cfg ks).Owns S2 n := by
      refine ⟨fun k hk => by rw [h3]; exact g2.1 k hk, fun p hp => ?_⟩
      obtain ⟨k1, j, q, v, k2⟩ := g2.2 p hp
      exact ⟨k1, j, q, v, by rw [Src.PoolCode.Returned, h2]; exact k2⟩
    refine ⟨.step g1 ⟨.run t a, trivial, h1⟩ (fun u hu => ?_) (fun _ => h5) ho2, ho2⟩
    show _ = _ ↔ _ = _
    rw [h4 u hu]

variable [EquivBEq V] [LawfulHashable V]

theorem pools_able {cfg : Pool.Cfg K V} (lay : cfg.Layout) {ks : K → Prop} (N : Nat) :
    Able (pools cfg ks) N (fun x => ks x.1) fun _ S => Src.PoolCode.Quiet S where
  perm h _ := h
  news {l S t x} hr hq _ hx ho hi := by
    obtain ⟨S0, S1, S2, a, c, p, g1, g2, g3, g4, g5, g6, g7, g8, g9⟩ := hq.call lay hr hi (ho.1 x.1 hx) x.2
    have ho0 : (pools cfg ks).Owns S0 (copies l) := by
      refine ⟨fun k hk => by rw [g2]; exact ho.1 k hk, fun p hp => ?_⟩
      obtain ⟨k1, j, q, v, k2⟩ := ho.2 p hp
      exact ⟨k1, j, q, v, g3 _ k2⟩
    exact ⟨S0, S1, (x.1, p), S2, ⟨hx, hi, _, _, Pool.lawful_new x.1 x.2, g1⟩, ho0, (Goes.path g4 ho0).1, ⟨hx, c, a, _, _, g5, g6, g7, g9⟩, g8⟩
  clones _ hq _ _ _ hi := ⟨_, ⟨hi, rfl⟩, hq⟩
  drops _ hq _ hi := ⟨_, _, ⟨hi, rfl⟩, .refl, hi, hq⟩

end Client
