import Verif.Src.ArcNestSim
import Verif.Props.ArcCalls
import Verif.Src.ArcMain
/-
Every step with calls inside calls is a step of the model.
-/
namespace Src.ArcNest
open Arc (Addr Tid Cell Cfg Res Thread Pc)
open Src.ArcCode (Var Val Op Glue Mem Stack frameMentions lang Sim Rel Winds It handlesOf deallocsOf dying wind result Removing newCode dropCode)

variable {V : Type} [BEq V] [Hashable V] {cfg : Cfg V} {can : List (Running V) → Bool}

/-! ### Moving handles between a client and the fields of a value -/

omit [BEq V] [Hashable V] in
theorem wind_take (e : Bool) {p : Addr} : ∀ {l : List (It V)} {scs : Scopes Var (Val V)} {G : List (Glue V)}, p ∈ fields l → wind cfg e scs l = some G →
    G.all Glue.soft = true → ∃ G', wind cfg e scs (takeField p l) = some G' ∧ G'.all Glue.soft = true ∧
      (∀ q, (handlesOf G).count q = (handlesOf G').count q + if q = p then 1 else 0) ∧ deallocsOf (takeField p l) = deallocsOf l := by
  intro l
  induction l with
  | nil => intro scs G h; cases h
  | cons i l ih =>
    intro scs G h hw hG
    cases i with
    | glue g =>
      cases g with
      | handle b =>
        rw [ArcCode.wind_glue, Option.map_eq_some_iff] at hw
        obtain ⟨G1, hw, rfl⟩ := hw
        simp only [List.all_cons, Bool.and_eq_true] at hG
        have hh : handlesOf (.handle b :: G1) = b :: handlesOf G1 := rfl
        by_cases e' : b = p
        · subst e'
          refine ⟨G1, by simpa [takeField] using hw, hG.2, fun q => ?_, by simp [takeField, deallocsOf]⟩
          rw [hh, List.count_cons]
          by_cases hq : q = b
          · simp [hq]
          · have : ¬ b = q := fun h => hq h.symm
            simp [hq, this]
        · have hp : p ∈ fields l := by
            simp only [fields, List.mem_cons] at h
            exact h.resolve_left (fun h => e' h.symm)
          obtain ⟨G', a1, a2, a3, a4⟩ := ih hp hw hG.2
          refine ⟨.handle b :: G', ?_, ?_, fun q => ?_, ?_⟩
          · simp only [takeField, if_neg e']
            rw [ArcCode.wind_glue, a1]; rfl
          · simp only [List.all_cons, a2, Bool.and_true]; rfl
          · have : handlesOf (.handle b :: G') = b :: handlesOf G' := rfl
            rw [hh, this, List.count_cons, List.count_cons, a3 q]; omega
          · simp only [takeField, if_neg e']
            simpa [deallocsOf] using a4
      | _ => cases h
    | _ => cases h

omit [BEq V] [Hashable V] in
/-- A function that runs a destructor is on its way out. -/
theorem value_leave {f : Frame Var (Val V) Op (Glue V)} {fs : Stack V} {th : Thread V} {v : V} {l : List (It V)} (h : Rel cfg (f :: fs) th)
    (hi : f.items = .glue (.value v) :: l) : ∃ G r arg, th = ⟨.idle, handlesOf G, r, arg⟩ ∧ Winds cfg (f :: fs) (.value v :: G) r ∧
      G.all Glue.soft = true := by
  have key : ∀ {G : List (Glue V)} {r : Option Addr}, Winds cfg (f :: fs) G r → ∃ G', G = .value v :: G' := by
    intro G r hw
    obtain ⟨g, G', e, h1, _⟩ := hw.tail
    rw [hi, ArcCode.wind_glue, Option.map_eq_some_iff] at h1
    obtain ⟨g1, _, rfl⟩ := h1
    exact ⟨_, e⟩
  cases h with
  | @leave _ G r arg hw hG =>
    obtain ⟨G', rfl⟩ := key hw
    refine ⟨G', r, arg, rfl, hw, ?_⟩
    simpa [Glue.soft] using hG
  | destroy hw _ => obtain ⟨_, e⟩ := key hw; cases e
  | unlock hw _ => obtain ⟨_, e⟩ := key hw; cases e
  | drop hA => cases hA <;> cases hi
  | new hA => cases hA <;> first | (cases hi; done) | (simp [ArcCode.found, ArcCode.missing, ArcCode.rest, ArcCode.after] at hi; done)

/-! ### One step of the code without nesting -/

theorem code_step [EquivBEq V] [LawfulHashable V] (hv : cfg.Valid) {S S' : ArcCode.State V} {s : Arc.State V} (h : Sim cfg S s)
    (hI : Arc.Inv cfg s) {act : ArcCode.Act V} (hsane : act.Sane) (e : ArcCode.step cfg S act = .ok S') (hf : ArcCode.Few cfg S') :
    ∃ s' o, Sim cfg S' s' ∧ Arc.Inv cfg s' ∧ (s' = s ∧ act.Silent ∧ o = none ∨ Arc.step cfg s act.model = .ok s' ∧ o = Arc.effect cfg s act.model) ∧
      Arc.SpecRun (Arc.abs cfg s) o.toList (Arc.abs cfg s') ∧ (¬ ArcCode.dropPanic S act → s.zombies = [] → s'.zombies = []) ∧
      ∀ p ∈ s.table, Arc.deref s' p = Arc.deref s p := by
  obtain ⟨s', h1, h2⟩ := (ArcCode.sim_step h (fun a ha => (Arc.step_kept hv hI ha).1) act hsane).2 S' e
  rcases h2 with ⟨rfl, g⟩ | ⟨act', a1, a2, a3, rfl⟩
  · exact ⟨s', none, h1, hI, .inl ⟨rfl, g, rfl⟩, .done, fun _ h => h, fun _ _ => rfl⟩
  · refine ⟨s', _, h1, (Arc.step_kept hv hI a1).2 s' a2 (h1.small hf), .inr ⟨a2, rfl⟩, ?_, fun hnd hz => ?_, fun p hp => Arc.step_data hI a1 a2 hp⟩
    · have := Arc.step_abs hI a1 a2
      cases he : Arc.effect cfg s act.model with
      | none => rw [he] at this; exact .stutter this .done
      | some o => rw [he] at this; exact .op this .done
    · rcases Arc.step_zombies a2 with e | ⟨t, th, b, e, g1, g2, _⟩
      · exact e.trans hz
      · exact absurd (a3 (by rw [e]; exact ⟨th, b, g1, g2⟩)) hnd

/-! ### Running a call -/

theorem stmt_panicking {m m' : Mem V} {j a : Nat} {f f' : Frame Var (Val V) Op (Glue V)} {r : List (It V)} {s : Stmt Var Op}
    (h : (lang cfg).stmt m j a f r s = .ok (m', f')) : f'.panicking = f.panicking := by
  cases s <;> simp only [Lang.stmt] at h <;> (repeat' split at h) <;>
    first | (cases h; done) | (injection h with h; injection h with _ h; subst h; rfl)

/-- The end of a call. -/
theorem run_end {m m' : Mem V} {j a : Nat} {fs : Stack V} {r : Option (Val V)} (h : (lang cfg).run m j a fs = .ok (m', [], r)) :
    ∃ f, fs = [f] ∧ f.items = [] ∧ r = f.ret ∧ m' = m := by
  cases fs with
  | nil => cases h
  | cons f fs =>
    cases hi : f.items with
    | nil =>
      cases fs with
      | nil => simp only [Lang.run, hi, Res.ok.injEq, Prod.mk.injEq, true_and] at h; exact ⟨f, rfl, hi, h.2.symm, h.1.symm⟩
      | cons g gs => simp only [Lang.run, hi, Res.ok.injEq, Prod.mk.injEq] at h; exact absurd h.2.1 (by simp)
    | cons i l =>
      exfalso
      cases i <;> simp only [Lang.run, hi] at h <;> (repeat' split at h) <;>
        first | (cases h; done) | (injection h with h; injection h with _ h; injection h with h _; simp at h)

/-- A call that goes on: it remembers that it has panicked, and it returns nothing. -/
theorem run_on {m m' : Mem V} {j a : Nat} {fs fs' : Stack V} {f' : Frame Var (Val V) Op (Glue V)} {r : Option (Val V)}
    (h : (lang cfg).run m j a fs = .ok (m', f' :: fs', r)) :
    r = none ∧ (fs.any (·.panicking) = true → (f' :: fs').any (·.panicking) = true) := by
  cases fs with
  | nil => cases h
  | cons f fs =>
    cases hi : f.items with
    | nil =>
      cases fs with
      | nil => simp only [Lang.run, hi, Res.ok.injEq, Prod.mk.injEq] at h; exact absurd h.2.1 (by simp)
      | cons g gs =>
        simp only [Lang.run, hi, Res.ok.injEq, Prod.mk.injEq, List.cons.injEq] at h
        obtain ⟨_, ⟨rfl, rfl⟩, rfl⟩ := h
        refine ⟨rfl, ?_⟩
        simp only [List.any_cons, Bool.or_eq_true]
        rintro (h | h | h)
        · exact .inl (.inr h)
        · exact .inl (.inl h)
        · exact .inr h
    | cons i l =>
      cases i with
      | glue g =>
        simp only [Lang.run, hi] at h
        split at h
        · rename_i m1 more callee _
          simp only [Res.ok.injEq, Prod.mk.injEq] at h
          obtain ⟨_, h2, rfl⟩ := h
          refine ⟨rfl, fun hp => ?_⟩
          rw [← h2, List.any_append]
          have : (({ f with items := more.map .glue ++ l } :: fs : Stack V).any (·.panicking)) = true := hp
          rw [Bool.or_eq_true]; exact .inr this
        · cases h
        · cases h
      | close =>
        simp only [Lang.run, hi] at h
        split at h
        · simp only [Res.ok.injEq, Prod.mk.injEq] at h
          obtain ⟨_, h2, rfl⟩ := h
          exact ⟨rfl, fun hp => by rw [← h2]; exact hp⟩
        · cases h
      | again b =>
        simp only [Lang.run, hi] at h
        split at h <;>
        · simp only [Res.ok.injEq, Prod.mk.injEq] at h
          obtain ⟨_, h2, rfl⟩ := h
          exact ⟨rfl, fun hp => by rw [← h2]; exact hp⟩
      | stmt s =>
        simp only [Lang.run, hi] at h
        split at h
        · simp only [Res.ok.injEq, Prod.mk.injEq] at h
          obtain ⟨_, h2, rfl⟩ := h
          exact ⟨rfl, fun hp => by rw [← h2]; exact hp⟩
        · split at h
          · rename_i m1 f1 hst
            simp only [Res.ok.injEq, Prod.mk.injEq] at h
            obtain ⟨_, h2, rfl⟩ := h
            refine ⟨rfl, fun hp => ?_⟩
            rw [← h2]
            simp only [List.any_cons] at hp ⊢
            rw [stmt_panicking hst]; exact hp
          · cases h
          · cases h

omit [BEq V] [Hashable V] in
/-- A call at its end. -/
theorem rel_end {f : Frame Var (Val V) Op (Glue V)} {th : Thread V} (h : Rel cfg [f] th) (hi : f.items = []) :
    th.pc = .idle ∧ th.todo = [] ∧ f.ret = th.ret.map .handle := by
  have key : ∀ {G : List (Glue V)} {r : Option Addr}, Winds cfg [f] G r → G = [] ∧ f.ret = r.map .handle := by
    intro G r hw
    cases hw with
    | last h1 h2 =>
      rw [hi] at h1
      exact ⟨(by cases hs : f.scopes <;> rw [hs] at h1 <;> simp [wind] at h1 <;> exact h1), h2⟩
  cases h with
  | leave hw _ => obtain ⟨rfl, e⟩ := key hw; exact ⟨rfl, rfl, e⟩
  | destroy hw _ => cases (key hw).1
  | unlock hw _ => cases (key hw).1
  | drop hA => cases hA <;> cases hi
  | new hA => cases hA <;> first | (cases hi; done) | (simp [ArcCode.found, ArcCode.missing, ArcCode.rest, ArcCode.after] at hi; done)

/-! ### Starting a call -/

/-- A fresh thread of the code without nesting does one thing. -/
theorem fresh_step [EquivBEq V] [LawfulHashable V] (hv : cfg.Valid) {N : State V} {l : List (Mark V)} {S S' : ArcCode.State V} {s : Arc.State V}
    (h : Good cfg N l S s) {act : ArcCode.Act V} (hsane : act.Sane) (ht : act.model.tid = some N.next)
    (e : ArcCode.step cfg { S with threads := S.threads ++ [[]] } act = .ok S') (hf : ArcCode.Few cfg S') (hs : ¬ act.Silent)
    (hd : ¬ ArcCode.dropPanic { S with threads := S.threads ++ [[]] } act) :
    ∃ s', Sim cfg S' s' ∧ Arc.Inv cfg s' ∧ Arc.step cfg { s with threads := s.threads ++ [{}] } act.model = .ok s' ∧
      Arc.SpecRun (Arc.abs cfg s) (Arc.effect cfg { s with threads := s.threads ++ [{}] } act.model).toList (Arc.abs cfg s') ∧
      (s.zombies = [] → s'.zombies = []) ∧ (∀ p ∈ s.table, Arc.deref s' p = Arc.deref s p) ∧
      ∀ k th, k ≠ N.next → s.threads[k]? = some th → s'.threads[k]? = some th := by
  obtain ⟨s1, rfl, h1, h2, h3⟩ := spawn_sim h.sim h.inv
  obtain ⟨s', o, g1, g2, g3, g4, g5, g6⟩ := code_step hv h1 h2 hsane e hf
  rcases g3 with ⟨_, g, _⟩ | ⟨g3, rfl⟩
  · exact absurd g hs
  · refine ⟨s', g1, g2, g3, .stutter h3 g4, g5 hd, g6, fun k th hk hth => ?_⟩
    refine Arc.step_other g3 (by rw [ht]; intro e; exact hk (Option.some.inj e).symm) ?_
    simp only
    rw [List.getElem?_append_left (List.getElem?_eq_some_iff.mp hth).1]; exact hth

/-- What is to be shown about a step. -/
def Next (cfg : Cfg V) (N : State V) (s : Arc.State V) (act : Act V) (N' : State V) : Prop :=
  ∃ l' S' s', Good cfg N' l' S' s' ∧ (¬ dropPanic N act → s.zombies = [] → s'.zombies = []) ∧ ∀ p ∈ s.table, Arc.deref s' p = Arc.deref s p

omit [BEq V] [Hashable V] in
theorem set_last {α : Type} (l : List α) (x y : α) {n : Nat} (hn : l.length = n) : (l ++ [x]).set n y = l ++ [y] := by
  subst hn; simp

theorem good_spawn {N : State V} {l : List (Mark V)} {S : ArcCode.State V} {s : Arc.State V} (h : Good cfg N l S s) :
    Good cfg { N with threads := N.threads ++ [[]] } l S s := by
  have hids : ids { N with threads := N.threads ++ [[]] } = ids N := by simp [ids]
  refine ⟨h.flat.spawn, h.sim, h.inv, h.ev, h.spec, by rw [hids]; exact h.old, h.fut, ?_⟩
  intro cs hcs c hc
  rcases List.mem_append.mp hcs with hcs | hcs
  · exact h.run cs hcs c hc
  · simp at hcs; subst hcs; cases hc

/-- The numbers of running calls are those of the past. -/
theorem Good.ne_next {N : State V} {l : List (Mark V)} {S : ArcCode.State V} {s : Arc.State V} (h : Good cfg N l S s) {cs : List (Running V)}
    (hcs : cs ∈ N.threads) {c : Running V} (hc : c ∈ cs) : c.id ≠ N.next := Nat.ne_of_lt (h.flat.lt hcs hc)

theorem good_start [EquivBEq V] [LawfulHashable V] (hv : cfg.Valid) {N N' : State V} {l : List (Mark V)} {S S' : ArcCode.State V} {s : Arc.State V}
    (h : Good cfg N l S s) {t : Tid} {cs : List (Running V)} (ht : N.threads[t]? = some cs) {c : Call V} {f : Frame Var (Val V) Op (Glue V)}
    (e1 : N'.threads = N.threads.set t (⟨N.next, c, [f]⟩ :: cs)) (e3 : N'.next = N.next + 1) (e4 : N'.hist = .call N.next c :: N.hist)
    (hf : Few cfg N') {act : ArcCode.Act V} (hsane : act.Sane) (htid : act.model.tid = some N.next) (hs : ¬ act.Silent)
    (hd : ¬ ArcCode.dropPanic { S with threads := S.threads ++ [[]] } act)
    (e : ArcCode.step cfg { S with threads := S.threads ++ [[]] } act = .ok S') (e2 : S'.threads = S.threads ++ [[f]])
    (e5 : S'.mem = N'.mem) (e6 : S'.handles = N'.handles)
    (heff : Arc.effect cfg { s with threads := s.threads ++ [{}] } act.model = none)
    (htr : ∀ s', Arc.step cfg { s with threads := s.threads ++ [{}] } act.model = .ok s' → ∃ th, s'.threads[N.next]? = some th ∧
      Tracks ⟨N.next, c, [f]⟩ th [.inl (.call N.next c)]) (nact : Act V) : Next cfg N s nact N' := by
  obtain ⟨hflat, hids⟩ := h.flat.push ht (by simp) e1 e2 e3 e5 e6
  obtain ⟨s', g1, g2, g3, g4, g5, g6, g7⟩ := fresh_step hv h hsane htid e (hflat.few hf) hs hd
  rw [heff] at g4
  refine ⟨_, S', s', h.go [.inl (.call N.next c)] N.next hflat g1 g2 (by rw [e4]; rfl) g4 ?_ (by rw [e3]; exact Nat.le_succ _)
    (by rw [e3]; exact Nat.lt_succ_self _) g7 (fun k _ hk => (hids k).mpr (.inl hk)) ?_ ?_ ?_, fun _ => g5, g6⟩
  · intro x hx; simp at hx; subst hx; rfl
  · intro cs' hcs' c' hc' hne
    rw [e1] at hcs'
    rcases mem_set_cons hcs' hc' with rfl | ⟨cs'', a1, a2⟩
    · exact absurd rfl hne
    · exact mem_set_tail ht (fun _ h => h) a1 a2
  · intro cs' hcs' c' hc' hid
    rw [e1] at hcs'
    rw [h.fut N.next (Nat.le_refl _)]
    rcases mem_set_cons hcs' hc' with rfl | ⟨cs'', a1, a2⟩
    · exact htr s' g3
    · obtain ⟨cs3, a3, a4⟩ := mem_set_tail ht (fun _ h => h) a1 a2
      exact absurd hid (h.ne_next a3 a4)
  · intro hj; exact absurd ((hids N.next).mpr (.inr rfl)) hj

theorem good_new [EquivBEq V] [LawfulHashable V] (hv : cfg.Valid) {N N' : State V} {l : List (Mark V)} {S : ArcCode.State V} {s : Arc.State V}
    (h : Good cfg N l S s) {t : Tid} {v : V} {dst : Bool} (e : step cfg N (.new t v dst) can = .ok N') (hf : Few cfg N') :
    Next cfg N s (.new t v dst) N' := by
  cases ht : N.threads[t]? with
  | none => simp [step, ht] at e
  | some cs =>
    simp only [step, ht] at e
    split at e
    · rename_i hc
      simp only [Bool.and_eq_true] at hc
      have hn : S.threads.length = N.next := h.flat.len
      have hget : (S.threads ++ [[]])[N.next]? = some [] := by rw [← hn]; simp
      have hgs : (s.threads ++ [({} : Thread V)])[N.next]? = some {} := by rw [← hn, ← h.sim.len]; simp
      injection e with e; subst e
      refine good_start hv h ht (c := .new v dst) rfl rfl rfl hf (act := .new N.next v dst)
        (S' := { S with threads := S.threads ++ [[(lang cfg).enter [(.val, some (if dst then .borrowed v else .owned v))] (newCode dst)]],
                        handles := Arc.eraseAll S.handles (cfg.kids v) })
        trivial rfl (fun h => h) (fun h => h) ?_ rfl h.flat.mem (by rw [h.flat.handles]) rfl ?_ _
      · simp only [ArcCode.step, hget]
        rw [if_pos (by rw [h.flat.handles]; simp only [Bool.and_eq_true]; exact hc.2), set_last _ _ _ hn]
      · intro s' e
        simp only [ArcCode.Act.model, Arc.step, hgs] at e
        split at e
        · injection e with e; subst e
          refine ⟨{ pc := .newLoop { val := v, dst := dst, conv := none }, arg := some v }, ?_, ⟨.inl rfl, .inr ⟨[], rfl, .nil _, rfl, fun _ => rfl, fun e => by cases e⟩⟩⟩
          simp only [Arc.State.setThread]
          rw [Arc.set_getElem? _ _ _ _ _ hgs, if_pos rfl]
        · cases e
    · cases e

theorem good_drop [EquivBEq V] [LawfulHashable V] (hv : cfg.Valid) {N N' : State V} {l : List (Mark V)} {S : ArcCode.State V} {s : Arc.State V}
    (h : Good cfg N l S s) {t : Tid} {p : Addr} (e : step cfg N (.drop t p) can = .ok N') (hf : Few cfg N') : Next cfg N s (.drop t p) N' := by
  cases ht : N.threads[t]? with
  | none => simp [step, ht] at e
  | some cs =>
    simp only [step, ht] at e
    split at e
    · rename_i hc
      simp only [Bool.and_eq_true, decide_eq_true_eq] at hc
      have hn : S.threads.length = N.next := h.flat.len
      have hget : (S.threads ++ [[]])[N.next]? = some [] := by rw [← hn]; simp
      have hgs : (s.threads ++ [({} : Thread V)])[N.next]? = some {} := by rw [← hn, ← h.sim.len]; simp
      injection e with e; subst e
      refine good_start hv h ht (c := .drop p) rfl rfl rfl hf (act := .drop N.next p)
        (S' := { S with threads := S.threads ++ [[(lang cfg).enter [(.self, some (.ref p))] dropCode]],
                        handles := S.handles.erase p })
        trivial rfl (fun h => h) (fun h => h) ?_ rfl h.flat.mem (by rw [h.flat.handles]) rfl ?_ _
      · simp only [ArcCode.step, hget]
        rw [if_pos (by rw [h.flat.handles]; exact hc.2), set_last _ _ _ hn]
      · intro s' e
        simp only [ArcCode.Act.model, Arc.step, hgs] at e
        split at e
        · injection e with e; subst e
          refine ⟨{ pc := .dropSub p }, ?_, ⟨rfl, rfl, .inl ⟨rfl, rfl⟩⟩⟩
          simp only [Arc.State.setThread]
          rw [Arc.set_getElem? _ _ _ _ _ hgs, if_pos rfl]
        · cases e
    · cases e

omit [BEq V] [Hashable V] in
theorem Flat.view {N : State V} {S : ArcCode.State V} (h : Flat N S) (x : List (Stack V)) : N.view = ({ S with threads := x } : ArcCode.State V).view := by
  simp only [State.view, ArcCode.State.view, h.mem, h.handles]

theorem good_clone [EquivBEq V] [LawfulHashable V] (hv : cfg.Valid) {N N' : State V} {l : List (Mark V)} {S : ArcCode.State V} {s : Arc.State V}
    (h : Good cfg N l S s) {t : Tid} {path : List Addr} (e : step cfg N (.clone t path) can = .ok N') (hf : Few cfg N') :
    Next cfg N s (.clone t path) N' := by
  cases ht : N.threads[t]? with
  | none => simp [step, ht] at e
  | some cs =>
    simp only [step, ht] at e
    split at e
    · split at e
      · rename_i p hb
        split at e
        · rename_i x hx
          have hn : S.threads.length = N.next := h.flat.len
          have hget : (S.threads ++ [[]])[N.next]? = some [] := by rw [← hn]; simp
          have hgs : (s.threads ++ [({} : Thread V)])[N.next]? = some {} := by rw [← hn, ← h.sim.len]; simp
          injection e with e
          let S' : ArcCode.State V := { S with threads := S.threads ++ [[]], mem := { S.mem with heap := Arc.setCount S.mem.heap p (cfg.inc x.count) },
                                               handles := p :: S.handles }
          have hb' := hb
          rw [h.flat.view (S.threads ++ [[]])] at hb'
          have hflat : Flat N' S' := by
            subst e
            exact h.flat.skip rfl rfl rfl (by simp only [S', h.flat.mem]) (by simp only [S', h.flat.handles])
          have est : ArcCode.step cfg { S with threads := S.threads ++ [[]] } (.clone N.next path) = .ok S' := by
            have hxS : Arc.get S.mem.heap p = some x := by rw [h.flat.mem]; exact hx
            simp only [ArcCode.step, hget, hb', hxS]; rfl
          obtain ⟨s', g1, g2, g3, g4, g5, g6, g7⟩ := fresh_step hv h (act := .clone N.next path) trivial rfl est (hflat.few hf) (fun h => h) (fun h => h)
          have hbs : Arc.borrow cfg { s with threads := s.threads ++ [{}] } path = .ok p := by
            obtain ⟨s1, rfl, a1, a2, _⟩ := spawn_sim h.sim h.inv
            have hub := (Arc.step_kept hv a2 (act := .read N.next path) trivial).1
            have : Arc.borrow cfg { s with threads := s.threads ++ [{}] } path ≠ .ub := by
              intro hx
              apply hub
              simp [Arc.step, hgs, hx, Arc.Thread.isIdle]
            rw [← a1.borrow this]; exact hb'
          have heff : Arc.effect cfg { s with threads := s.threads ++ [{}] } (ArcCode.Act.clone N.next path).model = some (.clone N.next p) := by
            simp [ArcCode.Act.model, Arc.effect, hbs]
          rw [heff] at g4
          have hids : ids N' = ids N := by subst e; rfl
          have hthr : N'.threads = N.threads := by subst e; rfl
          have hnx : N'.next = N.next + 1 := by subst e; rfl
          refine ⟨_, S', s', h.go [.inl (.clone N.next p), .inr (.clone N.next p)] N.next hflat g1 g2 (by subst e; rfl) g4 ?_ (by rw [hnx]; exact Nat.le_succ _)
            (by rw [hnx]; exact Nat.lt_succ_self _) g7 (fun k _ hk => by rw [hids]; exact hk) ?_ ?_ ?_, fun _ => g5, g6⟩
          · intro y hy
            simp at hy; rcases hy with rfl | rfl <;> rfl
          · intro cs' hcs' c' hc' _
            rw [hthr] at hcs'; exact ⟨cs', hcs', hc'⟩
          · intro cs' hcs' c' hc' hid
            rw [hthr] at hcs'
            exact absurd hid (h.ne_next hcs' hc')
          · intro _
            rw [h.fut N.next (Nat.le_refl _)]
            exact .clone p
        · cases e
      · cases e
      · cases e
    · cases e

/-! ### Steps of a running call -/

/-- The innermost call of a thread goes on. -/
theorem good_on {N N' : State V} {l : List (Mark V)} {S S' : ArcCode.State V} {s s' : Arc.State V} (h : Good cfg N l S s) {t : Tid}
    {c : Running V} {cs : List (Running V)} (ht : N.threads[t]? = some (c :: cs)) {fs : Stack V} (hfs : fs ≠ [])
    (e1 : N'.threads = N.threads.set t ({ c with stack := fs } :: cs)) (e2 : S'.threads = S.threads.set c.id fs)
    (e3 : N'.next = N.next) (e4 : S'.mem = N'.mem) (e5 : S'.handles = N'.handles) (e6 : N'.hist = N.hist) (hsim : Sim cfg S' s')
    (hinv : Arc.Inv cfg s') {o : Option (Arc.Op V)} (ho : ∀ x, o = some x → x.tid = c.id)
    (hspec : Arc.SpecRun (Arc.abs cfg s) o.toList (Arc.abs cfg s'))
    (hth : ∀ k th, k ≠ c.id → s.threads[k]? = some th → s'.threads[k]? = some th)
    (htr : ∀ th p, s.threads[c.id]? = some th → Tracks c th p → ∃ th', s'.threads[c.id]? = some th' ∧
      Tracks { c with stack := fs } th' (p ++ (o.map Sum.inr).toList)) : Good cfg N' (l ++ (o.map Sum.inr).toList) S' s' := by
  have hflat := h.flat.replace ht hfs e1 e2 e3 e4 e5
  have hmem := List.mem_of_getElem? ht
  have hlt : c.id < N.next := h.flat.lt hmem (by simp)
  have hids : ∀ k, k ∈ ids N → k ∈ ids N' := by
    intro k hk
    have := Arc.count_flatMap_set (fun cs : List (Running V) => cs.map (·.id)) k N.threads t _ ({ c with stack := fs } :: cs) ht
    simp only [List.map_cons] at this
    rw [← List.count_pos_iff] at hk ⊢
    simp only [ids, e1] at hk ⊢
    omega
  refine h.go _ c.id hflat hsim hinv ?_ ?_ ?_ (by rw [e3]; exact Nat.le_refl _) (by rw [e3]; exact hlt) hth (fun k _ hk => hids k hk) ?_ ?_ ?_
  · cases o <;> simp [events, e6]
  · have : ops (o.map Sum.inr).toList = o.toList := by cases o <;> rfl
    rw [this]; exact hspec
  · intro x hx
    cases o with
    | none => cases hx
    | some o => simp at hx; subst hx; exact ho o rfl
  · intro cs' hcs' c' hc' hne
    rw [e1] at hcs'
    rcases mem_set_cons hcs' hc' with rfl | ⟨cs'', a1, a2⟩
    · exact absurd rfl hne
    · exact mem_set_tail ht (fun _ h => List.mem_cons_of_mem _ h) a1 a2
  · intro cs' hcs' c' hc' hid
    rw [e1] at hcs'
    rcases mem_set_cons hcs' hc' with rfl | ⟨cs'', a1, a2⟩
    · obtain ⟨th, g1, g2⟩ := h.run _ hmem c (by simp)
      exact htr th _ g1 g2
    · exact absurd hid (h.flat.others ht a1 a2)
  · intro hj
    exact absurd (hids _ (mem_ids.mpr ⟨_, hmem, c, by simp, rfl⟩)) hj

theorem good_move {N N' : State V} {l : List (Mark V)} {S : ArcCode.State V} {s : Arc.State V} (h : Good cfg N l S s) {t : Tid}
    {c : Running V} {cs : List (Running V)} (ht : N.threads[t]? = some (c :: cs)) {fs : Stack V} (hfs : fs ≠ [])
    (e1 : N'.threads = N.threads.set t ({ c with stack := fs } :: cs)) (e3 : N'.next = N.next) (e4 : N'.mem = N.mem) (e6 : N'.hist = N.hist)
    {th th' : Thread V} (hth : s.threads[c.id]? = some th) (hd : th.pc = .idle) (hd' : th'.pc = .idle) (hr : th'.ret = th.ret)
    (ha : th'.arg = th.arg) (hrel : Rel cfg fs th') (hdy : dying fs = dying c.stack)
    (hc : ∀ p, N'.handles.count p + th'.todo.count p = N.handles.count p + th.todo.count p)
    (hpk : c.stack.any (·.panicking) = true → fs.any (·.panicking) = true) (act : Act V) : Next cfg N s act N' := by
  obtain ⟨hget, _⟩ := h.flat.head ht
  obtain ⟨hinv, hA⟩ := Arc.Re.inv_move h.inv (th' := th') (hs := N'.handles) hth hd hd' (.inr ⟨hr, ha⟩) (fun p => by
    have := hc p
    simp only [Thread.owned, hd, hd', hr, List.count_append]
    rw [h.sim.handles, h.flat.handles]; omega)
  let s' : Arc.State V := { s.setThread c.id th' with handles := N'.handles }
  let S' : ArcCode.State V := { mem := S.mem, handles := N'.handles, threads := S.threads.set c.id fs }
  have hsim : Sim cfg S' s' :=
    h.sim.same hget rfl rfl hrel hdy ⟨h.sim.shared.table, h.sim.shared.locks, h.sim.shared.heap⟩ h.sim.alloc
  have hnew : ∀ k, s'.threads[k]? = if k = c.id then some th' else s.threads[k]? := fun k => Arc.set_getElem? _ _ _ _ _ hth
  refine ⟨_, S', s', good_on (S' := S') h ht hfs e1 rfl e3 (h.flat.mem.trans e4.symm) rfl e6 hsim hinv (o := none) (by simp) (.stutter (abs_perm hA rfl) .done) ?_ ?_,
    fun _ hz => hz, fun _ _ => rfl⟩
  · intro k th0 hk hk'; rw [hnew, if_neg hk]; exact hk'
  · intro th0 p h0 htr
    rw [hth] at h0; cases h0
    refine ⟨th', by rw [hnew, if_pos rfl], htr.adv ?_ rfl rfl hpk⟩
    exact .still (.inl ha) (by simp only [Arc.Thread.done, hd, hd', hr]) (by simp [hd]) (by simp [hd', Pc.dropping]) (by simp [hd, Pc.dropping])

omit [BEq V] [Hashable V] in
theorem value_parts {f : Frame Var (Val V) Op (Glue V)} {fs : Stack V} {G : List (Glue V)} {r : Option Addr} {v : V} {l : List (It V)}
    (hw : Winds cfg (f :: fs) (.value v :: G) r) (hi : f.items = .glue (.value v) :: l) (hG : G.all Glue.soft = true) :
    ∃ g G', G = g ++ G' ∧ wind cfg f.exiting f.scopes l = some g ∧ g.all Glue.soft = true ∧ G'.all Glue.soft = true ∧
      ∀ l' g', wind cfg f.exiting f.scopes l' = some g' → Winds cfg ({ f with items := .glue (.value v) :: l' } :: fs) (.value v :: (g' ++ G')) r := by
  obtain ⟨g, G', e, h1, h2, _⟩ := hw.tail
  rw [hi, ArcCode.wind_glue, Option.map_eq_some_iff] at h1
  obtain ⟨g1, h1, rfl⟩ := h1
  rw [List.cons_append, List.cons.injEq] at e
  obtain ⟨_, rfl⟩ := e
  rw [List.all_append, Bool.and_eq_true] at hG
  refine ⟨g1, G', rfl, h1, hG.1, hG.2, fun l' g' hw' => ?_⟩
  exact h2 { f with items := .glue (.value v) :: l' } (.value v :: g') (by rw [ArcCode.wind_glue, hw']; rfl) rfl

theorem good_take {N N' : State V} {l : List (Mark V)} {S : ArcCode.State V} {s : Arc.State V} (h : Good cfg N l S s) {t : Tid} {p : Addr}
    (e : step cfg N (.take t p) can = .ok N') : Next cfg N s (.take t p) N' := by
  simp only [step] at e
  split at e
  · rename_i id call f fs cs ht
    split at e
    · rename_i v l0 hi
      split at e
      · rename_i hp
        injection e with e; subst e
        obtain ⟨hget, _⟩ := h.flat.head ht
        obtain ⟨th, hth, hR⟩ := h.sim.thread hget
        obtain ⟨G, r, arg, rfl, hw, hG⟩ := value_leave hR hi
        obtain ⟨g, G', rfl, h1, h2, h3, h4⟩ := value_parts hw hi hG
        obtain ⟨g', a1, a2, a3, a4⟩ := wind_take f.exiting hp h1 h2
        refine good_move (N' := { N with
            threads := N.threads.set t ({ id, call, stack := { f with items := .glue (.value v) :: takeField p l0 } :: fs } :: cs)
            handles := p :: N.handles }) h ht (fs := { f with items := .glue (.value v) :: takeField p l0 } :: fs) (by simp) rfl rfl rfl rfl hth
          (th' := ⟨.idle, handlesOf (g' ++ G'), r, arg⟩) rfl rfl rfl rfl ?_ ?_ ?_ ?_ _
        · exact Rel.leave (G := .value v :: (g' ++ G')) (h4 _ _ a1) (by simp [Glue.soft, a2, h3])
        · simp only [dying, List.flatMap_cons, hi]
          simp only [deallocsOf] at a4 ⊢
          simp only [List.filterMap_cons, a4]
        · intro q
          have := a3 q
          simp only [ArcCode.handlesOf_append, List.count_append, List.count_cons, beq_iff_eq]
          by_cases e : q = p
          · rw [if_pos e] at this; rw [if_pos e.symm]; omega
          · rw [if_neg e] at this; rw [if_neg (fun h => e h.symm)]; omega
        · exact fun h => h
      · cases e
    · cases e
  · cases e

theorem good_put {N N' : State V} {l : List (Mark V)} {S : ArcCode.State V} {s : Arc.State V} (h : Good cfg N l S s) {t : Tid} {p : Addr}
    (e : step cfg N (.put t p) can = .ok N') : Next cfg N s (.put t p) N' := by
  simp only [step] at e
  split at e
  · rename_i id call f fs cs ht
    split at e
    · rename_i v l0 hi
      split at e
      · rename_i hp
        injection e with e; subst e
        obtain ⟨hget, _⟩ := h.flat.head ht
        obtain ⟨th, hth, hR⟩ := h.sim.thread hget
        obtain ⟨G, r, arg, rfl, hw, hG⟩ := value_leave hR hi
        obtain ⟨g, G', rfl, h1, h2, h3, h4⟩ := value_parts hw hi hG
        refine good_move (N' := { N with
            threads := N.threads.set t ({ id, call, stack := { f with items := .glue (.value v) :: .glue (.handle p) :: l0 } :: fs } :: cs)
            handles := N.handles.erase p }) h ht (fs := { f with items := .glue (.value v) :: .glue (.handle p) :: l0 } :: fs) (by simp) rfl rfl rfl rfl hth
          (th' := ⟨.idle, handlesOf (.handle p :: (g ++ G')), r, arg⟩) rfl rfl rfl rfl ?_ ?_ ?_ ?_ _
        · exact Rel.leave (G := .value v :: (.handle p :: (g ++ G'))) (h4 _ (.handle p :: g) (by rw [ArcCode.wind_glue, h1]; rfl)) (by simp [Glue.soft, h2, h3])
        · simp [dying, hi, deallocsOf]
        · intro q
          have hcc := Arc.Re.count_cons_erase hp q
          have : handlesOf (.handle p :: (g ++ G')) = p :: handlesOf (g ++ G') := rfl
          rw [this]
          simp only [List.count_cons] at hcc ⊢
          omega
        · exact fun h => h
      · cases e
    · cases e
  · cases e

theorem good_run [EquivBEq V] [LawfulHashable V] (hv : cfg.Valid) {N N' : State V} {l : List (Mark V)} {S : ArcCode.State V} {s : Arc.State V}
    (h : Good cfg N l S s) {t : Tid} {a : Addr} (e : step cfg N (.run t a) can = .ok N') (hf : Few cfg N') : Next cfg N s (.run t a) N' := by
  simp only [step] at e
  split at e
  · rename_i c cs ht
    obtain ⟨hget, hne⟩ := h.flat.head ht
    obtain ⟨th, hth, hR⟩ := h.sim.thread hget
    have hmem := List.mem_of_getElem? ht
    have hlt : c.id < N.next := h.flat.lt hmem (by simp)
    have go : ∀ {m : Mem V} {fs : Stack V} {r : Option (Val V)}, (lang cfg).run N.mem c.id a c.stack = .ok (m, fs, r) →
        ∃ S', ArcCode.step cfg S (.run c.id a) = .ok S' ∧ S' = { mem := m, handles := result r ++ S.handles, threads := S.threads.set c.id fs } := by
      intro m fs r hr
      refine ⟨_, ?_, rfl⟩
      simp only [ArcCode.step, hget, h.flat.mem, hr]
    split at e
    · rename_i m r hr
      injection e with e
      obtain ⟨f, hst, hi, rfl, rfl⟩ := run_end hr
      rw [hst] at hR
      obtain ⟨hpc, htodo, hret⟩ := rel_end hR hi
      obtain ⟨S', hS, hS'⟩ := go hr
      obtain ⟨hflat, hids⟩ := h.flat.pop ht (N' := N') (S' := S') (by subst e; rfl) (by subst hS'; rfl) (by subst e; rfl) (by subst e hS'; rfl)
        (by subst e hS'; simp only [h.flat.handles])
      obtain ⟨s', o, g1, g2, g3, g4, g5, g6⟩ := code_step hv h.sim h.inv (act := .run c.id a) trivial hS (hflat.few hf)
      have ho : o = none := by
        rcases g3 with ⟨_, _, g3⟩ | ⟨g3, rfl⟩
        · exact g3
        · rcases run_adv h.inv g3 hth (rel_scan hR) with ⟨_, _, _, _, _, e⟩ | ⟨th', _, ha⟩
          · exact e
          · generalize hx : Arc.effect cfg s (.run c.id a) = o at ha
            show Arc.effect cfg s (.run c.id a) = none
            rw [hx]
            cases ha with
            | still => rfl
            | intern v b _ _ hd => rw [hpc] at hd; cases hd
            | drop q _ hd => rw [hpc] at hd; cases hd
      subst ho
      have hthr : N'.threads = N.threads.set t cs := by subst e; rfl
      have hnx : N'.next = N.next := by subst e; rfl
      have hhist : N'.hist = ends c f.ret ++ N.hist := by subst e; rfl
      obtain ⟨th0, k1, k2⟩ := h.run _ hmem c (by simp)
      rw [hth] at k1; cases k1
      have hends : ∃ l2 : List (Mark V), l2 = (ends c f.ret).map Sum.inl ∧ (∀ x ∈ l2, who x = c.id) ∧ Proper c.id (part c.id l ++ l2) := by
        refine ⟨_, rfl, ?_, ?_⟩
        · intro x hx
          simp only [ends] at hx
          split at hx
          · cases hx
          · cases hc : c.call with
            | new v dst =>
              rw [hc] at hx
              cases hr : f.ret with
              | none => rw [hr] at hx; cases hx
              | some w => rw [hr] at hx; cases w <;> simp at hx; subst hx; rfl
            | drop q => rw [hc] at hx; simp at hx; subst hx; rfl
        · by_cases hp : c.stack.any (·.panicking) = true
          · simp only [ends, hp, if_true, List.map_nil, List.append_nil]; exact k2.proper
          · simp only [ends, hp, Bool.false_eq_true, if_false]
            unfold Tracks at k2
            cases hc : c.call with
            | new v dst =>
              rw [hc] at k2
              rcases k2.2 with ⟨b, ds, d1, d2, d3⟩ | ⟨ds, d1, d2, d3, d4, d5⟩
              · have hb : th.ret = some b := by simpa [Arc.Thread.done, hpc] using d1
                rw [hret, hb, d3]
                exact .newReturned v dst b d2
              · exact absurd (d5 (by rw [hpc]; rfl)) hp
            | drop q =>
              rw [hc] at k2
              rcases k2.2.2 with ⟨d1, _⟩ | ⟨ds, d1, d2⟩
              · rw [hpc] at d1; cases d1
              · rw [d2]; exact .dropReturned q d1
      obtain ⟨l2, hl2, hwho, hprop⟩ := hends
      refine ⟨_, S', s', h.go l2 c.id hflat g1 g2 ?_ ?_ hwho (by rw [hnx]; exact Nat.le_refl _) (by rw [hnx]; exact hlt) ?_
        (fun k hk hm => (hids k).mpr ⟨hm, hk⟩) ?_ ?_ (fun _ => hprop), fun _ => g5 (fun h => h), g6⟩
      · rw [hhist, hl2]
        have : ∀ L : List (Event V), L.length ≤ 1 → L = (events (L.map Sum.inl)).reverse := by
          intro L hL
          match L, hL with
          | [], _ => rfl
          | [x], _ => rfl
        rw [← this]
        simp only [ends]
        split
        · simp
        · split <;> simp
      · have : ops l2 = [] := by rw [hl2]; simp [ops, List.filterMap_map, Function.comp_def]
        rw [this]; exact g4
      · intro k thk hk hk'
        rcases g3 with ⟨rfl, _⟩ | ⟨g3, _⟩
        · exact hk'
        · exact Arc.step_other g3 (fun e => hk (Option.some.inj e).symm) hk'
      · intro cs' hcs' c' hc' _
        rw [hthr] at hcs'
        exact mem_set_tail ht (fun _ h => List.mem_cons_of_mem _ h) hcs' hc'
      · intro cs' hcs' c' hc' hid
        rw [hthr] at hcs'
        exact absurd hid (h.flat.others ht hcs' hc')
    · rename_i m f' fs' r hr
      injection e with e
      obtain ⟨hr0, hpk⟩ := run_on hr
      obtain ⟨S', hS, hS'⟩ := go hr
      have hflat : Flat N' S' := h.flat.replace ht (fs := f' :: fs') (by simp) (by subst e; rfl) (by subst hS'; rfl) (by subst e; rfl)
        (by subst e hS'; rfl) (by subst e hS' hr0; exact h.flat.handles)
      obtain ⟨s', o, g1, g2, g3, g4, g5, g6⟩ := code_step hv h.sim h.inv (act := .run c.id a) trivial hS (hflat.few hf)
      have hadv : ∃ th', s'.threads[c.id]? = some th' ∧ Adv c.id th th' o := by
        rcases g3 with ⟨rfl, _, rfl⟩ | ⟨g3, rfl⟩
        · exact ⟨th, hth, .refl _ _⟩
        · rcases run_adv h.inv g3 hth (rel_scan hR) with ⟨b, _, _, _, hh, _⟩ | hx
          · exfalso
            have h1 := g1.handles
            rw [hh, hS', hr0] at h1
            have := congrArg List.length h1
            simp [result, h.sim.handles] at this
          · exact hx
      obtain ⟨th', hth', ha⟩ := hadv
      refine ⟨_, S', s', good_on h ht (fs := f' :: fs') (by simp) (by subst e; rfl) (by subst hS'; rfl) (by subst e; rfl)
        (by subst e hS'; rfl) (by subst e hS' hr0; exact h.flat.handles) (by subst e; rfl) g1 g2 (o := o) ?_ g4 ?_ ?_, fun _ => g5 (fun h => h), g6⟩
      · intro x hx; subst hx; cases ha <;> rfl
      · intro k thk hk hk'
        rcases g3 with ⟨rfl, _⟩ | ⟨g3, _⟩
        · exact hk'
        · exact Arc.step_other g3 (fun e => hk (Option.some.inj e).symm) hk'
      · intro th0 p h0 htr
        rw [hth] at h0; cases h0
        exact ⟨th', hth', htr.adv ha rfl rfl hpk⟩
    · cases e
    · cases e
  · cases e

theorem good_panic [EquivBEq V] [LawfulHashable V] (hv : cfg.Valid) {N N' : State V} {l : List (Mark V)} {S : ArcCode.State V} {s : Arc.State V}
    (h : Good cfg N l S s) {t : Tid} (e : step cfg N (.panic t) can = .ok N') (hf : Few cfg N') : Next cfg N s (.panic t) N' := by
  simp only [step] at e
  split at e
  · rename_i c cs ht
    obtain ⟨hget, hne⟩ := h.flat.head ht
    obtain ⟨th, hth, hR⟩ := h.sim.thread hget
    split at e
    · rename_i fs hp
      injection e with e
      have hS : ArcCode.step cfg S (.panic c.id) = .ok { S with threads := S.threads.set c.id fs } := by
        simp only [ArcCode.step, hget, h.flat.mem, hp]
      have hpan : fs ≠ [] ∧ fs.any (·.panicking) = true := by
        cases hst : c.stack with
        | nil => exact absurd hst hne
        | cons f0 fs0 =>
          rw [hst] at hp
          rcases (ArcCode.panic_top hp).2 with ⟨_, _, _, _, _, _, _, _, _, rfl⟩ | ⟨_, _, _, rfl⟩ <;> simp
      have hflat : Flat N' { S with threads := S.threads.set c.id fs } :=
        h.flat.replace ht hpan.1 (by subst e; rfl) rfl (by subst e; rfl) (by subst e; exact h.flat.mem) (by subst e; exact h.flat.handles)
      obtain ⟨s', o, g1, g2, g3, g4, g5, g6⟩ := code_step hv h.sim h.inv (act := .panic c.id) trivial hS (hflat.few hf)
      have ho : o = none := by
        rcases g3 with ⟨_, _, g3⟩ | ⟨_, rfl⟩
        · exact g3
        · rfl
      subst ho
      refine ⟨_, _, s', good_on h ht hpan.1 (by subst e; rfl) rfl (by subst e; rfl) (by subst e; exact h.flat.mem) (by subst e; exact h.flat.handles)
        (by subst e; rfl) g1 g2 (o := none) (by simp) g4 ?_ ?_, fun hnd => g5 fun ⟨fs0, d1, d2⟩ => hnd ?_, g6⟩
      · intro k thk hk hk'
        rcases g3 with ⟨rfl, _⟩ | ⟨g3, _⟩
        · exact hk'
        · exact Arc.step_other g3 (fun e => hk (Option.some.inj e).symm) hk'
      · intro th0 p h0 htr
        rw [hth] at h0; cases h0
        rcases g3 with ⟨rfl, _⟩ | ⟨g3, _⟩
        · exact ⟨th, hth, htr.adv (.refl _ _) rfl rfl (fun _ => hpan.2)⟩
        · obtain ⟨th', a1, a2, a3, a4, a5⟩ := panic_adv h.inv g3 hth
          refine ⟨th', a1, ?_⟩
          have harg : ∀ v, th.arg = some v ∨ th.arg = none → th'.arg = some v ∨ th'.arg = none := by
            intro v hv
            rcases a2 with e | e
            · rw [e]; exact hv
            · exact .inr e
          unfold Tracks at htr ⊢
          simp only [Option.map_none, Option.toList_none, List.append_nil]
          cases hc : c.call with
          | new v dst =>
            rw [hc] at htr
            refine ⟨harg v htr.1, ?_⟩
            rw [a3]
            rcases htr.2 with ⟨b, ds, d1, d2, d3⟩ | ⟨ds, d1, d2, d3, _, _⟩
            · exact .inl ⟨b, ds, d1, d2, d3⟩
            · exact .inr ⟨ds, d1, d2, d3, fun e => (by rw [a5] at e; cases e), fun _ => hpan.2⟩
          | drop q =>
            rw [hc] at htr
            refine ⟨by rw [a3]; exact htr.1, a5, .inr ?_⟩
            rcases htr.2.2 with ⟨d1, _⟩ | hx
            · exact absurd d1 (a4 q)
            · exact hx
      · rw [hget] at d1; cases d1
        exact ⟨c, cs, ht, d2⟩
    · cases e
    · cases e
  · cases e

/-- Every step. -/
theorem good_step [EquivBEq V] [LawfulHashable V] (hv : cfg.Valid) {N N' : State V} {l : List (Mark V)} {S : ArcCode.State V} {s : Arc.State V}
    (h : Good cfg N l S s) {act : Act V} (e : step cfg N act can = .ok N') (hf : Few cfg N') : Next cfg N s act N' := by
  cases act with
  | spawn => cases e; exact ⟨l, S, s, good_spawn h, fun _ h => h, fun _ _ => rfl⟩
  | new => exact good_new hv h e hf
  | clone => exact good_clone hv h e hf
  | drop => exact good_drop hv h e hf
  | take => exact good_take h e
  | put => exact good_put h e
  | run => exact good_run hv h e hf
  | panic => exact good_panic hv h e hf
  | read t path =>
    have : N' = N := by
      simp only [step] at e
      (repeat' split at e) <;> first | (cases e; rfl) | cases e
    subst this
    exact ⟨l, S, s, h, fun _ h => h, fun _ _ => rfl⟩

/-- No step is undefined behaviour. -/
theorem good_no_ub [EquivBEq V] [LawfulHashable V] (hv : cfg.Valid) {N : State V} {l : List (Mark V)} {S : ArcCode.State V} {s : Arc.State V}
    (h : Good cfg N l S s) (act : Act V) : step cfg N act can ≠ .ub := by
  have hborrow : ∀ path, Arc.borrow cfg N.view path ≠ .ub ∧ ∀ p, Arc.borrow cfg N.view path = .ok p → ∃ x, Arc.get N.mem.heap p = some x := by
    intro path
    obtain ⟨s1, rfl, a1, a2, _⟩ := spawn_sim h.sim h.inv
    have hn : S.threads.length = N.next := h.flat.len
    have hget : (S.threads ++ [[]])[N.next]? = some [] := by rw [← hn]; simp
    have h1 := (ArcCode.sim_step a1 (fun a ha => (Arc.step_kept hv a2 ha).1) (.clone N.next path) trivial).1
    simp only [ArcCode.step, hget] at h1
    rw [h.flat.view (S.threads ++ [[]]), ← h.flat.mem]
    refine ⟨fun hb => h1 (by rw [hb]), fun p hp => ?_⟩
    rw [hp] at h1
    cases hx : Arc.get S.mem.heap p with
    | none => exact absurd (by simp [hx]) h1
    | some x => exact ⟨x, rfl⟩
  intro e
  cases act with
  | spawn => cases e
  | new => simp only [step] at e; (repeat' split at e) <;> cases e
  | drop => simp only [step] at e; (repeat' split at e) <;> cases e
  | take => simp only [step] at e; (repeat' split at e) <;> cases e
  | put => simp only [step] at e; (repeat' split at e) <;> cases e
  | read t path =>
    simp only [step] at e
    (repeat' split at e) <;> first | (cases e; done) | exact (hborrow path).1 (by assumption)
  | clone t path =>
    simp only [step] at e
    split at e
    · split at e
      · split at e
        · rename_i p hp
          obtain ⟨x, hx⟩ := (hborrow path).2 p hp
          rw [hx] at e; cases e
        · cases e
        · rename_i hp; exact (hborrow path).1 hp
      · cases e
    · cases e
  | run t a =>
    simp only [step] at e
    split at e
    · rename_i c cs ht
      obtain ⟨hget, _⟩ := h.flat.head ht
      have h1 := (ArcCode.sim_step h.sim (fun a ha => (Arc.step_kept hv h.inv ha).1) (.run c.id a) trivial).1
      simp only [ArcCode.step, hget, h.flat.mem] at h1
      split at e
      · cases e
      · cases e
      · cases e
      · rename_i hr; rw [hr] at h1; exact h1 rfl
    · cases e
  | panic t =>
    simp only [step] at e
    split at e
    · rename_i c cs ht
      obtain ⟨hget, _⟩ := h.flat.head ht
      have h1 := (ArcCode.sim_step h.sim (fun a ha => (Arc.step_kept hv h.inv ha).1) (.panic c.id) trivial).1
      simp only [ArcCode.step, hget, h.flat.mem] at h1
      split at e
      · cases e
      · cases e
      · rename_i hr; rw [hr] at h1; exact h1 rfl
    · cases e

/-- All states. -/
theorem good_reach [EquivBEq V] [LawfulHashable V] (hv : cfg.Valid) {N : State V} (h : Reach cfg N) : ∃ l S s, Good cfg N l S s := by
  induction h with
  | init =>
    refine ⟨[], ArcCode.init, Arc.init, flat_init, ArcCode.sim_init, Arc.init_inv hv, rfl, .done, fun j _ => .none, fun _ _ => rfl, ?_⟩
    intro cs hcs; cases hcs
  | step _ e hf ih =>
    obtain ⟨l, S, s, ih⟩ := ih
    obtain ⟨l', S', s', h', _⟩ := good_step hv ih e hf
    exact ⟨l', S', s', h'⟩

theorem good_reachND [EquivBEq V] [LawfulHashable V] (hv : cfg.Valid) {N : State V} (h : ReachND cfg N) :
    ∃ l S s, Good cfg N l S s ∧ s.zombies = [] := by
  induction h with
  | init =>
    refine ⟨[], ArcCode.init, Arc.init, ⟨flat_init, ArcCode.sim_init, Arc.init_inv hv, rfl, .done, fun j _ => .none, fun _ _ => rfl, ?_⟩, rfl⟩
    intro cs hcs; cases hcs
  | step _ hnd e hf ih =>
    obtain ⟨l, S, s, ih, hz⟩ := ih
    obtain ⟨l', S', s', h', h2, _⟩ := good_step hv ih e hf
    exact ⟨l', S', s', h', h2 hnd hz⟩

end Src.ArcNest
