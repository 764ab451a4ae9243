import Verif.Src.ArcNestStep
import Verif.Arc.Complete
import Verif.Props.ArcProgress
/-
What the theorems about the model say about calls inside calls.
-/
namespace Src.ArcNest
open Arc (Addr Tid Cell Cfg Res Thread Pc)
open Src.ArcCode (Var Val Op Glue Mem Stack frameMentions lang Sim Rel Winds It handlesOf deallocsOf dying wind result Removing work)

variable {V : Type} [BEq V] [Hashable V] {cfg : Cfg V}

/-! ### Suspended calls -/

/-- A call that has made a call is in user code. -/
def Suspended (N : State V) : Prop := ∀ cs ∈ N.threads, ∀ c ∈ cs.tail, c.inUser = true

omit [BEq V] [Hashable V] in
theorem suspended_set {N : State V} (h : Suspended N) {l : List (List (Running V))} (hl : ∃ t cs, l = N.threads.set t cs ∧ ∀ c ∈ cs.tail, c.inUser = true) :
    ∀ cs ∈ l, ∀ c ∈ cs.tail, c.inUser = true := by
  obtain ⟨t, cs, rfl, h1⟩ := hl
  intro cs' hcs'
  rcases List.mem_or_eq_of_mem_set hcs' with hcs' | rfl
  · exact h cs' hcs'
  · exact h1

theorem suspended_step {N N' : State V} (h : Suspended N) {act : Act V} (e : step cfg N act = .ok N') : Suspended N' := by
  have self : ∀ {t : Tid} {cs : List (Running V)}, N.threads[t]? = some cs → ∀ c ∈ cs.tail, c.inUser = true :=
    fun ht => h _ (List.mem_of_getElem? ht)
  have call : ∀ {t : Tid} {cs : List (Running V)}, N.threads[t]? = some cs → canCall cs = true → ∀ c ∈ cs, c.inUser = true := by
    intro t cs ht hc c hm
    cases cs with
    | nil => cases hm
    | cons c0 cs =>
      rcases List.mem_cons.mp hm with rfl | hm
      · exact hc
      · exact self ht c hm
  cases act with
  | spawn =>
    cases e
    intro cs hcs
    rcases List.mem_append.mp hcs with hcs | hcs
    · exact h cs hcs
    · simp at hcs; subst hcs; intro c hc; cases hc
  | new t v dst =>
    simp only [step] at e
    split at e
    · rename_i cs ht
      split at e
      · rename_i hc
        rw [Bool.and_eq_true] at hc
        cases e
        exact suspended_set h ⟨t, _, rfl, call ht hc.1⟩
      · cases e
    · cases e
  | drop t v =>
    simp only [step] at e
    split at e
    · rename_i cs ht
      split at e
      · rename_i hc
        rw [Bool.and_eq_true] at hc
        cases e
        exact suspended_set h ⟨t, _, rfl, call ht hc.1⟩
      · cases e
    · cases e
  | clone t path =>
    simp only [step] at e
    (repeat' split at e) <;> first | (cases e; done) | (injection e with e; subst e; exact h)
  | read t path =>
    simp only [step] at e
    (repeat' split at e) <;> first | (cases e; done) | (injection e with e; subst e; exact h)
  | take t p =>
    simp only [step] at e
    split at e
    · rename_i ht
      (repeat' split at e) <;> first | (cases e; done) | (cases e; exact suspended_set h ⟨t, _, rfl, fun c' hc' => self ht c' hc'⟩)
    · cases e
  | put t p =>
    simp only [step] at e
    split at e
    · rename_i ht
      (repeat' split at e) <;> first | (cases e; done) | (cases e; exact suspended_set h ⟨t, _, rfl, fun c' hc' => self ht c' hc'⟩)
    · cases e
  | run t a =>
    simp only [step] at e
    split at e
    · rename_i c cs ht
      split at e
      · cases e
        exact suspended_set h ⟨t, _, rfl, fun c' hc' => self ht c' (List.mem_of_mem_tail hc')⟩
      · cases e
        exact suspended_set h ⟨t, _, rfl, fun c' hc' => self ht c' hc'⟩
      · cases e
      · cases e
    · cases e
  | panic t =>
    simp only [step] at e
    split at e
    · rename_i c cs ht
      split at e
      · cases e
        exact suspended_set h ⟨t, _, rfl, fun c' hc' => self ht c' hc'⟩
      · cases e
      · cases e
    · cases e

theorem reach_suspended {N : State V} (h : Reach cfg N) : Suspended N := by
  induction h with
  | init => intro cs hcs; cases hcs
  | step _ e _ ih => exact suspended_step ih e

/-! ### Locks -/

/-- A call that is in user code holds no lock. -/
theorem user_no_lock {fs : Stack V} {th : Thread V} (h : Rel cfg fs th) (hu : (fs.head?.any fun f => inDestructor f || inHash f) = true) :
    th.pc.holds = none := by
  cases fs with
  | nil => cases hu
  | cons f fs =>
    simp only [List.head?_cons, Option.any_some, Bool.or_eq_true] at hu
    rcases hu with hd | hh
    · have : ∃ v l, f.items = .glue (.value v) :: l := by
        unfold inDestructor at hd
        split at hd
        · exact ⟨_, _, by assumption⟩
        · cases hd
      obtain ⟨v, l, hi⟩ := this
      obtain ⟨G, r, arg, rfl, _⟩ := value_leave h hi
      rfl
    · have : f.exiting = false ∧ ∃ s l, f.items = .stmt s :: l ∧ (lang cfg).opOf s ≠ none := by
        unfold inHash at hh
        split at hh
        · exact ⟨by simpa using hh, _, _, by assumption, by simp [Lang.opOf]⟩
        · exact ⟨by simpa using hh, _, _, by assumption, by simp [Lang.opOf]⟩
        · exact ⟨by simpa using hh, _, _, by assumption, by simp [Lang.opOf]⟩
        · cases hh
      obtain ⟨he, s, l, hi, _⟩ := this
      have no : ∀ {G : List (Glue V)} {r : Option Addr}, Winds cfg (f :: fs) G r → False := by
        intro G r hw
        obtain ⟨g, _, _, h1, _⟩ := hw.tail
        rw [hi, he] at h1
        exact ArcCode.wind_no_stmt h1
      cases h with
      | leave hw _ => exact (no hw).elim
      | destroy hw _ => exact (no hw).elim
      | unlock hw _ => exact (no hw).elim
      | drop hA =>
        cases hA with
        | @test b n => by_cases e : n = 1 <;> simp [e, Pc.holds]
        | _ => rfl
      | new hA =>
        cases hA with
        | look _ => rfl
        | miss2 _ _ => rfl
        | miss1 hc =>
          rename_i c
          obtain ⟨v, dst, conv⟩ := c
          cases conv <;> rfl
        | conv _ => rfl
        | loop _ => rfl
        | block _ => rfl
        | cont _ => rfl
        | yield _ => rfl
        | endBlock _ => rfl
        | again _ => rfl
        | @occ2 c _ hc _ => obtain ⟨v, dst, conv⟩ := c; cases dst <;> cases hh
        | _ => first | (cases hh; done) | (simp [inHash, ArcCode.found, ArcCode.missing, ArcCode.rest, ArcCode.after] at hh; done)

theorem lock_holder [EquivBEq V] [LawfulHashable V] {N : State V} {l : List (Mark V)} {S : ArcCode.State V} {s : Arc.State V}
    (h : Good cfg N l S s) (hs : Suspended N) {i j : Nat} (hl : N.mem.locks i = some j) :
    ∃ (t : Tid) (c : Running V) (cs : List (Running V)), N.threads[t]? = some (c :: cs) ∧ c.id = j ∧ c.inUser = false := by
  rw [← h.flat.mem, ← h.sim.shared.locks] at hl
  obtain ⟨th, h1, h2⟩ := (h.inv.lk i j).mp hl
  have hlt : j < S.threads.length := by rw [← h.sim.len]; exact (List.getElem?_eq_some_iff.mp h1).1
  have hget : S.threads[j]? = some S.threads[j] := List.getElem?_eq_getElem hlt
  have hR := h.sim.th j _ th hget h1
  have hne : S.threads[j] ≠ [] := by
    intro e
    rw [e] at hR
    have := Arc.holds_notIdle h2
    rw [hR.idle] at this; cases this
  have hm : j ∈ ids N := by
    by_cases hm : j ∈ ids N
    · exact hm
    · have := h.flat.idle j (by rw [← h.flat.len]; exact hlt) hm
      rw [hget] at this
      exact absurd (Option.some.inj this) hne
  obtain ⟨cs, hcs, c, hc, rfl⟩ := mem_ids.mp hm
  have hu : c.inUser = false := by
    cases hu : c.inUser with
    | false => rfl
    | true =>
      have := (h.flat.run cs hcs c hc).1
      rw [hget] at this
      rw [Option.some.inj this] at hR
      rw [user_no_lock hR hu] at h2; cases h2
  obtain ⟨t, ht⟩ := List.getElem?_of_mem hcs
  cases cs with
  | nil => cases hc
  | cons c0 cs =>
    rcases List.mem_cons.mp hc with rfl | hc'
    · exact ⟨t, c, cs, ht, rfl, hu⟩
    · have := hs _ hcs c hc'
      rw [hu] at this; cases this

/-! ### Running a call -/

/-- A step of the code without nesting, on behalf of the innermost call of a thread. -/
theorem flat_run {N : State V} {S S' : ArcCode.State V} (h : Flat N S) {t : Tid} {c : Running V} {cs : List (Running V)}
    (ht : N.threads[t]? = some (c :: cs)) {a : Addr} (e : ArcCode.step cfg S (.run c.id a) = .ok S') :
    ∃ N', step cfg N (.run t a) = .ok N' ∧ Flat N' S' ∧
      (N'.threads = N.threads.set t cs ∨ ∃ fs, N'.threads = N.threads.set t ({ c with stack := fs } :: cs)) := by
  obtain ⟨hget, _⟩ := h.head ht
  simp only [ArcCode.step, hget, h.mem] at e
  split at e
  · rename_i m fs r hr
    injection e with e
    cases fs with
    | nil =>
      refine ⟨{ N with mem := m, handles := result r ++ N.handles, threads := N.threads.set t cs, hist := ends c r ++ N.hist }, ?_, ?_, .inl rfl⟩
      · simp only [step, ht, hr]
      · subst e
        exact (h.pop (N' := { N with mem := m, handles := result r ++ N.handles, threads := N.threads.set t cs, hist := ends c r ++ N.hist })
          ht rfl rfl rfl rfl (by simp only [h.handles])).1
    | cons f fs =>
      refine ⟨{ N with mem := m, threads := N.threads.set t ({ c with stack := f :: fs } :: cs) }, ?_, ?_, .inr ⟨f :: fs, rfl⟩⟩
      · simp only [step, ht, hr]
      · subst e
        refine h.replace ht (by simp) rfl rfl rfl rfl (by rw [(run_on hr).1]; exact h.handles)
  · cases e
  · cases e

/-- The innermost call of a thread can go on, if its thread of the model is idle or can go on. -/
theorem head_enabled [EquivBEq V] [LawfulHashable V] (hv : cfg.Valid) {N : State V} {S : ArcCode.State V} {s : Arc.State V} (hF : Flat N S)
    (hS : Sim cfg S s) (hI : Arc.Inv cfg s) {t : Tid} {c : Running V} {cs : List (Running V)} (ht : N.threads[t]? = some (c :: cs))
    {th : Thread V} (hth : s.threads[c.id]? = some th) {a : Addr} (a1 : a ≠ 0) (a2 : a ∉ Arc.keys N.mem.heap)
    (hen : th.isIdle = true ∨ ∃ a0 s', Arc.step cfg s (.run c.id a0) = .ok s') :
    ∃ N' S' s', step cfg N (.run t a) = .ok N' ∧ Flat N' S' ∧ Sim cfg S' s' ∧
      (N'.threads = N.threads.set t cs ∨ ∃ fs, N'.threads = N.threads.set t ({ c with stack := fs } :: cs)) ∧
      (s' = s ∧ (S'.threads.map (work cfg)).sum < (S.threads.map (work cfg)).sum ∨ Arc.step cfg s (.run c.id a) = .ok s') := by
  obtain ⟨hget, hne⟩ := hF.head ht
  rcases ArcCode.sim_run hS c.id a (Arc.step_kept hv hI (act := .run c.id a) trivial).1 with ⟨_, e⟩ | ⟨S', s', fs, fs', e, g1, g2, g3, g4⟩
  · exfalso
    rcases e with e | e | e | ⟨th', e1, e2, e3⟩
    · rw [hget] at e; cases e
    · rw [hget] at e; exact hne (Option.some.inj e)
    · rw [hF.mem] at e; exact e.elim a1 a2
    · rw [hth] at e1; cases e1
      rcases hen with h | ⟨a0, s', h⟩
      · rw [h] at e2; cases e2
      · simp only [Arc.step, hth, e3] at h; cases h
  · obtain ⟨N', h1, h2, h3⟩ := flat_run hF ht e
    refine ⟨N', S', s', h1, h2, g1, h3, ?_⟩
    rcases g4 with ⟨g4, hw⟩ | g4
    · refine .inl ⟨g4, ?_⟩
      rw [g3]; exact ArcCode.work_set S.threads c.id fs fs' g2 hw
    · exact .inr g4

/-! ### Completing all calls -/

omit [BEq V] [Hashable V] in
theorem byDestructors_set {N N' : State V} (h : ByDestructors N) {t : Tid} {c : Running V} {cs : List (Running V)}
    (ht : N.threads[t]? = some (c :: cs)) (e : N'.threads = N.threads.set t cs ∨ ∃ fs, N'.threads = N.threads.set t ({ c with stack := fs } :: cs)) :
    ByDestructors N' := by
  have h0 := h _ (List.mem_of_getElem? ht)
  intro cs' hcs' c' hc'
  rcases e with e | ⟨fs, e⟩ <;> rw [e] at hcs' <;> rcases List.mem_or_eq_of_mem_set hcs' with hcs' | rfl
  · exact h cs' hcs' c' hc'
  · exact h0 c' (List.mem_of_mem_tail hc')
  · exact h cs' hcs' c' hc'
  · exact h0 c' hc'

omit [BEq V] [Hashable V] in
theorem sum_length_set : ∀ {l : List (List (Running V))} {t : Nat} {c : Running V} {cs : List (Running V)}, l[t]? = some (c :: cs) →
    (((l.set t cs).map List.length).sum < (l.map List.length).sum)
  | [], t, c, cs, h => by simp at h
  | x :: l, 0, c, cs, h => by simp at h; subst h; simp
  | x :: l, t + 1, c, cs, h => by
    have := sum_length_set (l := l) (t := t) (c := c) (cs := cs) (by simpa using h)
    simp only [List.set_cons_succ, List.map_cons, List.sum_cons]; omega

omit [BEq V] [Hashable V] in
theorem not_quiet {N : State V} (hq : ¬ Quiet N) : ∃ (t : Tid) (c : Running V) (cs : List (Running V)), N.threads[t]? = some (c :: cs) := by
  unfold Quiet at hq
  rw [Classical.not_forall] at hq
  obtain ⟨cs, hq⟩ := hq
  rw [Classical.not_imp] at hq
  obtain ⟨hcs, hne⟩ := hq
  obtain ⟨t, ht⟩ := List.getElem?_of_mem hcs
  cases cs with
  | nil => exact absurd rfl hne
  | cons c cs => exact ⟨t, c, cs, ht⟩

/-- The numbers of the calls that have made calls. -/
def susp (N : State V) : List Nat := N.threads.flatMap fun cs => cs.tail.map (·.id)

omit [BEq V] [Hashable V] in
theorem mem_susp {N : State V} {j : Nat} : j ∈ susp N ↔ ∃ cs ∈ N.threads, ∃ c ∈ cs.tail, c.id = j := by
  simp only [susp, List.mem_flatMap, List.mem_map]

omit [BEq V] [Hashable V] in
theorem susp_on {N N' : State V} {t : Tid} {c : Running V} {cs : List (Running V)} (ht : N.threads[t]? = some (c :: cs)) {fs : Stack V}
    (e : N'.threads = N.threads.set t ({ c with stack := fs } :: cs)) (j : Nat) : j ∈ susp N' ↔ j ∈ susp N := by
  have h := Arc.count_flatMap_set (fun cs : List (Running V) => cs.tail.map (·.id)) j N.threads t _ ({ c with stack := fs } :: cs) ht
  simp only [List.tail_cons] at h
  simp only [susp, e, ← List.count_pos_iff]
  omega

omit [BEq V] [Hashable V] in
theorem head_not_susp {N : State V} {S : ArcCode.State V} (hF : Flat N S) {t : Tid} {c : Running V} {cs : List (Running V)}
    (ht : N.threads[t]? = some (c :: cs)) : c.id ∉ susp N := by
  intro hm
  obtain ⟨cs', hcs', c', hc', e⟩ := mem_susp.mp hm
  obtain ⟨u, hu⟩ := List.getElem?_of_mem hcs'
  by_cases hut : u = t
  · subst hut
    rw [ht] at hu; cases hu
    have htl : u < N.threads.length := (List.getElem?_eq_some_iff.mp ht).1
    exact hF.others ht (cs' := cs) (List.mem_of_getElem? (i := u) (by simp [htl])) hc' e
  · exact hF.others ht (cs' := cs') (List.mem_of_getElem? (i := u) (by rw [List.getElem?_set_ne (Ne.symm hut)]; exact hu))
      (List.mem_of_mem_tail hc') e

omit [BEq V] [Hashable V] in
theorem masked_congr {T T' : List Tid} {s m : Arc.State V} (h : Arc.Re.Masked cfg T s m) (e : ∀ j, j ∈ T' ↔ j ∈ T) : Arc.Re.Masked cfg T' s m :=
  ⟨h.heap, h.table, h.locks, h.zombies, fun t ht => h.out t (fun hm => ht ((e t).mpr hm)), fun t ht => h.ins t ((e t).mp ht), h.cnt⟩

theorem Must.next {G : State V → Prop} {N : State V} (t : Tid)
    (h : ∀ a, a ≠ 0 → a ∉ Arc.keys N.mem.heap → ∃ N', ArcNest.step cfg N (.run t a) = .ok N' ∧ Must cfg G N') : Must cfg G N := by
  refine .step t (fun a h1 h2 => ?_) fun a S' h1 h2 h3 => ?_
  · obtain ⟨S', h4, _⟩ := h a h1 h2
    exact ⟨S', h4⟩
  · obtain ⟨S'', h4, h5⟩ := h a h1 h2
    rw [h3] at h4; cases h4; exact h5

/-- The model has nothing to do any more, except for the calls that have made calls. -/
theorem must_end [EquivBEq V] [LawfulHashable V] (hv : cfg.Valid) {k : Nat} (K : ∀ (N : State V) (S : ArcCode.State V) (s : Arc.State V),
      running N < k → Flat N S → Sim cfg S s → Arc.Okay cfg s → ByDestructors N → Must cfg Quiet N) {m : Arc.State V} (hq : Arc.Quiescent m) :
    ∀ (n : Nat) (N : State V) (S : ArcCode.State V) (s : Arc.State V), (S.threads.map (work cfg)).sum < n → running N ≤ k → Flat N S →
      Sim cfg S s → Arc.Okay cfg s → ByDestructors N → Arc.Re.Masked cfg (susp N) s m → Must cfg Quiet N := by
  intro n
  induction n with
  | zero => intro N S s h; omega
  | succ n ih =>
    intro N S s hn hk hF hS hO hB hM
    by_cases hQ : Quiet N
    · exact .done hQ
    · obtain ⟨t, c, cs, ht⟩ := not_quiet hQ
      obtain ⟨hget, _⟩ := hF.head ht
      obtain ⟨th, hth, _⟩ := hS.thread hget
      have hid : th.isIdle = true := by
        have := hM.out c.id (head_not_susp hF ht)
        rw [hth] at this
        exact hq th (List.mem_of_getElem? this)
      refine Must.next t fun a a1 a2 => ?_
      obtain ⟨N', S', s', e, hF', hS', hthr, hw⟩ := head_enabled hv hF hS hO.inv ht hth a1 a2 (.inl hid)
      refine ⟨N', e, ?_⟩
      have hB' := byDestructors_set hB ht hthr
      rcases hw with ⟨rfl, hw⟩ | hw
      · rcases hthr with hthr | ⟨fs, hthr⟩
        · refine K N' S' s' ?_ hF' hS' hO hB'
          have := sum_length_set ht
          simp only [running, hthr] at hk ⊢; omega
        · refine ih N' S' s' (by omega) ?_ hF' hS' hO hB' (masked_congr hM (susp_on ht hthr))
          have : running N' = running N := by
            simp only [running, hthr, List.map_set]
            rw [show List.length ({ c with stack := fs } :: cs) = List.length (c :: cs) from rfl, ← List.map_set, ArcCode.set_self ht]
          omega
      · exfalso
        have hi : th.pc = .idle ∧ th.todo = [] ∧ th.ret = none := by
          obtain ⟨pc, todo, ret, arg⟩ := th
          cases pc <;> simp [Thread.isIdle] at hid
          exact ⟨rfl, hid⟩
        simp only [Arc.step, hth, Arc.run, hi] at hw
        cases hw

/-- Follow the model until a call ends. -/
theorem must_on [EquivBEq V] [LawfulHashable V] (hv : cfg.Valid) {k : Nat} (K : ∀ (N : State V) (S : ArcCode.State V) (s : Arc.State V),
      running N < k → Flat N S → Sim cfg S s → Arc.Okay cfg s → ByDestructors N → Must cfg Quiet N) {m : Arc.State V}
    (hm : Arc.Must cfg Arc.Quiescent m) :
    ∀ (n : Nat) (N : State V) (S : ArcCode.State V) (s : Arc.State V), (S.threads.map (work cfg)).sum < n → running N ≤ k → Flat N S →
      Sim cfg S s → Arc.Okay cfg s → Arc.Okay cfg m → ByDestructors N → Arc.Re.Masked cfg (susp N) s m → Must cfg Quiet N := by
  induction hm with
  | done hq => intro n N S s h1 h2 h3 h4 h5 _ h6 h7; exact must_end hv K hq n N S s h1 h2 h3 h4 h5 h6 h7
  | @step m u hen hnext ih =>
    intro n
    induction n with
    | zero => intro N S s h; omega
    | succ n ihn =>
      intro N S s hn hk hF hS hO hOm hB hM
      obtain ⟨a0, f1, f2⟩ := Arc.fresh_addr m.heap
      obtain ⟨m0, e0, _⟩ := hen a0 f1 f2
      obtain ⟨huT, s0, es0, _⟩ := Arc.Re.masked_step hM hOm.inv.tableOk e0
      have hth : ∃ th, s.threads[u]? = some th := by
        cases hth : s.threads[u]? with
        | none => simp [Arc.step, hth] at es0
        | some th => exact ⟨th, rfl⟩
      obtain ⟨th, hth⟩ := hth
      have hlt : u < S.threads.length := by rw [← hS.len]; exact (List.getElem?_eq_some_iff.mp hth).1
      have hget : S.threads[u]? = some S.threads[u] := List.getElem?_eq_getElem hlt
      have hne : S.threads[u] ≠ [] := by
        intro e
        have hR := hS.th u _ th hget hth
        rw [e] at hR
        obtain ⟨i1, i2, i3⟩ := hR.nil_eq
        simp only [Arc.step, hth, Arc.run, i1, i2, i3] at es0
        cases es0
      have hmem : u ∈ ids N := by
        by_cases hm : u ∈ ids N
        · exact hm
        · have := hF.idle u (by rw [← hF.len]; exact hlt) hm
          rw [hget] at this
          exact absurd (Option.some.inj this) hne
      obtain ⟨cs0, hcs0, c, hc, hcu⟩ := mem_ids.mp hmem
      obtain ⟨t, ht⟩ := List.getElem?_of_mem hcs0
      cases cs0 with
      | nil => cases hc
      | cons c0 cs =>
        have hc0 : c = c0 := by
          rcases List.mem_cons.mp hc with h | h
          · exact h
          · exact absurd (mem_susp.mpr ⟨_, hcs0, c, h, hcu⟩) huT
        subst hc0
        subst hcu
        have hsub : ∀ a, a ∉ Arc.keys N.mem.heap → a ∉ Arc.keys m.heap := by
          intro a ha hmm
          rw [hM.heap, hS.shared.heap] at hmm
          rw [← hF.mem] at ha
          exact ha (ArcCode.keys_live hmm).1
        refine Must.next t fun a a1 a2 => ?_
        obtain ⟨N', S', s', e, hF', hS', hthr, hw⟩ := head_enabled hv hF hS hO.inv ht hth a1 a2 (.inr ⟨a0, s0, es0⟩)
        refine ⟨N', e, ?_⟩
        have hB' := byDestructors_set hB ht hthr
        have hO' : Arc.Okay cfg s' := by
          rcases hw with ⟨rfl, _⟩ | hw
          · exact hO
          · exact (Arc.okay_step hv hO hw).1
        rcases hthr with hthr | ⟨fs, hthr⟩
        · refine K N' S' s' ?_ hF' hS' hO' hB'
          have := sum_length_set ht
          simp only [running, hthr] at hk ⊢; omega
        · have hrun : running N' = running N := by
            simp only [running, hthr, List.map_set]
            rw [show List.length ({ c with stack := fs } :: cs) = List.length (c :: cs) from rfl, ← List.map_set, ArcCode.set_self ht]
          rcases hw with ⟨rfl, hw⟩ | hw
          · exact ihn N' S' s' (by omega) (by omega) hF' hS' hO hOm hB' (masked_congr hM (susp_on ht hthr))
          · obtain ⟨m1, e1, _⟩ := hen a a1 (hsub a a2)
            obtain ⟨_, s1, es1, hM1⟩ := Arc.Re.masked_step hM hOm.inv.tableOk e1
            rw [hw] at es1; cases es1
            exact ih a m1 a1 (hsub a a2) e1 _ N' S' s' (Nat.lt_succ_self _) (by omega) hF' hS' hO' (Arc.okay_step hv hOm e1).1 hB'
              (masked_congr hM1 (susp_on ht hthr))

/-- All calls can be completed. -/
theorem must_all [EquivBEq V] [LawfulHashable V] (hv : cfg.Valid) : ∀ (k : Nat) (N : State V) (S : ArcCode.State V) (s : Arc.State V),
    running N < k → Flat N S → Sim cfg S s → Arc.Okay cfg s → ByDestructors N → Must cfg Quiet N := by
  intro k
  induction k with
  | zero => intro N S s h; omega
  | succ k ih =>
    intro N S s hk hF hS hO hB
    obtain ⟨m, hM, hIm, hp⟩ := Arc.Re.mask hO.inv (susp N) (fun j hj => by
      obtain ⟨cs, hcs, c, hc, rfl⟩ := mem_susp.mp hj
      have hd := hB cs hcs c hc
      obtain ⟨hget, _⟩ := hF.run cs hcs c (List.mem_of_mem_tail hc)
      obtain ⟨th, hth, hR⟩ := hS.thread hget
      refine ⟨th, hth, ?_⟩
      cases hst : c.stack with
      | nil => rw [hst] at hd; cases hd
      | cons f fs =>
        rw [hst] at hd hR
        simp only [List.head?_cons, Option.any_some] at hd
        unfold inDestructor at hd
        split at hd
        · rename_i hi
          obtain ⟨G, r, arg, rfl, _⟩ := value_leave hR hi
          rfl
        · cases hd)
    have hOm : Arc.Okay cfg m := ⟨hIm, fun p => by rw [hM.cnt, hp]; exact hO.room p, hM.zombies.trans hO.zom⟩
    exact must_on hv (k := k) ih (Arc.must_complete hv _ m (Nat.lt_succ_self _) hOm) _ N S s (Nat.lt_succ_self _) (by omega) hF hS hO hOm hB hM

/-- Calls that have not taken effect are running. -/
theorem pending_le [EquivBEq V] [LawfulHashable V] {N : State V} {S : ArcCode.State V} {s : Arc.State V} (hF : Flat N S) (hS : Sim cfg S s) : Arc.pendingNews s ≤ running N := by
  have h1 := hF.sum (fun fs => match fs with | [] => [] | _ => [0]) 0 rfl
  have h2 : ∀ (l : List (Stack V)) (l' : List (Thread V)), l'.length = l.length →
      (∀ (t : Nat) fs th, l[t]? = some fs → l'[t]? = some th → Rel cfg fs th) →
      l'.countP (fun th => th.pc.pending) ≤ (l.flatMap (fun fs => match fs with | [] => [] | _ => [0])).count 0 := by
    intro l
    induction l with
    | nil => intro l' h _; simp at h; subst h; simp
    | cons x l ih =>
      intro l' h hh
      cases l' with
      | nil => simp at h
      | cons y l' =>
        have := ih l' (by simpa using h) (fun t fs th a b => hh (t + 1) fs th (by simpa using a) (by simpa using b))
        have hxy := hh 0 x y rfl rfl
        rw [List.countP_cons, List.flatMap_cons, List.count_append]
        cases x with
        | nil =>
          rw [if_neg (by rw [hxy.nil_eq.1]; exact Bool.false_ne_true), List.count_nil]; omega
        | cons f fs =>
          simp only [List.count_cons_self, List.count_nil]
          split <;> omega
  have h3 := h2 S.threads s.threads hS.len hS.th
  have h4 : ((N.threads.flatMap fun cs => cs.flatMap fun c => match c.stack with | [] => [] | _ => [0]).count 0) ≤ running N := by
    simp only [running]
    induction N.threads with
    | nil => simp
    | cons cs l ih =>
      rw [List.flatMap_cons, List.count_append, List.map_cons, List.sum_cons]
      have : (cs.flatMap fun c : Running V => match c.stack with | [] => [] | _ => [0]).count 0 ≤ cs.length := by
        induction cs with
        | nil => simp
        | cons c cs ih =>
          rw [List.flatMap_cons, List.count_append, List.length_cons]
          have : (match c.stack with | [] => [] | _ => [0]).count 0 ≤ 1 := by cases c.stack <;> simp
          omega
      omega
  simp only [Arc.pendingNews]
  exact Nat.le_trans h3 (h1.symm ▸ h4)

/-! ### What holds in every state -/

theorem Good.canonical [EquivBEq V] [LawfulHashable V] {N : State V} {l : List (Mark V)} {S : ArcCode.State V} {s : Arc.State V}
    (h : Good cfg N l S s) {p q : Addr} (hp : p ∈ N.handles) (hq : q ∈ N.handles) :
    p ∈ N.mem.table ∧ ∃ x y, deref N p = some x ∧ deref N q = some y ∧ (p = q ↔ (x == y) = true) := by
  have key : ∀ p ∈ N.handles, p ∈ Arc.allHandles cfg s := by
    intro p hp
    simp only [Arc.allHandles, List.mem_append]; rw [h.sim.handles, h.flat.handles]; exact .inl (.inl hp)
  obtain ⟨x, y, e1, e2, e3⟩ := Arc.inv_canonical h.inv (key p hp) (key q hq)
  have d1 := h.sim.deref e1
  have d2 := h.sim.deref e2
  simp only [ArcCode.deref, h.flat.mem] at d1 d2
  refine ⟨?_, x, y, d1, d2, ?_⟩
  · rw [← h.flat.mem, ← h.sim.shared.table]; exact h.inv.in_table (key p hp)
  · rw [← e3]; simp [Arc.handleEq]

theorem Good.count_covers [EquivBEq V] [LawfulHashable V] {N : State V} {l : List (Mark V)} {S : ArcCode.State V} {s : Arc.State V}
    (h : Good cfg N l S s) {p : Addr} (hp : p ∈ N.handles) :
    ∃ n, refcount N p = some n ∧ N.handles.count p ≤ n := by
  have hm : p ∈ Arc.allHandles cfg s := by
    simp only [Arc.allHandles, List.mem_append]; rw [h.sim.handles, h.flat.handles]; exact .inl (.inl hp)
  have hr := h.sim.refcount (Arc.inv_refcount_exact h.inv hm)
  simp only [ArcCode.refcount, h.flat.mem] at hr
  refine ⟨_, hr, ?_⟩
  simp only [Arc.allHandles, List.count_append, h.sim.handles, h.flat.handles]; omega

theorem Good.quiet_exact [EquivBEq V] [LawfulHashable V] {N : State V} {l : List (Mark V)} {S : ArcCode.State V} {s : Arc.State V}
    (h : Good cfg N l S s) (hq : Quiet N) :
    (∀ p ∈ allHandles cfg N, p ∈ N.mem.table ∧ refcount N p = some ((allHandles cfg N).count p)) ∧ ∀ i, N.mem.locks i = none := by
  have hqS := h.flat.quiet hq
  have hall : ArcCode.allHandles cfg S = allHandles cfg N := by simp [ArcCode.allHandles, allHandles, h.flat.handles, h.flat.mem]
  refine ⟨fun p hp => ?_, fun i => ?_⟩
  · have hm : p ∈ Arc.allHandles cfg s := by
      rw [← List.count_pos_iff, h.sim.quiet_handles hqS, List.count_pos_iff, hall]; exact hp
    have hr := h.sim.refcount (Arc.inv_refcount_exact h.inv hm)
    simp only [ArcCode.refcount, h.flat.mem] at hr
    refine ⟨?_, ?_⟩
    · rw [← h.flat.mem, ← h.sim.shared.table]; exact h.inv.in_table hm
    · rw [← hall, ← h.sim.quiet_handles hqS]; exact hr
  · rw [← h.flat.mem, ← h.sim.shared.locks]; exact Arc.quiescent_locks h.inv (h.sim.quiet hqS) i

theorem Good.linearizable [EquivBEq V] [LawfulHashable V] {N : State V} {l : List (Mark V)} {S : ArcCode.State V} {s : Arc.State V}
    (h : Good cfg N l S s) :
    ∃ (l : List (Mark V)) (a : Arc.Abs V), events l = N.hist.reverse ∧ Arc.SpecRun ⟨[], fun _ => none⟩ (ops l) a ∧
      (∀ j, Proper j (part j l)) ∧ (∀ p, N.handles.count p ≤ a.handles.count p) ∧ (∀ p ∈ a.handles, a.val p = deref N p) ∧
      (Quiet N → a.handles.Perm (allHandles cfg N)) := by
  refine ⟨l, Arc.abs cfg s, h.ev, h.spec, fun j => ?_, fun p => ?_, fun p hp => ?_, fun hq => ?_⟩
  · by_cases hm : j ∈ ids N
    · obtain ⟨cs, hcs, c, hc, rfl⟩ := mem_ids.mp hm
      obtain ⟨th, _, ht⟩ := h.run cs hcs c hc
      exact ht.proper
    · exact h.old j hm
  · simp only [Arc.abs, Arc.allHandles, List.count_append, h.sim.handles, h.flat.handles]; omega
  · obtain ⟨x, _, e1, _, _⟩ := Arc.inv_canonical h.inv (a := p) (b := p) hp hp
    have d1 := h.sim.deref e1
    simp only [ArcCode.deref, h.flat.mem] at d1
    show Arc.deref s p = _
    rw [e1]; exact d1.symm
  · have hall : ArcCode.allHandles cfg S = allHandles cfg N := by simp [ArcCode.allHandles, allHandles, h.flat.handles, h.flat.mem]
    rw [← hall]
    exact List.perm_iff_count.mpr fun p => h.sim.quiet_handles (h.flat.quiet hq) p

theorem Good.no_leak [EquivBEq V] [LawfulHashable V] {N : State V} {l : List (Mark V)} {S : ArcCode.State V} {s : Arc.State V}
    (h : Good cfg N l S s) (hz : s.zombies = []) (hq : Quiet N) (hh : N.handles = []) :
    N.mem.heap = [] ∧ N.mem.table = [] := by
  have hqS := h.flat.quiet hq
  obtain ⟨e1, e2⟩ := Arc.inv_no_leak h.inv hz (h.sim.quiet hqS) (by rw [h.sim.handles, h.flat.handles]; exact hh)
  refine ⟨by rw [← h.flat.mem, ← h.sim.quiet_heap hqS]; exact e2, ?_⟩
  rw [← h.flat.mem, ← h.sim.shared.table]
  simpa [Arc.numObjects] using e1

theorem Good.new_returns [EquivBEq V] [LawfulHashable V] {can : List (Running V) → Bool} {N N' : State V} {l : List (Mark V)} {S : ArcCode.State V} {s : Arc.State V}
    (h : Good cfg N l S s) {t : Tid} {c : Running V} {cs : List (Running V)} {v : V}
    {dst : Bool} {a : Addr} (ht : N.threads[t]? = some (c :: cs)) (hc : c.call = .new v dst)
    (hp : c.stack.any (·.panicking) = false) (e : step cfg N (.run t a) can = .ok N') (hend : N'.threads[t]? = some cs) :
    ∃ b x, N'.handles = b :: N.handles ∧ N'.hist = .ret c.id (some b) :: N.hist ∧ deref N' b = some x ∧ (x == v) = true := by
  have hmem := List.mem_of_getElem? ht
  have htl : t < N.threads.length := (List.getElem?_eq_some_iff.mp ht).1
  obtain ⟨th, hth, hT⟩ := h.run _ hmem c (by simp)
  obtain ⟨th', hth', hR⟩ := h.sim.thread (h.flat.head ht).1
  rw [hth] at hth'; cases hth'
  simp only [step, ht] at e
  split at e
  · rename_i m r hr
    injection e with e
    obtain ⟨f, hst, hi, rfl, rfl⟩ := ArcNest.run_end hr
    rw [hst] at hR
    obtain ⟨hpc, htodo, hret⟩ := rel_end hR hi
    simp only [Tracks, hc] at hT
    obtain ⟨h1, h2⟩ := hT
    have hdone : th.done = th.ret := by simp [Arc.Thread.done, hpc]
    rcases h2 with ⟨b, ds, g1, _⟩ | ⟨ds, _, _, _, _, g⟩
    · rw [hdone] at g1
      obtain ⟨w, hw, _, x, hx, hxw⟩ := (h.inv.th c.id th hth).ret b g1
      have hwv : w = v := by
        rcases h1 with e | e <;> rw [e] at hw <;> cases hw; rfl
      subst hwv
      rw [hret, g1] at e
      subst e
      refine ⟨b, x.data, rfl, ?_, ?_, hxw⟩
      · simp only [ends, hp, hc, Option.map_some, Bool.false_eq_true, if_false]; rfl
      · have := (h.sim.shared.get hx).1
        rw [h.flat.mem] at this
        show (Arc.get N.mem.heap b).map _ = _
        rw [this]; rfl
    · rw [g (by rw [hpc]; rfl)] at hp; cases hp
  · injection e with e
    subst e
    simp only at hend
    rw [List.getElem?_set_self htl] at hend
    have := congrArg List.length (Option.some.inj hend)
    simp at this
  · cases e
  · cases e

/-- A step keeps the value of a handle that clients own. -/
theorem Good.stable [EquivBEq V] [LawfulHashable V] (hv : cfg.Valid) {can : List (Running V) → Bool} {N N' : State V} {l : List (Mark V)}
    {S : ArcCode.State V} {s : Arc.State V} (hg : Good cfg N l S s) {act : Act V} (e : step cfg N act can = .ok N') (hf : Few cfg N') {p : Addr}
    (hp : p ∈ N.handles) : deref N' p = deref N p := by
  obtain ⟨l', S', s', hg', _, hd⟩ := good_step hv hg e hf
  have hm : p ∈ Arc.allHandles cfg s := by
    simp only [Arc.allHandles, List.mem_append]; rw [hg.sim.handles, hg.flat.handles]; exact .inl (.inl hp)
  obtain ⟨x, _, e1, _, _⟩ := Arc.inv_canonical hg.inv hm hm
  have e2 : Arc.deref s' p = some x := by rw [hd p (hg.inv.in_table hm)]; exact e1
  have d1 := hg.sim.deref e1
  have d2 := hg'.sim.deref e2
  simp only [ArcCode.deref, hg.flat.mem] at d1
  simp only [ArcCode.deref, hg'.flat.mem] at d2
  exact d2.trans d1.symm

end Src.ArcNest
