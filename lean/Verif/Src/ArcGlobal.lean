import Verif.Src.ArcRun
/-
Every execution of the code is an execution of the model.
-/
namespace Src.ArcCode
open Arc (Addr Tid Cell Cfg Res Call Pc Thread)

variable {V : Type}

/-! ### How many handles there are -/

theorem count_glue_le (cfg : Cfg V) (v : Val V) (p : Addr) : (handlesOf (glue cfg v)).count p ≤ (v.mentions cfg).count p := by
  cases v with
  | owned v =>
    have : handlesOf (.value v :: (cfg.kids v).map .handle) = cfg.kids v := handlesOf_handles _
    simp [glue, this, Val.mentions]
  | optBox o => cases o <;> simp [glue, handlesOf, Val.mentions]
  | _ => simp [glue, handlesOf, Val.mentions]

theorem count_scGlue_le (cfg : Cfg V) (sc : List (Var × Option (Val V))) (p : Addr) :
    (handlesOf (scGlue cfg sc)).count p ≤ (sc.flatMap fun x => x.2.toList.flatMap (Val.mentions cfg)).count p := by
  induction sc with
  | nil => simp [scGlue, handlesOf]
  | cons x sc ih =>
    obtain ⟨x, v⟩ := x
    have : scGlue cfg ((x, v) :: sc) = v.toList.flatMap (glue cfg) ++ scGlue cfg sc := rfl
    rw [this, handlesOf_append, List.flatMap_cons, List.count_append, List.count_append]
    refine Nat.add_le_add ?_ ih
    cases v with
    | none => simp [handlesOf]
    | some v => simpa using count_glue_le cfg v p

theorem count_wind_le (cfg : Cfg V) (e : Bool) (p : Addr) : ∀ (l : List (It V)) (scs : Scopes Var (Val V)) (G : List (Glue V)), wind cfg e scs l = some G →
    (handlesOf G).count p ≤ (scs.flatMap fun sc => sc.flatMap fun x => x.2.toList.flatMap (Val.mentions cfg)).count p +
      (l.flatMap itemMentions).count p := by
  intro l
  induction l with
  | nil =>
    intro scs G h
    have : G = [] := by cases scs <;> simp [wind] at h <;> exact h
    subst this; simp [handlesOf]
  | cons i l ih =>
    intro scs G h
    cases i with
    | glue g =>
      rw [wind_glue, Option.map_eq_some_iff] at h
      obtain ⟨G', h1, rfl⟩ := h
      have := ih _ _ h1
      rw [List.flatMap_cons, List.count_append]
      cases g <;> simp [handlesOf, itemMentions] at this ⊢ <;> (try rw [List.count_cons]) <;> (try rw [List.count_cons]) <;> omega
    | close =>
      cases scs with
      | nil => cases h
      | cons sc scs =>
        simp only [wind, Option.map_eq_some_iff] at h
        obtain ⟨G', h1, rfl⟩ := h
        have := ih _ _ h1
        have := count_scGlue_le cfg sc p
        rw [handlesOf_append, List.flatMap_cons, List.flatMap_cons, List.count_append, List.count_append, List.count_append]
        simp [itemMentions]; omega
    | again _ =>
      cases e with
      | false => cases scs <;> cases h
      | true =>
        have := ih scs G (by cases scs <;> simpa [wind] using h)
        simpa [itemMentions] using this
    | stmt _ =>
      cases e with
      | false => cases scs <;> cases h
      | true =>
        have := ih scs G (by cases scs <;> simpa [wind] using h)
        simpa [itemMentions] using this

theorem count_winds_le {cfg : Cfg V} {fs : Stack V} {G : List (Glue V)} {r : Option Addr} (h : Winds cfg fs G r) (p : Addr) :
    (handlesOf G).count p + r.toList.count p ≤ (fs.flatMap (frameMentions cfg)).count p := by
  induction h with
  | nil => simp [handlesOf]
  | @last f g r h1 h2 =>
    have := count_wind_le cfg f.exiting p _ _ _ h1
    simp only [List.flatMap_cons, List.flatMap_nil, List.append_nil, frameMentions, List.count_append]
    have h3 : (f.ret.toList.flatMap (Val.mentions cfg)).count p = r.toList.count p := by
      rw [h2]; cases r <;> simp [Val.mentions]
    omega
  | @cons f f2 fs g G r h1 h2 _ ih =>
    have := count_wind_le cfg f.exiting p _ _ _ h1
    rw [handlesOf_append, List.flatMap_cons, List.count_append, List.count_append]
    simp only [frameMentions, List.count_append]
    omega

/-- The model counts no more handles of a thread than there are in its variables. -/
theorem count_owned_le {cfg : Cfg V} {fs : Stack V} {th : Thread V} (h : Rel cfg fs th) (p : Addr) :
    (th.owned cfg).count p ≤ (fs.flatMap (frameMentions cfg)).count p := by
  cases h with
  | leave hw _ => have := count_winds_le hw p; simpa [Thread.owned, Pc.owned, List.count_append] using this
  | destroy hw _ => have := count_winds_le hw p; simpa [Thread.owned, Pc.owned, List.count_append, handlesOf] using this
  | @unlock _ c sh b _ hw _ =>
    have := count_winds_le hw p
    have h2 : handlesOf (.unlock sh :: unw cfg c) = cfg.kids c.val := by
      show handlesOf (unw cfg c) = _
      rw [unw, handlesOf_append, handlesOf_arg]
      cases c.conv <;> simp [handlesOf]
    rw [h2] at this
    simp [Thread.owned, Pc.owned, List.count_cons] at this ⊢
    omega
  | @drop scs items pc fs G r arg hA hw _ =>
    have := count_winds_le hw p
    rw [List.flatMap_cons, List.count_append]
    simp only [Thread.owned, List.count_append]
    have h2 : (pc.owned cfg).count p ≤ (frameMentions cfg { scopes := scs, items := items }).count p := by
      cases hA with
      | sub => simp [Pc.owned, frameMentions, dropCode, Val.mentions, itemMentions]
      | @test b n => by_cases h : n = 1 <;> simp [h, Pc.owned]
      | _ => simp [Pc.owned]
    omega
  | @new scs items pc r arg hA =>
    simp only [Thread.owned, List.count_append, List.flatMap_cons, List.flatMap_nil, List.append_nil, frameMentions]
    have hp : ∀ c : Call V, OkCall cfg c → (cfg.kids c.val).count p ≤ ((params c).flatMap fun x => x.2.toList.flatMap (Val.mentions cfg)).count p := by
      rintro ⟨v, dst, conv⟩ hc
      cases dst with
      | true => have := hc.1 rfl; simp only at this; simp [this]
      | false => simp [params, Val.mentions]
    cases hA with
    | conv hv => simp [Pc.owned, hv]
    | miss1 hc =>
      rename_i c
      have := hp c hc
      cases c.conv <;> simp [Pc.owned]
      omega
    | hit3 hc =>
      rename_i c sh n b
      have := hp c hc
      by_cases h : n = 0 <;> simp [h, Pc.owned, Val.mentions, List.count_cons] <;> omega
    | hit4 hc =>
      rename_i c sh n b
      have := hp c hc
      simp [Pc.owned, Val.mentions, List.count_cons]; omega
    | miss2 _ _ => simp [Pc.owned]
    | vac1 _ _ => simp [Pc.owned]
    | vac2 _ _ => simp [Pc.owned]
    | vac3 _ _ => simp [Pc.owned, Val.mentions, List.count_cons]; omega
    | vac4 _ _ => simp [Pc.owned, Val.mentions, List.count_cons]; omega
    | occ1 _ _ => simp [Pc.owned]
    | @occ2 c b hc _ =>
      cases hd : c.dst with
      | true => simp [Pc.owned, hc.1 hd]
      | false => simp [Pc.owned]
    | _ hc => have := hp _ hc; simp [Pc.owned]; omega

theorem count_flatMap_le {α β : Type} (f : α → List Addr) (g : β → List Addr) (p : Addr) : ∀ (l : List α) (l' : List β), l.length = l'.length →
    (∀ (t : Nat) (x : α) (y : β), l[t]? = some x → l'[t]? = some y → (f x).count p ≤ (g y).count p) →
    (l.flatMap f).count p ≤ (l'.flatMap g).count p
  | [], [], _, _ => Nat.le_refl _
  | [], y :: l', h, _ => by simp at h
  | x :: l, [], h, _ => by simp at h
  | x :: l, y :: l', h, hh => by
    have h0 := hh 0 x y rfl rfl
    have := count_flatMap_le f g p l l' (by simpa using h) (fun t x y hx hy => hh (t + 1) x y (by simpa using hx) (by simpa using hy))
    simp only [List.flatMap_cons, List.count_append]; omega

theorem count_filter_flatMap_le {α : Type} (f : α → List Addr) (q : α → Bool) (p : Addr) (l : List α) :
    ((l.filter q).flatMap f).count p ≤ (l.flatMap f).count p := by
  induction l with
  | nil => exact Nat.le_refl _
  | cons x l ih =>
    rw [List.filter_cons]
    split <;> simp only [List.flatMap_cons, List.count_append] <;> omega

theorem Sim.count_le {cfg : Cfg V} {S : State V} {s : Arc.State V} (h : Sim cfg S s) (p : Addr) :
    (Arc.allHandles cfg s).count p ≤ (mentions cfg S).count p := by
  simp only [Arc.allHandles, mentions, List.count_append, h.handles]
  have h1 := count_flatMap_le (Thread.owned cfg) (fun fs : Stack V => fs.flatMap (frameMentions cfg)) p s.threads S.threads h.len
    (fun t th fs h1 h2 => count_owned_le (h.th t fs th h2 h1) p)
  have h2 : (Arc.storedHandles cfg s.heap).count p ≤ (Arc.storedHandles cfg S.mem.heap).count p := by
    rw [h.shared.heap]
    exact count_filter_flatMap_le _ _ _ _
  omega

theorem Sim.small {cfg : Cfg V} {S : State V} {s : Arc.State V} (h : Sim cfg S s) (hf : Few cfg S) : Arc.Small cfg s :=
  fun p => Nat.lt_of_le_of_lt (h.count_le p) (hf p)

/-! ### Panics -/

section
variable [BEq V] [Hashable V] {cfg : Cfg V}

theorem panic_top {m : Mem V} {f : Frame Var (Val V) Op (Glue V)} {fs fs' : Stack V} (h : (lang cfg).panic m (f :: fs) = .ok fs') :
    (∀ g ∈ f :: fs, g.panicking = false) ∧ ((∃ s r op sc gl, f.items = .stmt s :: r ∧ f.exiting = false ∧ (lang cfg).opOf s = some op ∧
      panics f.scopes op = some (sc, gl) ∧
      fs' = { f with scopes := sc, items := gl.map .glue ++ r, exiting := true, panicking := true } :: fs) ∨
      ∃ v r, f.items = .glue (.value v) :: r ∧ fs' = { f with items := r, exiting := true, panicking := true } :: fs) := by
  simp only [Lang.panic] at h
  split at h
  · cases h
  · rename_i hp
    have hp' : ∀ g ∈ f :: fs, g.panicking = false := by
      intro g hg
      cases hgp : g.panicking with
      | false => rfl
      | true => exact absurd (List.any_eq_true.mpr ⟨g, hg, hgp⟩) hp
    refine ⟨hp', ?_⟩
    cases hi : f.items with
    | nil => rw [hi] at h; cases h
    | cons i r =>
      rw [hi] at h
      cases i with
      | stmt s =>
        cases he : f.exiting with
        | true => simp [he] at h
        | false =>
          cases ho : (lang cfg).opOf s with
          | none => simp [he, ho] at h
          | some op =>
            cases hq : panics f.scopes op with
            | none => simp [he, ho, hq] at h
            | some x =>
              obtain ⟨sc, gl⟩ := x
              simp only [he, ho, hq, Bool.false_eq_true, if_false, Res.ok.injEq] at h
              exact .inl ⟨s, r, op, sc, gl, rfl, rfl, ho, hq, by simpa [he] using h.symm⟩
      | glue g =>
        cases g with
        | value v =>
          simp only [Glue.isValue, if_true, Res.ok.injEq] at h
          exact .inr ⟨v, r, rfl, h.symm⟩
        | _ => simp [Glue.isValue] at h
      | _ => cases h

theorem wind_no_stmt {scs : Scopes Var (Val V)} {s : Stmt Var Op} {r : List (It V)} {g : List (Glue V)} (h : wind cfg false scs (.stmt s :: r) = some g) :
    False := by
  cases scs <;> cases h

/-- A thread that is only leaving can only panic in a destructor, and then goes on leaving. -/
theorem winds_panic {m : Mem V} {fs fs' : Stack V} {G : List (Glue V)} {r : Option Addr} (hw : Winds cfg fs G r)
    (h : (lang cfg).panic m fs = .ok fs') : ∃ v G', G = .value v :: G' ∧ Winds cfg fs' G' r ∧ dying fs' = dying fs := by
  cases fs with
  | nil => cases h
  | cons f fs =>
    obtain ⟨g, G', e, h1, h2, _⟩ := hw.tail
    rcases (panic_top h).2 with ⟨s, l, op, sc, gl, hi, he, _⟩ | ⟨v, l, hi, rfl⟩
    · rw [hi, he] at h1
      exact (wind_no_stmt h1).elim
    · rw [hi, wind_glue, Option.map_eq_some_iff] at h1
      obtain ⟨g1, h1, rfl⟩ := h1
      refine ⟨v, g1 ++ G', e, h2 _ g1 (wind_exiting h1 (fun _ => rfl)) rfl, ?_⟩
      simp [dying, hi, deallocsOf]

/-- A panic in a step of the code is the panic in the model, or, if it is in a destructor, nothing. -/
theorem out_panic {m : Mem V} {s : Arc.State V} {t : Tid} {th : Thread V} {fs fs' : Stack V} (hR : Rel cfg fs th)
    (h : (lang cfg).panic m fs = .ok fs') :
    (Rel cfg fs' th ∧ dying fs' = dying fs) ∨
    ∃ th' z, Arc.runPanic cfg s t th = .ok { s.setThread t th' with zombies := z } ∧ Rel cfg fs' th' ∧ dying fs' = dying fs ∧
      ((∃ b, th.pc = .dropRemove b) → Removing fs) := by
  cases hR with
  | leave hw hG =>
    obtain ⟨v, G', rfl, h1, h2⟩ := winds_panic hw h
    refine .inl ⟨show Rel cfg _ ⟨.idle, handlesOf G', _, _⟩ from .leave h1 ?_, h2⟩
    simpa [Glue.soft] using hG
  | destroy hw _ => obtain ⟨_, G', e, _⟩ := winds_panic hw h; cases e
  | unlock hw _ => obtain ⟨_, G', e, _⟩ := winds_panic hw h; cases e
  | @drop scs items pc fs G r arg hA hw hG =>
    rcases (panic_top h).2 with ⟨s', l, op, sc, gl, hi, _, ho, hq, rfl⟩ | ⟨_, l, hi, _⟩
    rotate_left
    · cases hA <;> cases hi
    refine .inr ?_
    cases hA with
    | @remove b n =>
      cases hi; cases ho; cases hq
      refine ⟨⟨.idle, handlesOf G, r, arg⟩, b :: s.zombies, rfl, .leave ?_ hG, rfl, fun _ => ⟨_, _, _, rfl⟩⟩
      have h1 : wind cfg true [[(.remove, none), (.u, none)], dropVars b n] [.close, .close] = some [] := rfl
      cases hw with
      | nil => exact .last h1 rfl
      | last a b => exact .cons (g := []) h1 rfl (.last a b)
      | cons a b c => exact .cons (g := []) h1 rfl (.cons a b c)
    | _ => cases hi; cases ho <;> cases hq
  | @new scs items pc r arg hA =>
    rcases (panic_top h).2 with ⟨s', l, op, sc, gl, hi, _, ho, hq, rfl⟩ | ⟨_, l, hi, _⟩
    rotate_left
    · cases hA <;> first | (cases hi; done) | (simp [found, missing, rest, after] at hi; done)
    refine .inr ?_
    cases hA with
    | @look c hc =>
      cases hi; cases ho; cases hq
      refine ⟨Arc.unwindCall cfg c none none, s.zombies, rfl, ?_, rfl, fun ⟨_, e⟩ => by cases e⟩
      have hw : Winds cfg [{ scopes := [[], params c], items := .stmt (.exec .yieldNow) :: .close :: after c.dst, exiting := true, panicking := true }] (unw cfg c) none := by
        refine .last ?_ rfl
        simp [wind, after, scGlue_params hc]
        simp [scGlue]
      cases hcv : c.conv with
      | none =>
        rw [unw, hcv] at hw
        have := Rel.leave (arg := none) hw (by simpa using soft_arg (cfg := cfg) c)
        simpa [Arc.unwindCall, hcv, handlesOf_arg] using this
      | some b =>
        rw [unw, hcv] at hw
        have := Rel.destroy (arg := none) hw (soft_arg (cfg := cfg) c)
        simpa [Arc.unwindCall, hcv, handlesOf_arg] using this
    | @miss2 c b hc hcv =>
      cases hi; cases ho; cases hq
      refine ⟨{ pc := .dropFree b }, s.zombies, rfl, .destroy (G := []) (.last ?_ rfl) rfl, rfl, fun ⟨_, e⟩ => by cases e⟩
      simp [wind, rest, after, Scopes.set, scopeGet, scopeSet, scGlue_taken]
      simp [scGlue]
    | @miss1 c hc => obtain ⟨v, dst, conv⟩ := c; cases dst <;> cases hi <;> cases ho <;> cases hq
    | @occ2 c _ hc => obtain ⟨v, dst, conv⟩ := c; cases dst <;> cases hi <;> cases ho <;> cases hq
    | _ => cases hi <;> cases ho <;> cases hq

/-! ### All threads -/

theorem Shared.congr {D D' : List Addr} {m : Mem V} {s : Arc.State V} (h : Shared D m s) (hD : ∀ b, b ∈ D ↔ b ∈ D') : Shared D' m s :=
  ⟨h.table, h.locks, by rw [h.heap]; congr 1; funext e; simp [hD]⟩

/-- One thread has taken a step; what remains to be shown about the others. -/
theorem Sim.update {S : State V} {s : Arc.State V} (h : Sim cfg S s) {t : Tid} {fs fs' : Stack V} {m' : Mem V} {hs : List Addr}
    (ht : S.threads[t]? = some fs) {s' : Arc.State V} {th' : Thread V} (hth : s'.threads = s.threads.set t th') (hh : s'.handles = hs)
    (hrel : Rel cfg fs' th')
    (hsh : ∀ D', (∀ b, D'.count b + (dying fs).count b = (S.threads.flatMap dying).count b + (dying fs').count b) → 
      Shared D' m' s' ∧ (∀ b ∈ D', b ∈ Arc.keys m'.heap) ∧ ∀ b, D'.count b ≤ 1) :
    Sim cfg { mem := m', handles := hs, threads := S.threads.set t fs' } s' := by
  have h1 := fun b => Arc.count_flatMap_set dying b S.threads t fs fs' ht
  obtain ⟨a1, a2, a3⟩ := hsh _ h1
  refine ⟨a1, hh, by rw [hth]; simpa using h.len, ?_, a2, a3⟩
  intro u gs th hu hu'
  rw [hth] at hu'
  have htl : t < S.threads.length := (List.getElem?_eq_some_iff.mp ht).1
  by_cases hut : t = u
  · subst hut
    simp only [List.getElem?_set, if_true, htl, Option.some.injEq] at hu
    simp only [List.getElem?_set, if_true, h.len, htl, Option.some.injEq] at hu'
    subst hu; subst hu'; exact hrel
  · rw [List.getElem?_set_ne hut] at hu hu'
    exact h.th u gs th hu hu'

/-- And the case in which no box changes hands. -/
theorem Sim.same {S : State V} {s : Arc.State V} (h : Sim cfg S s) {t : Tid} {fs fs' : Stack V} {m' : Mem V} {hs : List Addr}
    (ht : S.threads[t]? = some fs) {s' : Arc.State V} {th' : Thread V} (hth : s'.threads = s.threads.set t th') (hh : s'.handles = hs)
    (hrel : Rel cfg fs' th') (hd : dying fs' = dying fs) (hsh : Shared (S.threads.flatMap dying) m' s')
    (ha : ∀ b ∈ S.threads.flatMap dying, b ∈ Arc.keys m'.heap) :
    Sim cfg { mem := m', handles := hs, threads := S.threads.set t fs' } s' := by
  refine h.update ht hth hh hrel fun D' hD' => ?_
  have hc : ∀ b, D'.count b = (S.threads.flatMap dying).count b := by intro b; have := hD' b; rw [hd] at this; omega
  have hm : ∀ b, b ∈ S.threads.flatMap dying ↔ b ∈ D' := by
    intro b; rw [← List.count_pos_iff, ← List.count_pos_iff, hc]
  exact ⟨hsh.congr hm, fun b hb => ha b ((hm b).mpr hb), fun b => by rw [hc]; exact h.nodup b⟩

theorem Sim.thread {S : State V} {s : Arc.State V} (h : Sim cfg S s) {t : Tid} {fs : Stack V} (ht : S.threads[t]? = some fs) :
    ∃ th, s.threads[t]? = some th ∧ Rel cfg fs th := by
  have htl : t < S.threads.length := (List.getElem?_eq_some_iff.mp ht).1
  have : t < s.threads.length := by rw [h.len]; exact htl
  exact ⟨s.threads[t], List.getElem?_eq_getElem this, h.th t fs _ ht (List.getElem?_eq_getElem this)⟩

theorem Rel.idle {th : Thread V} (h : Rel cfg [] th) : th.isIdle = true := by
  cases h with
  | leave hw _ => cases hw; rfl
  | destroy hw _ => cases hw
  | unlock hw _ => cases hw

theorem set_self {α : Type} {l : List α} {t : Nat} {x : α} (h : l[t]? = some x) : l.set t x = l := by
  apply List.ext_getElem?
  intro u
  by_cases hu : t = u
  · subst hu; rw [Arc.set_getElem? _ _ _ _ _ h]; simp [h]
  · rw [List.getElem?_set_ne hu]

/-- What the steps of the code do to the model. -/
theorem Sim.follow {D : List Addr} {m : Mem V} {s : Arc.State V} (hs : Shared D m s) (hd : List Addr) : ∀ (path : List Addr) (p : Addr),
    Arc.follow cfg s p path ≠ .ub → Arc.follow cfg { m.view with handles := hd } p path = Arc.follow cfg s p path
  | [], p, h => by
    cases hx : Arc.get s.heap p with
    | none => exact absurd (by simp [Arc.follow, hx]) h
    | some x => simp [Arc.follow, hx, Mem.view, (hs.get hx).1]
  | q :: path, p, h => by
    cases hx : Arc.get s.heap p with
    | none => exact absurd (by simp [Arc.follow, hx]) h
    | some x =>
      by_cases hq : q ∈ cfg.kids x.data
      · have := Sim.follow hs hd path q (by simpa [Arc.follow, hx, hq] using h)
        simpa [Arc.follow, hx, hq, Mem.view, (hs.get hx).1] using this
      · simp [Arc.follow, hx, hq, Mem.view, (hs.get hx).1]

theorem Sim.borrow {S : State V} {s : Arc.State V} (h : Sim cfg S s) {path : List Addr} (hb : Arc.borrow cfg s path ≠ .ub) :
    Arc.borrow cfg S.view path = Arc.borrow cfg s path := by
  cases path with
  | nil => rfl
  | cons p path =>
    by_cases hp : p ∈ s.handles
    · have hp' : p ∈ S.view.handles := by rw [h.handles] at hp; exact hp
      simp only [Arc.borrow, hp, hp', if_true] at hb ⊢
      exact Sim.follow h.shared _ _ _ hb
    · have hp' : p ∉ S.view.handles := by rw [h.handles] at hp; exact hp
      simp only [Arc.borrow, hp, hp', if_false]

/-- One step of a running function: the reasons why it can be blocked, and otherwise what the model does. -/
theorem sim_run {S : State V} {s : Arc.State V} (h : Sim cfg S s) (t : Tid) (a : Addr) (hub : Arc.step cfg s (.run t a) ≠ .ub) :
    (step cfg S (.run t a) = .blocked ∧ (S.threads[t]? = none ∨ S.threads[t]? = some [] ∨ (a = 0 ∨ a ∈ Arc.keys S.mem.heap) ∨
      ∃ th, s.threads[t]? = some th ∧ th.isIdle = false ∧ ∀ a, Arc.run cfg s t th a = .blocked)) ∨
    ∃ (S' : State V) (s' : Arc.State V) (fs fs' : Stack V), step cfg S (.run t a) = .ok S' ∧ Sim cfg S' s' ∧ S.threads[t]? = some fs ∧
      S'.threads = S.threads.set t fs' ∧ (s' = s ∧ work cfg fs' < work cfg fs ∨ Arc.step cfg s (.run t a) = .ok s') := by
  cases ht : S.threads[t]? with
  | none => exact .inl ⟨by simp [step, ht], .inl rfl⟩
  | some fs =>
    obtain ⟨th, hth, hR⟩ := h.thread ht
    have hfs : ∀ b ∈ dying fs, b ∈ S.threads.flatMap dying := fun b hb => List.mem_flatMap.mpr ⟨fs, List.mem_of_getElem? ht, hb⟩
    simp only [Arc.step, hth] at hub
    have hout := out_run (t := t) hR h.shared h.alloc hfs hub
    generalize hX : (lang cfg).run S.mem t a fs = X at hout
    cases hout with
    | idle e => exact .inl ⟨by simp [step, ht, hX], .inr (.inl (by rw [e]))⟩
    | alloc e => exact .inl ⟨by simp [step, ht, hX], .inr (.inr (.inl e))⟩
    | wait e1 e2 => exact .inl ⟨by simp [step, ht, hX], .inr (.inr (.inr ⟨th, hth, e1, e2⟩))⟩
    | @ok m' fs' r he =>
      refine .inr ?_
      have est : step cfg S (.run t a) = .ok { mem := m', handles := result r ++ S.handles, threads := S.threads.set t fs' } := by
        simp only [step, ht, hX]
      cases he with
      | stutter e1 hR' hd hr hw =>
        subst e1
        exact ⟨_, s, fs, fs', est, h.same ht (set_self hth).symm (by rw [hr, h.handles]; rfl) hR' hd h.shared h.alloc, rfl, rfl, .inl ⟨rfl, hw⟩⟩
      | dealloc b e1 hR' hd hr hw =>
        subst e1
        refine ⟨_, s, fs, fs', est, h.update ht (set_self hth).symm (by rw [hr, h.handles]; rfl) hR' fun D' hD' => ?_, rfl, rfl, .inl ⟨rfl, hw⟩⟩
        have hcnt : ∀ c, (S.threads.flatMap dying).count c = D'.count c + if c = b then 1 else 0 := by
          intro c
          have h1 := hD' c
          have h2 := hd.count_eq c
          rw [List.count_cons] at h2
          by_cases hcb : c = b
          · subst hcb; simp at h2 ⊢; omega
          · have : ¬ b = c := fun h => hcb h.symm
            simp [hcb, this] at h2 ⊢; omega
        have hbD : b ∉ D' := by
          have := hcnt b; have := h.nodup b
          rw [← List.count_eq_zero]; simp at *; omega
        have hmem : ∀ c, c ∈ S.threads.flatMap dying ↔ c ∈ D' ∨ c = b := by
          intro c
          rw [← List.count_pos_iff, hcnt c, ← List.count_pos_iff]
          by_cases hcb : c = b <;> simp [hcb]
        refine ⟨⟨h.shared.table, h.shared.locks, ?_⟩, ?_, ?_⟩
        · rw [h.shared.heap]
          simp only [Arc.free, List.filter_filter]
          congr 1; funext e
          simp only [hmem e.1, not_or, Bool.decide_and]
        · intro c hc
          have := h.alloc c ((hmem c).mpr (.inl hc))
          simp only [Arc.keys, Arc.free, List.mem_map, List.mem_filter] at this ⊢
          obtain ⟨e, he, rfl⟩ := this
          exact ⟨e, ⟨he, by simpa using fun h => hbD (by rw [← h]; exact hc)⟩, rfl⟩
        · intro c; have := hcnt c; have := h.nodup c; omega
      | move s' th' hrun e2 e3 hR' hd hsh ha =>
        exact ⟨_, s', fs, fs', est, h.same ht e2 (by rw [e3, h.handles]) hR' hd hsh ha, rfl, rfl, .inr (by simp only [Arc.step, hth, hrun])⟩
      | destroy b th' hrun hx e1 hR' hd hr =>
        subst e1
        obtain ⟨x, hx⟩ := hx
        obtain ⟨hm, hbD⟩ := h.shared.get hx
        refine ⟨_, { s with heap := Arc.free s.heap b, threads := s.threads.set t th' }, fs, fs', est,
          h.update ht rfl (by rw [hr]; exact h.handles) hR' fun D' hD' => ?_, rfl, rfl,
          .inr (by simp only [Arc.step, hth, hrun])⟩
        have hcnt : ∀ c, D'.count c = (S.threads.flatMap dying).count c + if c = b then 1 else 0 := by
          intro c
          have h1 := hD' c
          have h2 := hd.count_eq c
          rw [List.count_cons] at h2
          by_cases hcb : c = b
          · subst hcb; simp at h2 ⊢; omega
          · have : ¬ b = c := fun h => hcb h.symm
            simp [hcb, this] at h2 ⊢; omega
        have hmem : ∀ c, c ∈ D' ↔ c ∈ S.threads.flatMap dying ∨ c = b := by
          intro c
          rw [← List.count_pos_iff, hcnt c, ← List.count_pos_iff]
          by_cases hcb : c = b <;> simp [hcb]
        refine ⟨⟨h.shared.table, h.shared.locks, ?_⟩, ?_, ?_⟩
        · simp only [h.shared.heap, Arc.free, List.filter_filter]
          congr 1; funext e
          simp only [hmem e.1, not_or, Bool.decide_and, Bool.and_comm]
        · intro c hc
          rcases (hmem c).mp hc with hc | rfl
          · exact h.alloc c hc
          · exact (Arc.get_isSome _ _).mp (by rw [hm]; rfl)
        · intro c
          have := hcnt c; have := h.nodup c
          by_cases hcb : c = b
          · subst hcb
            have : (S.threads.flatMap dying).count c = 0 := List.count_eq_zero.mpr hbD
            simp at *; omega
          · simp [hcb] at *; omega

/-- The action of the model that belongs to an action of the code. -/
def Act.model : Act V → Arc.Act V
  | .spawn => .spawn
  | .new t v dst => .new t v dst
  | .clone t path => .clone t path
  | .read t path => .read t path
  | .drop t p => .drop t p
  | .run t a => .run t a
  | .panic t | .panicInsert t => .panic t

/-- Actions that the model may not see. -/
def Act.Silent : Act V → Prop
  | .read _ _ | .run _ _ | .panic _ => True
  | _ => False

/-- One step of the whole program. -/
theorem sim_step {S : State V} {s : Arc.State V} (h : Sim cfg S s) (hub : ∀ act : Arc.Act V, act.Sane → Arc.step cfg s act ≠ .ub)
    (act : Act V) (hsane : act.Sane) :
    step cfg S act ≠ .ub ∧ ∀ S', step cfg S act = .ok S' → ∃ s', Sim cfg S' s' ∧
      (s' = s ∧ act.Silent ∨ ∃ act', act'.Sane ∧ Arc.step cfg s act' = .ok s' ∧
        (Arc.dropPanic s act' → dropPanic S act) ∧ act' = act.model) := by
  cases act with
  | spawn =>
    refine ⟨(by intro e; cases e), fun S' e => ?_⟩
    cases e
    refine ⟨{ s with threads := s.threads ++ [{}] }, ⟨?_, h.handles, by simp [h.len], ?_, ?_, ?_⟩,
      .inr ⟨.spawn, trivial, rfl, fun e => e.elim, rfl⟩⟩
    · have : (S.threads ++ [[]]).flatMap dying = S.threads.flatMap dying := by simp [dying]
      rw [this]; exact ⟨h.shared.table, h.shared.locks, h.shared.heap⟩
    · intro t fs th h1 h2
      simp only at h1 h2
      by_cases ht : t < S.threads.length
      · rw [List.getElem?_append_left ht] at h1
        rw [List.getElem?_append_left (by rw [h.len]; exact ht)] at h2
        exact h.th t fs th h1 h2
      · rw [List.getElem?_append_right (Nat.le_of_not_lt ht)] at h1
        rw [List.getElem?_append_right (by rw [h.len]; exact Nat.le_of_not_lt ht), h.len] at h2
        have : t - S.threads.length = 0 := by
          rcases Nat.eq_zero_or_pos (t - S.threads.length) with h | h
          · exact h
          · rw [List.getElem?_eq_none (by simpa using Nat.succ_le_of_lt h)] at h1; cases h1
        rw [this] at h1 h2
        cases h1; cases h2
        exact .leave .nil rfl
    · have : (S.threads ++ [[]]).flatMap dying = S.threads.flatMap dying := by simp [dying]
      rw [this]; exact h.alloc
    · have : (S.threads ++ [[]]).flatMap dying = S.threads.flatMap dying := by simp [dying]
      rw [this]; exact h.nodup
  | new t v dst =>
    cases ht : S.threads[t]? with
    | none => simp [step, ht]
    | some fs =>
      cases fs with
      | cons f fs => simp [step, ht]
      | nil =>
        obtain ⟨th, hth, hR⟩ := h.thread ht
        have hid := hR.idle
        by_cases hc : (Arc.ownsAll S.handles (cfg.kids v) && (!dst || (cfg.kids v).isEmpty)) = true
        · refine ⟨(by simp only [step, ht, hc, if_true]; intro e; cases e), fun S' e => ?_⟩
          simp only [step, ht, hc, if_true, Res.ok.injEq] at e
          subst e
          have hc' := hc
          rw [Bool.and_eq_true] at hc'
          refine ⟨{ s.setThread t { pc := .newLoop { val := v, dst := dst, conv := none }, arg := some v } with
              handles := Arc.eraseAll s.handles (cfg.kids v) }, ?_, .inr ⟨.new t v dst, trivial, ?_, fun e => e.elim, rfl⟩⟩
          · refine h.same ht rfl (by rw [h.handles]) ?_ ?_ ⟨h.shared.table, h.shared.locks, h.shared.heap⟩ h.alloc
            · cases dst with
              | false => exact .new (.loop (c := ⟨v, false, none⟩) ⟨(by intro h; cases h), fun _ => rfl⟩)
              | true => exact .new (.conv (by simpa using hc'.2))
            · cases dst <;> rfl
          · simp only [Arc.step, hth, hid, h.handles, Bool.true_and, hc, if_true]
        · simp [step, ht, hc]
  | clone t path =>
    cases ht : S.threads[t]? with
    | none => simp [step, ht]
    | some fs =>
      cases fs with
      | cons f fs => simp [step, ht]
      | nil =>
        obtain ⟨th, hth, hR⟩ := h.thread ht
        have hid := hR.idle
        have hub' := hub (.clone t path) trivial
        have hub2 := hub (.read t path) trivial
        simp only [Arc.step, hth, hid, if_true] at hub' hub2
        have hb := h.borrow (path := path) (by intro e; rw [e] at hub2; exact hub2 rfl)
        cases hbp : Arc.borrow cfg s path with
        | ub => rw [hbp] at hub2; exact absurd rfl hub2
        | blocked => rw [hbp] at hb; simp [step, ht, hb]
        | ok p =>
          rw [hbp] at hb hub'
          cases hx : Arc.get s.heap p with
          | none => simp [hx] at hub'
          | some x =>
            have hm := (h.shared.get hx).1
            refine ⟨by simp [step, ht, hb, hm], fun S' e => ?_⟩
            simp only [step, ht, hb, hm, Res.ok.injEq] at e
            subst e
            refine ⟨{ s with heap := Arc.setCount s.heap p (cfg.inc x.count), handles := p :: s.handles }, ?_,
              .inr ⟨.clone t path, trivial, by simp only [Arc.step, hth, hid, if_true, hbp, hx], fun e => e.elim, rfl⟩⟩
            exact ⟨⟨h.shared.table, h.shared.locks, h.shared.setCount _ _⟩, by simp [h.handles], h.len, h.th,
              by simpa [keys_setCount] using h.alloc, h.nodup⟩
  | read t path =>
    cases ht : S.threads[t]? with
    | none => simp [step, ht]
    | some fs =>
      cases fs with
      | cons f fs => simp [step, ht]
      | nil =>
        obtain ⟨th, hth, hR⟩ := h.thread ht
        have hid := hR.idle
        have hub2 := hub (.read t path) trivial
        simp only [Arc.step, hth, hid, if_true] at hub2
        have hb := h.borrow (path := path) (by intro e; rw [e] at hub2; exact hub2 rfl)
        cases hbp : Arc.borrow cfg s path with
        | ub => rw [hbp] at hub2; exact absurd rfl hub2
        | blocked => rw [hbp] at hb; simp [step, ht, hb]
        | ok p =>
          rw [hbp] at hb
          refine ⟨by simp [step, ht, hb], fun S' e => ?_⟩
          simp only [step, ht, hb, Res.ok.injEq] at e
          subst e
          exact ⟨s, h, .inl ⟨rfl, trivial⟩⟩
  | drop t p =>
    cases ht : S.threads[t]? with
    | none => simp [step, ht]
    | some fs =>
      cases fs with
      | cons f fs => simp [step, ht]
      | nil =>
        obtain ⟨th, hth, hR⟩ := h.thread ht
        have hid := hR.idle
        by_cases hp : p ∈ S.handles
        · refine ⟨by simp [step, ht, hp], fun S' e => ?_⟩
          simp only [step, ht, hp, if_true, Res.ok.injEq] at e
          subst e
          refine ⟨{ s.setThread t { pc := .dropSub p } with handles := s.handles.erase p }, ?_, .inr ⟨.drop t p, trivial, ?_, fun e => e.elim, rfl⟩⟩
          · exact h.same ht rfl (by rw [h.handles]) (.drop (G := []) .sub .nil rfl) rfl ⟨h.shared.table, h.shared.locks, h.shared.heap⟩ h.alloc
          · simp [Arc.step, hth, hid, h.handles, hp]
        · simp [step, ht, hp]
  | run t a =>
    rcases sim_run h t a (hub (.run t a) trivial) with ⟨e, _⟩ | ⟨S1, s1, fs, fs', e, h1, _, _, h2⟩
    · exact ⟨by rw [e]; simp, fun S' e' => by rw [e] at e'; cases e'⟩
    · refine ⟨by rw [e]; simp, fun S' e' => ?_⟩
      rw [e] at e'; cases e'
      refine ⟨s1, h1, ?_⟩
      rcases h2 with ⟨rfl, _⟩ | h2
      · exact .inl ⟨rfl, trivial⟩
      · exact .inr ⟨.run t a, trivial, h2, fun e => e.elim, rfl⟩
  | panic t =>
    cases ht : S.threads[t]? with
    | none => simp [step, ht]
    | some fs =>
      obtain ⟨th, hth, hR⟩ := h.thread ht
      cases hp : (lang cfg).panic S.mem fs with
      | blocked => simp [step, ht, hp]
      | ub =>
        exfalso
        cases fs with
        | nil => cases hp
        | cons f fs =>
          simp only [Lang.panic] at hp
          repeat' split at hp
          all_goals cases hp
      | ok fs' =>
        refine ⟨by simp [step, ht, hp], fun S' e => ?_⟩
        simp only [step, ht, hp, Res.ok.injEq] at e
        subst e
        rcases out_panic (s := s) (t := t) hR hp with ⟨hR', hd⟩ | ⟨th', z, hrun, hR', hd, hrem⟩
        · refine ⟨s, h.same (s' := s) ht ?_ h.handles hR' hd ⟨h.shared.table, h.shared.locks, h.shared.heap⟩ h.alloc, .inl ⟨rfl, trivial⟩⟩
          exact (set_self hth).symm
        refine ⟨_, h.same (s' := { s.setThread t th' with zombies := z }) ht rfl h.handles hR' hd ⟨h.shared.table, h.shared.locks, h.shared.heap⟩ h.alloc,
          .inr ⟨.panic t, trivial, by simp only [Arc.step, hth, hrun], ?_, rfl⟩⟩
        rintro ⟨th2, b, h2, h3⟩
        rw [hth] at h2; cases h2
        exact ⟨fs, ht, hrem ⟨b, h3⟩⟩
  | panicInsert t => exact hsane.elim

end

end Src.ArcCode
