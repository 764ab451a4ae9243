import Verif.Src.ArcStep
/-
One step of a thread of the code, seen from the model.
-/
namespace Src.ArcCode
open Arc (Addr Tid Cell Cfg Res Call Pc Thread)

variable {V : Type} [BEq V] [Hashable V]

/-- What a step of the code is in the model: nothing, the release of memory that the model has released before, a step of the model, or
the step in which the model releases the memory of a box whose content is going to be destroyed. -/
inductive Effect (cfg : Cfg V) (D : List Addr) (m : Mem V) (s : Arc.State V) (t : Tid) (th : Thread V) (a : Addr) (fs : Stack V)
    (m' : Mem V) (fs' : Stack V) (r : Option (Val V)) : Prop
  | stutter : m' = m → Rel cfg fs' th → dying fs' = dying fs → result r = [] → work cfg fs' < work cfg fs → Effect cfg D m s t th a fs m' fs' r
  | dealloc (b : Addr) : m' = { m with heap := Arc.free m.heap b } → Rel cfg fs' th → (dying fs).Perm (b :: dying fs') → result r = [] →
      work cfg fs' < work cfg fs →
      Effect cfg D m s t th a fs m' fs' r
  | move (s' : Arc.State V) (th' : Thread V) : Arc.run cfg s t th a = .ok s' → s'.threads = s.threads.set t th' →
      s'.handles = result r ++ s.handles → Rel cfg fs' th' → dying fs' = dying fs → Shared D m' s' →
      (∀ b ∈ D, b ∈ Arc.keys m'.heap) → Effect cfg D m s t th a fs m' fs' r
  | destroy (b : Addr) (th' : Thread V) :
      Arc.run cfg s t th a = .ok { s with heap := Arc.free s.heap b, threads := s.threads.set t th' } →
      (∃ x, Arc.get s.heap b = some x) → m' = m → Rel cfg fs' th' → (dying fs').Perm (b :: dying fs) → result r = [] →
      Effect cfg D m s t th a fs m' fs' r

/-- The possible outcomes of a step: it never goes wrong, and it is only blocked if the thread has nothing to do, or the allocator has
returned an address that is not free, or the model waits, too. -/
inductive Out (cfg : Cfg V) (D : List Addr) (m : Mem V) (s : Arc.State V) (t : Tid) (th : Thread V) (a : Addr) (fs : Stack V) :
    Res (Mem V × Stack V × Option (Val V)) → Prop
  | ok {m' : Mem V} {fs' : Stack V} {r : Option (Val V)} : Effect cfg D m s t th a fs m' fs' r →
      Out cfg D m s t th a fs (.ok (m', fs', r))
  | idle : fs = [] → Out cfg D m s t th a fs .blocked
  | alloc : a = 0 ∨ a ∈ Arc.keys m.heap → Out cfg D m s t th a fs .blocked
  | wait : th.isIdle = false → (∀ a, Arc.run cfg s t th a = .blocked) → Out cfg D m s t th a fs .blocked

section
variable {cfg : Cfg V} {D : List Addr} {m : Mem V} {s : Arc.State V} {t : Tid} {th : Thread V} {a : Addr} {fs fs' : Stack V}
  {X : Res (Mem V × Stack V × Option (Val V))}

macro "work_tac" : tactic => `(tactic| (
  simp [work, cost, slack, rest, after, found, missing, body, dropCode, newCode, scGlue, glue, dropVars, taken, params] <;> omega))

theorem Out.still (hR : Rel cfg fs' th) (h : X = .ok (m, fs', none)) (hd : dying fs' = dying fs) (hm : work cfg fs' < work cfg fs := by work_tac) : Out cfg D m s t th a fs X := by
  subst h; exact .ok (.stutter rfl hR hd rfl hm)

omit [BEq V] [Hashable V] in
theorem handlesOf_append (G G' : List (Glue V)) : handlesOf (G ++ G') = handlesOf G ++ handlesOf G' := by simp [handlesOf]
omit [BEq V] [Hashable V] in
theorem handlesOf_handles (l : List Addr) : handlesOf (l.map (.handle : Addr → Glue V)) = l := by
  induction l with
  | nil => rfl
  | cons b l ih => simpa [handlesOf] using ih
omit [BEq V] [Hashable V] in
theorem soft_handles (l : List Addr) : (l.map (Glue.handle : Addr → Glue V)).all Glue.soft = true := by
  induction l with
  | nil => rfl
  | cons b l ih => simp [Glue.soft]
omit [BEq V] [Hashable V] in
theorem handlesOf_arg (c : Call V) : handlesOf (argGlue cfg c) = cfg.kids c.val := by
  rw [argGlue, handlesOf_append, handlesOf_handles]
  cases c.dst <;> rfl
omit [BEq V] [Hashable V] in
theorem soft_arg (c : Call V) : (argGlue cfg c).all Glue.soft = true := by
  rw [argGlue, List.all_append, soft_handles]
  cases c.dst <;> rfl
omit [BEq V] [Hashable V] in
theorem deallocsOf_handles (l : List Addr) : deallocsOf ((l.map (Glue.handle : Addr → Glue V)).map .glue) = [] := by
  simp [deallocsOf]

/-- A thread all of whose functions are leaving and only have to drop handles and to release memory. -/
theorem out_leave {G : List (Glue V)} {r : Option Addr} {arg : Option V} (hs : Shared D m s) (hD : ∀ b ∈ D, b ∈ Arc.keys m.heap)
    (hfs : ∀ b ∈ dying fs, b ∈ D) (hw : Winds cfg fs G r) (hG : G.all Glue.soft = true) :
    Out cfg D m s t ⟨.idle, handlesOf G, r, arg⟩ a fs ((lang cfg).run m t a fs) := by
  cases fs with
  | nil => exact .idle rfl
  | cons f fs =>
    rcases hw.step m t a with ⟨rfl, rfl, he⟩ | ⟨fs', he, hw', hd, hlen, hwork⟩ | ⟨g, G', l, rfl, hi, hnew⟩
    · rw [he]
      have hdy : dying ([] : Stack V) = dying [f] := by
        cases hw with
        | last hw _ =>
          have : ∀ (l : List (It V)) (scs : Scopes Var (Val V)), wind cfg f.exiting scs l = some [] → deallocsOf l = [] := by
            intro l
            induction l with
            | nil => intros; rfl
            | cons i l ih =>
              intro scs h
              cases i with
              | glue g => rw [wind_glue] at h; simp at h
              | close =>
                cases scs with
                | nil => cases h
                | cons sc scs =>
                  simp only [wind, Option.map_eq_some_iff, List.append_eq_nil_iff] at h
                  obtain ⟨G, h1, _, rfl⟩ := h
                  simpa [deallocsOf] using ih _ h1
              | again _ =>
                cases he : f.exiting with
                | false => rw [he] at h; cases scs <;> cases h
                | true => rw [he] at h ih; have := ih scs (by cases scs <;> simpa [wind] using h); simpa [deallocsOf] using this
              | stmt _ =>
                cases he : f.exiting with
                | false => rw [he] at h; cases scs <;> cases h
                | true => rw [he] at h ih; have := ih scs (by cases scs <;> simpa [wind] using h); simpa [deallocsOf] using this
          simp [dying, this _ _ hw]
      cases r with
      | none => exact .ok (.stutter rfl (.leave .nil rfl) hdy rfl (by simp [work, cost]))
      | some b =>
        exact .ok (.move { s.setThread t {} with handles := b :: s.handles } {} rfl rfl rfl (.leave .nil rfl) hdy
          ⟨hs.table, hs.locks, hs.heap⟩ hD)
    · exact Out.still (.leave hw' hG) he hd hwork
    · simp only [List.all_cons, Bool.and_eq_true] at hG
      cases g with
      | unlock _ => cases hG.1
      | destroy _ => cases hG.1
      | value =>
        have he : (lang cfg).run m t a (f :: fs) = .ok (m, { f with items := l } :: fs, none) := by
          simp only [Lang.run, hi, drop]; rfl
        refine Out.still (show Rel cfg _ ⟨.idle, handlesOf G', r, arg⟩ from .leave (hnew []) hG.2) he ?_ ?_
        · simp [dying, hi, deallocsOf]
        · refine lt_eq_trans (work_cons cfg _ _) ?_
          simp only [work_cons, cost, hi]
          simp [slack]
      | handle b =>
        have he : (lang cfg).run m t a (f :: fs) = .ok (m, { scopes := [[(.self, some (.ref b))]], items := dropCode.map .stmt ++ [.close] } ::
            { f with items := l } :: fs, none) := by
          simp only [Lang.run, hi, drop]; rfl
        rw [he]
        refine .ok (.move (s.setThread t ⟨.dropSub b, handlesOf G', r, arg⟩) ⟨.dropSub b, handlesOf G', r, arg⟩ rfl rfl rfl
          (.drop .sub (hnew []) hG.2) ?_ ⟨hs.table, hs.locks, hs.heap⟩ hD)
        simp [dying, hi, deallocsOf, dropCode]
      | dealloc b =>
        have hb : b ∈ dying (f :: fs) := by simp [dying, hi, deallocsOf]
        obtain ⟨x, hx⟩ := Arc.exists_get (hD b (hfs b hb))
        have he : (lang cfg).run m t a (f :: fs) = .ok ({ m with heap := Arc.free m.heap b }, { f with items := l } :: fs, none) := by
          simp only [Lang.run, hi, drop, hx]; rfl
        rw [he]
        refine .ok (.dealloc b rfl (show Rel cfg _ ⟨.idle, handlesOf G', r, arg⟩ from .leave (hnew []) hG.2) ?_ rfl ?_)
        · simp [dying, hi, deallocsOf]
        · refine lt_eq_trans (work_cons cfg _ _) ?_
          simp only [work_cons, cost, hi]
          simp [slack]

/-- A thread that is about to destroy a box. -/
theorem out_destroy {G : List (Glue V)} {r : Option Addr} {b : Addr} {arg : Option V} (hs : Shared D m s) 
    (hub : Arc.run cfg s t ⟨.dropFree b, handlesOf G, r, arg⟩ a ≠ .ub) (hw : Winds cfg fs (.destroy b :: G) r)
    (hG : G.all Glue.soft = true) :
    Out cfg D m s t ⟨.dropFree b, handlesOf G, r, arg⟩ a fs ((lang cfg).run m t a fs) := by
  cases fs with
  | nil => exact .idle rfl
  | cons f fs =>
    rcases hw.step m t a with ⟨_, h, _⟩ | ⟨fs', he, hw', hd, hlen, hwork⟩ | ⟨g, G', l, e, hi, hnew⟩
    · cases h
    · exact Out.still (.destroy hw' hG) he hd hwork
    · cases e
      cases hx : Arc.get s.heap b with
      | none => exact absurd (by simp [Arc.run, hx]) hub
      | some x =>
        have hm := (hs.get hx).1
        have he : (lang cfg).run m t a (f :: fs) =
            .ok (m, { f with items := (Glue.value x.data :: (cfg.kids x.data).map Glue.handle ++ [Glue.dealloc b]).map .glue ++ l } :: fs, none) := by
          simp only [Lang.run, hi, drop, hm]; rfl
        rw [he]
        refine .ok (.destroy b ⟨.idle, cfg.kids x.data ++ handlesOf G, r, arg⟩ (by simp [Arc.run, hx, Arc.State.setThread]) ⟨x, hx⟩ rfl
          ?_ ?_ rfl)
        · have := Rel.leave (arg := arg) (hnew (.value x.data :: (cfg.kids x.data).map .handle ++ [.dealloc b]))
            (by simp only [List.all_append, List.all_cons, soft_handles, hG, Bool.and_true]; rfl)
          rw [handlesOf_append, handlesOf_append, show Glue.value x.data :: (cfg.kids x.data).map .handle = [.value x.data] ++ (cfg.kids x.data).map .handle from rfl, handlesOf_append, handlesOf_handles] at this
          simpa [handlesOf] using this
        · simp only [dying, List.flatMap_cons, hi, List.map_append, List.map_cons, deallocsOf_append]
          rw [show ∀ l : List (It V), deallocsOf (.glue (.value x.data) :: l) = deallocsOf l from fun _ => rfl, deallocsOf_handles]
          simp [deallocsOf]

/-- A `new` that has found its value and is about to release the guard. -/
theorem out_unlock {c : Call V} {sh : Nat} {b : Addr} {arg : Option V} (hs : Shared D m s) (hD : ∀ b ∈ D, b ∈ Arc.keys m.heap)
    (hw : Winds cfg fs (.unlock sh :: unw cfg c) (some b)) (hl : fs.length ≤ 1) :
    Out cfg D m s t ⟨.newHit c sh b, [], none, arg⟩ a fs ((lang cfg).run m t a fs) := by
  cases fs with
  | nil => exact .idle rfl
  | cons f fs =>
    rcases hw.step m t a with ⟨_, h, _⟩ | ⟨fs', he, hw', hd, hlen, hwork⟩ | ⟨g, G', l, e, hi, hnew⟩
    · cases h
    · exact Out.still (.unlock hw' (by omega)) he hd hwork
    · cases e
      have he : (lang cfg).run m t a (f :: fs) = .ok (m.unlock sh, { f with items := l } :: fs, none) := by
        simp only [Lang.run, hi, drop]; rfl
      rw [he]
      refine .ok (.move ((s.unlock sh).setThread t (Arc.unwindCall cfg c (some b) arg)) (Arc.unwindCall cfg c (some b) arg) rfl rfl rfl ?_ ?_
        ⟨hs.table, ?_, hs.heap⟩ hD)
      · have hw2 := hnew []
        cases hc : c.conv with
        | none =>
          have := Rel.leave (arg := arg) hw2 (by simp only [unw, hc, Option.toList, List.map_nil, List.nil_append, soft_arg])
          simp only [unw, hc, Option.toList, List.map_nil, List.nil_append, handlesOf_arg] at this
          simpa [Arc.unwindCall, hc] using this
        | some b' =>
          simp only [unw, hc, Option.toList, List.map_cons, List.map_nil, List.nil_append, List.cons_append] at hw2
          have := Rel.destroy (arg := arg) hw2 (soft_arg _)
          simp only [handlesOf_arg] at this
          simpa [Arc.unwindCall, hc] using this
      · simp [dying, hi, deallocsOf]
      · simp [Arc.State.unlock, Arc.State.setThread, Mem.unlock, hs.locks]

theorem keys_setCount (h : List (Addr × Cell V)) (b n : Nat) : Arc.keys (Arc.setCount h b n) = Arc.keys h := by
  simp only [Arc.keys, Arc.setCount, List.map_map]
  congr 1; funext e; simp only [Function.comp]; split <;> rfl

theorem Shared.setCount (hs : Shared D m s) (b n : Nat) :
    Arc.setCount s.heap b n = (Arc.setCount m.heap b n).filter fun e => decide (e.1 ∉ D) := by
  rw [hs.heap, setCount_live]

/-- The places in `drop`. -/
theorem out_drop {scs : Scopes Var (Val V)} {items : List (It V)} {pc : Pc V} {G : List (Glue V)} {r : Option Addr} {arg : Option V}
    (hs : Shared D m s) (hD : ∀ b ∈ D, b ∈ Arc.keys m.heap) (hA : DropAt scs items pc) (hw : Winds cfg fs G r)
    (hG : G.all Glue.soft = true) (hub : Arc.run cfg s t ⟨pc, handlesOf G, r, arg⟩ a ≠ .ub) :
    Out cfg D m s t ⟨pc, handlesOf G, r, arg⟩ a ({ scopes := scs, items := items } :: fs)
      ((lang cfg).run m t a ({ scopes := scs, items := items } :: fs)) := by
  have leave : ∀ (f : Frame Var (Val V) Op (Glue V)), wind cfg f.exiting f.scopes f.items = some [] → f.ret = none → 
      Winds cfg (f :: fs) G r := by
    intro f h1 h2
    cases hw with
    | nil => exact .last h1 h2
    | last a b => exact .cons (g := []) h1 h2 (.last a b)
    | cons a b c => exact .cons (g := []) h1 h2 (.cons a b c)
  cases hA with
  | @sub b =>
    cases hx : Arc.get s.heap b with
    | none => exact absurd (by simp [Arc.run, hx]) hub
    | some x =>
      have hm := (hs.get hx).1
      have he : (lang cfg).run m t a ({ scopes := [[(.self, some (.ref b))]], items := dropCode.map .stmt ++ [.close] } :: fs) =
          .ok ({ m with heap := Arc.setCount m.heap b (cfg.dec x.count) },
            { scopes := [dropVars b x.count], items := (dropCode.drop 1).map .stmt ++ [.close] } :: fs, none) := by
        simp [Lang.run, Lang.stmt, dropCode, exec, Scopes.get, scopeGet, hm, Scopes.declare, dropVars]
      rw [he]
      by_cases h1 : x.count = 1
      · refine .ok (.move ({ s with heap := Arc.setCount s.heap b (cfg.dec x.count) }.setThread t ⟨.dropRemove b, handlesOf G, r, arg⟩)
          ⟨.dropRemove b, handlesOf G, r, arg⟩ (by simp [Arc.run, hx, h1]) rfl rfl ?_ rfl
          ⟨hs.table, hs.locks, ?_⟩ (by simpa [keys_setCount] using hD))
        · have := Rel.drop (arg := arg) (.test (b := b) (n := x.count)) hw hG
          simpa [h1] using this
        · simpa [Arc.State.setThread, h1] using hs.setCount _ _
      · refine .ok (.move ({ s with heap := Arc.setCount s.heap b (cfg.dec x.count) }.setThread t ⟨.idle, handlesOf G, r, arg⟩)
          ⟨.idle, handlesOf G, r, arg⟩ (by simp [Arc.run, hx, h1]) rfl rfl ?_ rfl
          ⟨hs.table, hs.locks, ?_⟩ (by simpa [keys_setCount] using hD))
        · have := Rel.drop (arg := arg) (.test (b := b) (n := x.count)) hw hG
          simpa [h1] using this
        · simpa [Arc.State.setThread] using hs.setCount _ _
  | @test b n =>
    by_cases h1 : n = 1
    · subst h1
      exact Out.still (.drop .yield hw hG) rfl rfl
    · rw [if_neg h1]
      refine Out.still (fs' := { scopes := [[(.u, none)], dropVars b n], items := [.close, .close] } :: fs)
        (.leave (leave _ rfl rfl) hG) ?_ rfl
      simp [Lang.run, Lang.stmt, dropCode, exec, Scopes.get, scopeGet, dropVars, h1]
  | yield => exact Out.still (.drop .fence hw hG) rfl rfl
  | fence => exact Out.still (.drop .uninit hw hG) rfl rfl
  | uninit => exact Out.still (.drop .cont hw hG) rfl rfl
  | cont => exact Out.still (.drop .remove hw hG) rfl rfl
  | @remove b n =>
    cases hx : Arc.get s.heap b with
    | none => exact absurd (by simp [Arc.run, hx]) hub
    | some x =>
      have hm := (hs.get hx).1
      by_cases hl : (s.locks (cfg.shardOf x.data)).isSome = true
      · have hl' := hl
        rw [hs.locks] at hl'
        have he : (lang cfg).run m t a ({ scopes := [[(.remove, none), (.u, none)], dropVars b n], items := [.stmt (.assign .remove (.remove .self)), .close, .close] } :: fs) = .blocked := by
          simp [Lang.run, Lang.stmt, exec, Scopes.get, scopeGet, hm, dropVars, hl']
        rw [he]
        exact .wait rfl (by simp [Arc.run, hx, hl])
      · have hl' := hl
        rw [hs.locks] at hl'
        by_cases ht : Arc.tableOk s = true
        · have ht' := hs.tableOk ht
          have hf := hs.find ht x.data
          cases hr : Arc.find s x.data with
          | none =>
            rw [hr] at hf
            have he : (lang cfg).run m t a ({ scopes := [[(.remove, none), (.u, none)], dropVars b n], items := [.stmt (.assign .remove (.remove .self)), .close, .close] } :: fs) =
                .ok (m, { scopes := [[(.remove, some (.optBox none)), (.u, none)], dropVars b n], items := [.close, .close] } :: fs, none) := by
              simp [Lang.run, Lang.stmt, exec, Scopes.get, scopeGet, hm, dropVars, hl', ht', hf, Scopes.set, scopeSet]
            rw [he]
            exact .ok (.move (s.setThread t ⟨.idle, handlesOf G, r, arg⟩) ⟨.idle, handlesOf G, r, arg⟩ (by simp [Arc.run, hx, hl, ht, hr])
              rfl rfl (.leave (leave _ rfl rfl) hG) rfl ⟨hs.table, hs.locks, hs.heap⟩ hD)
          | some q =>
            rw [hr] at hf
            have he : (lang cfg).run m t a ({ scopes := [[(.remove, none), (.u, none)], dropVars b n], items := [.stmt (.assign .remove (.remove .self)), .close, .close] } :: fs) =
                .ok ({ m with table := m.table.erase q },
                  { scopes := [[(.remove, some (.optBox (some q))), (.u, none)], dropVars b n], items := [.close, .close] } :: fs, none) := by
              simp [Lang.run, Lang.stmt, exec, Scopes.get, scopeGet, hm, dropVars, hl', ht', hf, Scopes.set, scopeSet]
            rw [he]
            refine .ok (.move ({ s with table := s.table.erase q }.setThread t ⟨.dropFree q, handlesOf G, r, arg⟩) ⟨.dropFree q, handlesOf G, r, arg⟩
              (by simp [Arc.run, hx, hl, ht, hr]) rfl rfl (.destroy ?_ hG) rfl ⟨?_, hs.locks, hs.heap⟩ hD)
            · have h1 : wind cfg false [[(.remove, some (.optBox (some q))), (.u, none)], dropVars b n] [.close, .close] = some [.destroy q] := rfl
              cases hw with
              | nil => exact .last h1 rfl
              | last a b => exact .cons (g := [.destroy q]) h1 rfl (.last a b)
              | cons a b c => exact .cons (g := [.destroy q]) h1 rfl (.cons a b c)
            · simp [Arc.State.setThread, hs.table]
        · exact absurd (by simp [Arc.run, hx, hl, ht]) hub

theorem params_get {c : Call V} (r : Scopes Var (Val V)) : 
    Scopes.get .val ([] :: params c :: r) = some (if c.dst then .borrowed c.val else .owned c.val) := by
  obtain ⟨v, dst, conv⟩ := c
  cases dst <;> rfl

/-- What the variables of `new` leave to be destroyed. -/
theorem scGlue_params {c : Call V} (h : OkCall cfg c) : scGlue cfg (params c) = unw cfg c := by
  obtain ⟨v, dst, conv⟩ := c
  cases dst with
  | true => have := h.1 rfl; simp only at this; cases conv <;> simp [scGlue, params, glue, unw, argGlue, this]
  | false => have := h.2 rfl; simp only at this; subst this; simp [scGlue, params, glue, unw, argGlue]

theorem scGlue_taken (c : Call V) : scGlue cfg (taken c) = [] := by
  obtain ⟨v, dst, conv⟩ := c
  cases dst <;> rfl

theorem Shared.alloc (hs : Shared D m s) (hD : ∀ b ∈ D, b ∈ Arc.keys m.heap) (ha : ¬(a = 0 ∨ a ∈ Arc.keys m.heap)) (x : Cell V) :
    (a, x) :: s.heap = ((a, x) :: m.heap).filter fun e => decide (e.1 ∉ D) := by
  have : a ∉ D := fun h => ha (.inr (hD a h))
  simp [hs.heap, this]

theorem Shared.fresh (hs : Shared D m s) (ha : ¬(a = 0 ∨ a ∈ Arc.keys m.heap)) : ¬(a = 0 ∨ a ∈ Arc.keys s.heap) := by
  intro h
  apply ha
  refine h.imp id fun h => ?_
  rw [hs.heap] at h
  exact (keys_live h).1

/-- The places in `new`. -/
theorem out_new {scs : Scopes Var (Val V)} {items : List (It V)} {pc : Pc V} {r : Option Addr} {arg : Option V}
    (hs : Shared D m s) (hD : ∀ b ∈ D, b ∈ Arc.keys m.heap) (hA : NewAt cfg scs items pc r)
    (hub : Arc.run cfg s t ⟨pc, [], r, arg⟩ a ≠ .ub) :
    Out cfg D m s t ⟨pc, [], r, arg⟩ a [{ scopes := scs, items := items }]
      ((lang cfg).run m t a [{ scopes := scs, items := items }]) := by
  cases hA with
  | @conv v hv =>
    exact Out.still (.new (.loop (c := ⟨v, true, none⟩) ⟨fun _ => hv, by intro h; cases h⟩)) rfl rfl
  | loop hc => exact Out.still (.new (.block hc)) rfl rfl
  | block hc => exact Out.still (.new (.cont hc)) rfl rfl
  | cont hc => exact Out.still (.new (.look hc)) rfl rfl
  | @look c hc =>
    by_cases hl : (s.locks (cfg.shardOf c.val)).isSome = true
    · have hl' := hl
      rw [hs.locks] at hl'
      have he : exec cfg m t a [[], params c] (.getMut .val) = .blocked := by
        cases hd : c.dst <;> simp [exec, params_get, hl', hd]
      have : (lang cfg).run m t a [{ scopes := [[], params c], items := .stmt (.choose .g (.getMut .val) found (missing c.dst)) :: .stmt (.exec .yieldNow) :: .close :: after c.dst }] = .blocked := by
        simp [Lang.run, Lang.stmt, he]
      rw [this]
      exact .wait rfl (by simp [Arc.run, hl])
    · have hl' := hl
      rw [hs.locks] at hl'
      by_cases ht : Arc.tableOk s = true
      · have ht' := hs.tableOk ht
        have hf := hs.find ht c.val
        cases hr : Arc.find s c.val with
        | some q =>
          rw [hr] at hf
          have he : exec cfg m t a [[], params c] (.getMut .val) = .ok { mem := m.lock (cfg.shardOf c.val) t, scopes := [[], params c], arm := 0, val := some (.guard (cfg.shardOf c.val) q) } := by
            cases hd : c.dst <;> simp [exec, params_get, hl', hd, ht', hf]
          have : (lang cfg).run m t a [{ scopes := [[], params c], items := .stmt (.choose .g (.getMut .val) found (missing c.dst)) :: .stmt (.exec .yieldNow) :: .close :: after c.dst }] =
             .ok (m.lock (cfg.shardOf c.val) t, [{ scopes := [[(.g, some (.guard (cfg.shardOf c.val) q))], [], params c], items := found.map .stmt ++ rest c.dst }], none) := by
            simp [Lang.run, Lang.stmt, he, rest]
          rw [this]
          refine .ok (.move ((s.lock (cfg.shardOf c.val) t).setThread t ⟨.newFound c (cfg.shardOf c.val) q, [], none, arg⟩)
            ⟨.newFound c (cfg.shardOf c.val) q, [], none, arg⟩ (by simp [Arc.run, hl, ht, hr]) rfl rfl (.new (.hit1 hc)) ?_
            ⟨hs.table, ?_, hs.heap⟩ hD)
          · simp [dying, deallocsOf, found, rest, after]
          · simp [Arc.State.lock, Arc.State.setThread, Mem.lock, hs.locks]
        | none =>
          rw [hr] at hf
          have he : exec cfg m t a [[], params c] (.getMut .val) = .ok { mem := m, scopes := [[], params c], arm := 1 } := by
            cases hd : c.dst <;> simp [exec, params_get, hl', hd, ht', hf]
          have : (lang cfg).run m t a [{ scopes := [[], params c], items := .stmt (.choose .g (.getMut .val) found (missing c.dst)) :: .stmt (.exec .yieldNow) :: .close :: after c.dst }] =
             .ok (m, [{ scopes := [[(.g, none)], [], params c], items := (missing c.dst).map .stmt ++ rest c.dst }], none) := by
            simp [Lang.run, Lang.stmt, he, rest]
          rw [this]
          have hrel := Rel.new (arg := arg) (.miss1 hc)
          refine .ok (.move (s.setThread t ⟨match c.conv with | some b => .newEntry { c with conv := none } b | none => .newAlloc c, [], none, arg⟩)
            ⟨match c.conv with | some b => .newEntry { c with conv := none } b | none => .newAlloc c, [], none, arg⟩ ?_ rfl rfl hrel ?_
            ⟨hs.table, hs.locks, hs.heap⟩ hD)
          · cases hcv : c.conv <;> simp [Arc.run, hl, ht, hr, hcv]
          · cases c.dst <;> simp [dying, deallocsOf, missing, rest, after]
      · exact absurd (by simp [Arc.run, hl, ht]) hub
  | hit1 hc => exact Out.still (.new (.hit2 hc)) rfl rfl
  | @hit2 c sh b hc =>
    cases hx : Arc.get s.heap b with
    | none => exact absurd (by simp [Arc.run, hx]) hub
    | some x =>
      have hm := (hs.get hx).1
      have he : ∀ l, (lang cfg).run m t a [{ scopes := [[(.b, some (.ref b)), (.g, some (.guard sh b))], [], params c], items := .stmt (.bind .oldval (.fetchAdd .b)) :: l }] =
          .ok ({ m with heap := Arc.setCount m.heap b (cfg.inc x.count) },
            [{ scopes := [[(.oldval, some (.num x.count)), (.b, some (.ref b)), (.g, some (.guard sh b))], [], params c], items := l }], none) := by
        intro l
        simp [Lang.run, Lang.stmt, exec, Scopes.get, scopeGet, hm, Scopes.declare]
      rw [he]
      have hrel := Rel.new (arg := arg) (.hit3 (sh := sh) (n := x.count) (b := b) hc)
      refine .ok (.move ({ s with heap := Arc.setCount s.heap b (cfg.inc x.count) }.setThread t ⟨if x.count ≠ 0 then .newHit c sh b else .newUndo c sh b, [], none, arg⟩)
          ⟨if x.count ≠ 0 then .newHit c sh b else .newUndo c sh b, [], none, arg⟩ ?_ rfl rfl hrel ?_
          ⟨hs.table, hs.locks, hs.setCount _ _⟩ (by simpa [keys_setCount] using hD))
      · by_cases h0 : x.count = 0 <;> simp [Arc.run, hx, h0]
      · simp [dying, deallocsOf, rest, after]
  | @hit3 c sh n b hc =>
    by_cases h0 : n = 0
    · subst h0
      exact Out.still (.new (.undo1 hc)) rfl rfl
    · simp only [ne_eq, h0, not_false_eq_true, if_true]
      refine Out.still (.new (.hit4 (n := n) hc)) ?_ rfl
      simp [Lang.run, Lang.stmt, exec, Scopes.get, scopeGet, h0]
  | @hit4 c sh n b hc =>
    refine Out.still (fs' := [{ scopes := [[(.u, none)], [(.oldval, some (.num n)), (.b, some (.ref b)), (.g, some (.guard sh b))], [], params c], items := .close :: rest c.dst, exiting := true, ret := some (.handle b) }])
      (.unlock (.last ?_ rfl) (Nat.le_refl _)) rfl rfl
    simp [wind, rest, after, scGlue_params hc]
    simp [scGlue, glue]
  | @undo1 c sh n b hc =>
    cases hx : Arc.get s.heap b with
    | none => exact absurd (by simp [Arc.run, hx]) hub
    | some x =>
      have hm := (hs.get hx).1
      have he : ∀ l, (lang cfg).run m t a [{ scopes := [[(.u, none)], [(.oldval, some (.num n)), (.b, some (.ref b)), (.g, some (.guard sh b))], [], params c], items := .stmt (.exec (.fetchSub .b)) :: l }] =
          .ok ({ m with heap := Arc.setCount m.heap b (cfg.dec x.count) },
            [{ scopes := [[(.u, none)], [(.oldval, some (.num n)), (.b, some (.ref b)), (.g, some (.guard sh b))], [], params c], items := l }], none) := by
        intro l
        simp [Lang.run, Lang.stmt, exec, Scopes.get, scopeGet, hm, glue]
      rw [he]
      refine .ok (.move ({ s with heap := Arc.setCount s.heap b (cfg.dec x.count) }.setThread t ⟨.newRelease c sh, [], none, arg⟩)
          ⟨.newRelease c sh, [], none, arg⟩ (by simp [Arc.run, hx]) rfl rfl (.new (.undo2 hc)) ?_
          ⟨hs.table, hs.locks, hs.setCount _ _⟩ (by simpa [keys_setCount] using hD))
      simp [dying, deallocsOf, rest, after]
  | undo2 hc => exact Out.still (.new (.undo3 hc)) rfl rfl
  | undo3 hc => exact Out.still (.new (.undo4 hc)) rfl rfl
  | @undo4 c sh hc =>
    refine .ok (.move ((s.unlock sh).setThread t ⟨.newLoop c, [], none, arg⟩) ⟨.newLoop c, [], none, arg⟩ rfl rfl rfl (.new (.yield hc)) rfl
      ⟨hs.table, ?_, hs.heap⟩ hD)
    simp [Arc.State.unlock, Arc.State.setThread, Mem.unlock, hs.locks]
  | yield hc => exact Out.still (.new (.endBlock hc)) rfl rfl
  | endBlock hc => exact Out.still (.new (.again hc)) rfl rfl
  | again hc => exact Out.still (.new (.block hc)) rfl rfl
  | @miss1 c hc =>
    obtain ⟨v, dst, conv⟩ := c
    cases dst with
    | false =>
      have hcv := hc.2 rfl
      simp only at hcv
      subst hcv
      by_cases ha : a = 0 ∨ a ∈ Arc.keys m.heap
      · have : (lang cfg).run m t a [{ scopes := [[(.g, none)], [], params ⟨v, false, none⟩], items := (missing false).map .stmt ++ rest false }] = .blocked := by
          simp [Lang.run, Lang.stmt, exec, Scopes.get, scopeGet, params, missing, ha]
        rw [this]
        exact .alloc ha
      · have : (lang cfg).run m t a [{ scopes := [[(.g, none)], [], params ⟨v, false, none⟩], items := (missing false).map .stmt ++ rest false }] =
          .ok ({ m with heap := (a, { count := 1, data := v }) :: m.heap }, [{ scopes := [[(.b, some (.box a)), (.g, none)], [], taken ⟨v, false, none⟩], items := ((missing false).drop 1).map .stmt ++ rest false }], none) := by
          simp [Lang.run, Lang.stmt, exec, Scopes.get, scopeGet, params, missing, ha, Scopes.set, scopeSet, Scopes.declare, taken]
        rw [this]
        exact .ok (.move ({ s with heap := (a, { count := 1, data := v }) :: s.heap }.setThread t ⟨.newEntry ⟨v, false, none⟩ a, [], none, arg⟩)
          ⟨.newEntry ⟨v, false, none⟩ a, [], none, arg⟩ (by simp [Arc.run, hs.fresh ha]) rfl rfl (.new (.miss2 hc rfl)) rfl
          ⟨hs.table, hs.locks, hs.alloc hD ha _⟩ (fun b hb => by have := hD b hb; simp [Arc.keys] at this ⊢; exact .inr this))
    | true =>
      cases conv with
      | none =>
        by_cases ha : a = 0 ∨ a ∈ Arc.keys m.heap
        · have : (lang cfg).run m t a [{ scopes := [[(.g, none)], [], params ⟨v, true, none⟩], items := (missing true).map .stmt ++ rest true }] = .blocked := by
            simp [Lang.run, Lang.stmt, exec, Scopes.get, scopeGet, params, missing, ha]
          rw [this]
          exact .alloc ha
        · have : (lang cfg).run m t a [{ scopes := [[(.g, none)], [], params ⟨v, true, none⟩], items := (missing true).map .stmt ++ rest true }] =
            .ok ({ m with heap := (a, { count := 1, data := v }) :: m.heap }, [{ scopes := [[(.b, some (.box a)), (.g, none)], [], taken ⟨v, true, none⟩], items := ((missing true).drop 1).map .stmt ++ rest true }], none) := by
            simp [Lang.run, Lang.stmt, exec, Scopes.get, scopeGet, params, missing, ha, Scopes.declare, taken]
          rw [this]
          exact .ok (.move ({ s with heap := (a, { count := 1, data := v }) :: s.heap }.setThread t ⟨.newEntry ⟨v, true, none⟩ a, [], none, arg⟩)
            ⟨.newEntry ⟨v, true, none⟩ a, [], none, arg⟩ (by simp [Arc.run, hs.fresh ha]) rfl rfl (.new (.miss2 hc rfl)) rfl
            ⟨hs.table, hs.locks, hs.alloc hD ha _⟩ (fun b hb => by have := hD b hb; simp [Arc.keys] at this ⊢; exact .inr this))
      | some b =>
        exact Out.still (.new (.miss2 (c := ⟨v, true, none⟩) ⟨hc.1, by intro h; cases h⟩ rfl)) rfl rfl
  | @miss2 c b hc hcv =>
    cases hx : Arc.get s.heap b with
    | none => exact absurd (by simp [Arc.run, hx]) hub
    | some x =>
      have hm := (hs.get hx).1
      have hrun : (lang cfg).run m t a [{ scopes := [[(.b, some (.box b)), (.g, none)], [], taken c], items := ((missing c.dst).drop 1).map .stmt ++ rest c.dst }] =
          match exec cfg m t a [[(.b, some (.box b)), (.g, none)], [], taken c] (.entry .b) with
          | .ok d => .ok (d.mem, [{ scopes := [(.e, d.val)] :: d.scopes, items := (if d.arm = 0 then [Stmt.bind .p (.handleOf .e), .exec (.insert .e), .ret (.move .p)] else
             [.bind .boxRefCount (.intoKey .e), if c.dst then .assign .converted (.someBox .boxRefCount) else .assign .val (.intoInner .boxRefCount)]).map .stmt ++ .close :: rest c.dst }], none)
          | .blocked => .blocked
          | .ub => .ub := by
        simp only [missing, List.drop, List.map, List.cons_append, List.nil_append, Lang.run, Lang.stmt, Bool.false_eq_true, if_false]
        cases exec cfg m t a [[(.b, some (.box b)), (.g, none)], [], taken c] (.entry .b) <;> rfl
      rw [hrun]
      by_cases hl : (s.locks (cfg.shardOf x.data)).isSome = true
      · have hl' := hl
        rw [hs.locks] at hl'
        have he : exec cfg m t a [[(.b, some (.box b)), (.g, none)], [], taken c] (.entry .b) = .blocked := by
          simp [exec, Scopes.get, scopeGet, hm, hl']
        rw [he]
        exact .wait rfl (by simp [Arc.run, hx, hl])
      · have hl' := hl
        rw [hs.locks] at hl'
        by_cases ht : Arc.tableOk s = true
        · have ht' := hs.tableOk ht
          have hf := hs.find ht x.data
          have hlk : (s.lock (cfg.shardOf x.data) t).locks = (m.lock (cfg.shardOf x.data) t).locks := by
            simp [Arc.State.lock, Mem.lock, hs.locks]
          cases hr : Arc.find s x.data with
          | none =>
            rw [hr] at hf
            have he : exec cfg m t a [[(.b, some (.box b)), (.g, none)], [], taken c] (.entry .b) =
                .ok { mem := m.lock (cfg.shardOf x.data) t, scopes := [[(.b, none), (.g, none)], [], taken c], arm := 0, val := some (.vacant (cfg.shardOf x.data) b) } := by
              simp [exec, Scopes.get, scopeGet, hm, hl', ht', hf, Scopes.set, scopeSet]
            rw [he]
            refine .ok (.move ((s.lock (cfg.shardOf x.data) t).setThread t ⟨.newVacant c (cfg.shardOf x.data) b, [], none, arg⟩)
              ⟨.newVacant c (cfg.shardOf x.data) b, [], none, arg⟩ (by simp [Arc.run, hx, hl, ht, hr]) rfl rfl (.new (.vac1 hc hcv)) ?_
              ⟨hs.table, hlk, hs.heap⟩ hD)
            simp [dying, deallocsOf, missing, rest, after]
          | some q =>
            rw [hr] at hf
            have he : exec cfg m t a [[(.b, some (.box b)), (.g, none)], [], taken c] (.entry .b) =
                .ok { mem := m.lock (cfg.shardOf x.data) t, scopes := [[(.b, none), (.g, none)], [], taken c], arm := 1, val := some (.occupied (cfg.shardOf x.data) b) } := by
              simp [exec, Scopes.get, scopeGet, hm, hl', ht', hf, Scopes.set, scopeSet]
            rw [he]
            refine .ok (.move ((s.lock (cfg.shardOf x.data) t).setThread t ⟨.newOccupied c (cfg.shardOf x.data) b, [], none, arg⟩)
              ⟨.newOccupied c (cfg.shardOf x.data) b, [], none, arg⟩ (by simp [Arc.run, hx, hl, ht, hr]) rfl rfl (.new (.occ1 hc hcv)) ?_
              ⟨hs.table, hlk, hs.heap⟩ hD)
            simp [dying, deallocsOf, missing, rest, after]
        · exact absurd (by simp [Arc.run, hx, hl, ht]) hub
  | vac1 hc hcv => exact Out.still (.new (.vac2 hc hcv)) rfl rfl
  | @vac2 c sh b hc hcv =>
    refine .ok (.move ({ s with table := b :: s.table }.setThread t ⟨.newInserted c sh b, [], none, arg⟩) ⟨.newInserted c sh b, [], none, arg⟩
      rfl rfl rfl (.new (.vac3 hc hcv)) rfl ⟨?_, hs.locks, hs.heap⟩ hD)
    simp [Arc.State.setThread, hs.table]
  | @vac3 c sh b hc hcv =>
    refine .ok (.move ((s.unlock sh).setThread t ⟨.idle, [], some b, arg⟩) ⟨.idle, [], some b, arg⟩
      rfl rfl rfl (.new (.vac4 hc hcv)) rfl ⟨hs.table, ?_, hs.heap⟩ hD)
    simp [Arc.State.unlock, Arc.State.setThread, Mem.unlock, hs.locks]
  | @vac4 c b hc hcv =>
    refine Out.still (fs' := [{ scopes := [[(.p, none), (.e, none)], [(.b, none), (.g, none)], [], taken c], items := .close :: rest c.dst, exiting := true, ret := some (.handle b) }])
      (.leave (G := []) (.last ?_ rfl) rfl) rfl rfl
    simp [wind, rest, after, scGlue_taken]
    simp [scGlue]
  | @occ1 c sh b hc hcv =>
    refine .ok (.move ((s.unlock sh).setThread t ⟨if c.dst then .newLoop { c with conv := some b } else .newUnbox c b, [], none, arg⟩)
      ⟨if c.dst then .newLoop { c with conv := some b } else .newUnbox c b, [], none, arg⟩ ?_ rfl rfl (.new (.occ2 hc hcv)) rfl
      ⟨hs.table, ?_, hs.heap⟩ hD)
    · cases hd : c.dst <;> simp [Arc.run, hd]
    · simp [Arc.State.unlock, Arc.State.setThread, Mem.unlock, hs.locks]
  | @occ2 c b hc hcv =>
    obtain ⟨v, dst, conv⟩ := c
    simp only at hcv; subst hcv
    cases dst with
    | true =>
      exact Out.still (.new (.occ3 (c := ⟨v, true, some b⟩) ⟨hc.1, by intro h; cases h⟩)) rfl rfl
    | false =>
      cases hx : Arc.get s.heap b with
      | none => exact absurd (by simp [Arc.run, hx]) hub
      | some x =>
        obtain ⟨hm, hbD⟩ := hs.get hx
        have : ∀ l, (lang cfg).run m t a [{ scopes := [[(.boxRefCount, some (.box b)), (.e, none)], [(.b, none), (.g, none)], [], taken ⟨v, false, none⟩], items := .stmt (.assign .val (.intoInner .boxRefCount)) :: l }] =
            .ok ({ m with heap := Arc.free m.heap b }, [{ scopes := [[(.boxRefCount, none), (.e, none)], [(.b, none), (.g, none)], [], params ⟨x.data, false, none⟩], items := l }], none) := by
          intro l
          simp [Lang.run, Lang.stmt, exec, Scopes.get, scopeGet, hm, Scopes.set, scopeSet, taken, params]
        have h2 := this (.close :: rest false)
        simp only [Bool.false_eq_true, if_false] at h2 ⊢
        rw [h2]
        refine .ok (.move ({ s with heap := Arc.free s.heap b }.setThread t ⟨.newLoop ⟨x.data, false, none⟩, [], none, arg⟩)
          ⟨.newLoop ⟨x.data, false, none⟩, [], none, arg⟩ (by simp [Arc.run, hx]) rfl rfl
          (.new (.occ3 (c := ⟨x.data, false, none⟩) ⟨(by intro h; cases h), fun _ => rfl⟩)) rfl
          ⟨hs.table, hs.locks, ?_⟩ ?_)
        · simp only [Arc.State.setThread, hs.heap, free_live]
        · intro d hd
          have := hD d hd
          simp only [Arc.keys, Arc.free, List.mem_map, List.mem_filter] at this ⊢
          obtain ⟨e, he, rfl⟩ := this
          exact ⟨e, ⟨he, by simpa using fun h => hbD (by rw [← h]; exact hd)⟩, rfl⟩
  | occ3 hc => exact Out.still (.new (.occ4 hc)) rfl rfl
  | occ4 hc => exact Out.still (.new (.yield hc)) rfl rfl

/-- One step of a thread. -/
theorem out_run (hR : Rel cfg fs th) (hs : Shared D m s) (hD : ∀ b ∈ D, b ∈ Arc.keys m.heap) (hfs : ∀ b ∈ dying fs, b ∈ D)
    (hub : Arc.run cfg s t th a ≠ .ub) : Out cfg D m s t th a fs ((lang cfg).run m t a fs) := by
  cases hR with
  | leave hw hG => exact out_leave hs hD hfs hw hG
  | destroy hw hG => exact out_destroy hs hub hw hG
  | unlock hw hl => exact out_unlock hs hD hw hl
  | drop hA hw hG => exact out_drop hs hD hA hw hG hub
  | new hA => exact out_new hs hD hA hub

end
end Src.ArcCode
