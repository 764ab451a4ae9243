import Verif.Client.TermSim
import Verif.Client.ArcRoom
/-
Whatever a program can do with trees, it can do with hash-consed terms (C99).

The scheduler of the proof lets every call run from its start to its end without interruption. Whenever no call of the process is going on,
`Src.ArcNest.Must` (C89) says that this ends; `arc_new`, `arc_clone` and `arc_drop` (`Verif/Client/ArcRoom.lean`) say that it ends well,
as long as there is room for more handles. With trees, a thread may be between the two halves of `build` while other threads go on. With handles the
whole call is made when the second half is due (`Lag`).
-/
namespace Client.Term
open Arc (Addr Cfg Node Tree Unfolds UnfoldsAll)

section
variable {L R : Type}

/-! ### From trees to handles -/

theorem unfoldsAll_back : ∀ {s : Arc.State (Node L)} {ps : List Addr} {ts : List (Tree L)}, UnfoldsAll s ps ts → ∀ {n : Nat} {t : Tree L},
    ts[n]? = some t → ∃ p, ps[n]? = some p ∧ Unfolds s p t
  | _, _, _, .nil, n, p, e => by simp at e
  | _, _, _, .cons h _, 0, p, e => by
    simp only [List.getElem?_cons_zero, Option.some.injEq] at e
    subst e; exact ⟨_, by simp, h⟩
  | _, _, _, .cons _ a, n + 1, p, e => by simpa using unfoldsAll_back a (by simpa using e)

theorem move_back {α β : Type} {r : Option α → Option β → Prop} {r' : α → β → Prop} (hn : r none none)
    (hs : ∀ {o b}, r o (some b) → ∃ a, o = some a ∧ r' a b) : ∀ {is : List Nat} {l : List (Option α)} {m m' : List (Option β)} {qs : List β},
    Pairs r l m → move is m = some (qs, m') → ∃ ps l', move is l = some (ps, l') ∧ Pairs r' ps qs ∧ Pairs r l' m'
  | [], l, m, m', qs, hp, h => by cases h; exact ⟨[], l, rfl, .nil, hp⟩
  | i :: is, l, m, m', qs, hp, h => by
    simp only [move] at h
    split at h
    · rename_i b hi
      obtain ⟨⟨qs1, m1⟩, h1, h2⟩ := Option.map_eq_some_iff.mp h
      cases h2
      obtain ⟨o, h3, h4⟩ := hp.back hi
      obtain ⟨a, rfl, h5⟩ := hs h4
      obtain ⟨ps, l', h6, h7, h8⟩ := move_back hn hs (hp.set hn i) h1
      exact ⟨a :: ps, l', by simp only [move, h3, h6, Option.map_some], .cons h5 h7, h8⟩
    · cases h

/-! ### Threads between the two halves of `build` -/

/-- The same thread, or one that has moved the children out of its variables already. -/
def LagThread (th0 th : Thread L R (Tree L)) : Prop :=
  th0.phase = .own ∧ (th = th0 ∨ ∃ l is k ts ls, th0.prog = .build l is k ∧ move is th0.locals = some (ts, ls) ∧
    th = { th0 with locals := ls, phase := .building ts })

/-- And so for all threads. -/
structure Lag (c0 c : Conf L R (Tree L)) : Prop where
  threads : Pairs LagThread c0.threads c.threads
  queues : c0.queues = c.queues

theorem Lag.own {c0 c : Conf L R (Tree L)} (h : Lag c0 c) {t : Nat} {th : Thread L R (Tree L)} (ht : c.threads[t]? = some th)
    (hp : th.phase = .own) : c0.threads[t]? = some th := by
  obtain ⟨th0, h1, h2, h3⟩ := h.threads.back ht
  rcases h3 with rfl | ⟨l, is, k, ts, ls, _, _, rfl⟩
  · exact h1
  · cases hp

theorem Lag.set {c0 c : Conf L R (Tree L)} (h : Lag c0 c) (t : Nat) {th : Thread L R (Tree L)} (hp : th.phase = .own)
    (qs : List (List (Tree L))) : Lag { threads := c0.threads.set t th, queues := qs } { threads := c.threads.set t th, queues := qs } :=
  ⟨h.threads.set (a := th) (b := th) ⟨hp, .inl rfl⟩ t, rfl⟩

theorem Lag.progs {c0 c : Conf L R (Tree L)} (h : Lag c0 c) : c.progs = c0.progs := by
  have key : ∀ {l m : List (Thread L R (Tree L))}, Pairs LagThread l m → m.map (·.prog) = l.map (·.prog) := by
    intro l m h
    induction h with
    | nil => rfl
    | cons h1 _ ih =>
      obtain ⟨_, rfl | ⟨_, _, _, _, _, _, _, rfl⟩⟩ := h1 <;> simp only [List.map_cons, ih]
  exact key h.threads

theorem Lag.eq {c0 c : Conf L R (Tree L)} (h : Lag c0 c) (hp : ∀ th ∈ c.threads, th.phase = .own) : c0 = c := by
  have key : ∀ {l m : List (Thread L R (Tree L))}, Pairs LagThread l m → (∀ th ∈ m, th.phase = .own) → l = m := by
    intro l m h
    induction h with
    | nil => intro _; rfl
    | cons h1 _ ih =>
      intro hp
      obtain ⟨_, rfl | ⟨_, _, _, _, _, _, _, rfl⟩⟩ := h1
      · rw [ih fun th h => hp th (List.mem_cons_of_mem _ h)]
      · cases hp _ List.mem_cons_self
  obtain ⟨_, _⟩ := c0
  obtain ⟨_, _⟩ := c
  simp only [Conf.mk.injEq]
  exact ⟨key h.threads hp, h.queues⟩

end

section
variable {L R : Type} [BEq L] [Hashable (Node L)] {cfg : Cfg (Node L)}

theorem WRun.trans {w w' w'' : World cfg R} (h : WRun w w') (h' : WRun w' w'') : WRun w w'' := by
  induction h' with
  | refl => exact h
  | step _ e ih => exact .step ih e

theorem stands_back {s : (arc cfg).State} {l : List (Option Addr)} {m : List (Option (Tree L))} (h : Pairs (StandsVar s) l m) {i : Nat} {x : Tree L}
    (hi : m[i]? = some (some x)) : ∃ p, l[i]? = some (some p) ∧ Stands s p x := by
  obtain ⟨o, h1, h2⟩ := h.back hi
  cases o with
  | none => exact h2.elim
  | some p => exact ⟨p, h1, h2⟩

variable [LawfulBEq L] [LawfulHashable (Node L)]

/-- What `new` returns stands for the new tree. -/
theorem built_stands (hv : cfg.Valid) (hk : ∀ n, cfg.kids n = n.kids) {X s : (arc cfg).State} (hr : (arc cfg).Reach X) {n : Addr → Nat}
    (ho : (arc cfg).Owns X n) {t : Tid} {l : L} {ps : List Addr} {ts : List (Tree L)} (hB : Builds X t l ps ts) {b : Addr}
    (hc : (arc cfg).Returns X t b s) : Stands s b (.node l ts) := by
  have A := arc_laws hv
  obtain ⟨_, hrun, htr⟩ := hB
  obtain ⟨x, hx, hxv⟩ := A.result hr ho hrun hc
  obtain ⟨c0, a, g1, e, hf, g2, g3⟩ := hc
  obtain ⟨g4, _, _⟩ := run_out g1 (step_act e) g3
  obtain ⟨v, dst, c1, g5, g6, g7, _⟩ := arc_result hv hr ⟨c0, a, g1, e, hf, g2, g3⟩
  have hall := htr (by
    intro cs c2 k1 k2
    rw [g1] at k1; cases k1
    simp only [List.getLast?_singleton, Option.some.injEq] at k2
    subst k2; exact g4)
  obtain ⟨t', ht'⟩ := Src.ArcHeld.own_tree hv hk (X := s) (.step hr e hf) (p := b) (by rw [g7]; exact List.mem_cons_self)
  obtain ⟨hxl, hxk⟩ := (Arc.Node.beq_iff x ⟨l, ps⟩).mp hxv
  obtain ⟨xl, xk⟩ := x
  simp only at hxl hxk
  subst hxl; subst hxk
  have hx' : Arc.deref s.base.view b = some ⟨xl, xk⟩ := hx
  cases ht' with
  | node d1 a1 =>
    rw [hx'] at d1; cases d1
    rw [Src.ArcNest.unfoldsAll_agree (Src.ArcHeld.step_agree e) hall a1]
    exact .node hx' a1

/-- The steps of a call are steps of the world. -/
theorem goes_run (hv : cfg.Valid) (hk : ∀ n, cfg.kids n = n.kids) {t : Tid} {X X' : (arc cfg).State} {cf : Conf L R Addr}
    (h : Src.ArcHeld.Goes cfg t X X') (hr : (arc cfg).Reach X) (ho : (arc cfg).Owns X cf.held) (hb : ¬ (arc cfg).idle X t) :
    WRun (⟨X, cf⟩ : World cfg R) ⟨X', cf⟩ ∧ (arc cfg).Reach X' ∧ (arc cfg).Owns X' cf.held ∧ ¬ (arc cfg).idle X' t ∧
      (∀ u, u ≠ t → ((arc cfg).idle X u ↔ (arc cfg).idle X' u)) ∧
      (∀ c, Same (⟨X, cf⟩ : World cfg R) c → Same (⟨X', cf⟩ : World cfg R) c) ∧ ∀ l ps ts, Builds X t l ps ts → Builds X' t l ps ts := by
  have A := arc_laws hv
  induction h with
  | refl => exact ⟨.refl, hr, ho, hb, fun _ _ => Iff.rfl, fun _ h => h, fun _ _ _ h => h⟩
  | @step X1 X2 act _ k1 k2 k3 k4 k5 ih =>
    obtain ⟨r, i1, i2, i3, i4, i5, i6⟩ := ih
    have hs : (arc cfg).Step X1 X2 := ⟨act, k1, k2⟩
    have ho2 : (arc cfg).Owns X2 cf.held := fun p => by
      show _ ≤ X2.base.handles.count p
      rw [k3]; exact i2 p
    have hoth : ∀ u, u ≠ t → ((arc cfg).idle X1 u ↔ (arc cfg).idle X2 u) := by
      intro u hu
      show X1.base.threads[u]? = some [] ↔ X2.base.threads[u]? = some []
      rw [k4 u hu]
    have hb2 : ¬ (arc cfg).idle X2 t := k5
    have hid : ∀ u, (arc cfg).idle X1 u ↔ (arc cfg).idle X2 u := by
      intro u
      by_cases hu : u = t
      · subst hu; exact ⟨fun h => (i3 h).elim, fun h => (hb2 h).elim⟩
      · exact hoth u hu
    refine ⟨.step r (.inside (w := ⟨X1, cf⟩) hs (fun u _ _ _ => hid u) ho2), A.steps i1 hs, ho2, hb2, fun u hu => (i4 u hu).trans (hoth u hu), ?_, ?_⟩
    · exact fun c h => (i5 c h).stay fun p hp x hx => stands_keep hv hk i1 hs ho2 hp hx
    · exact fun l ps ts h => (i6 l ps ts h).keep hv hk i1 hs (hid t)

/-- Between two calls, with room for `k` more steps. -/
structure Ready (k : Nat) (w : World cfg R) (c : Conf L R (Tree L)) : Prop where
  owns : (arc cfg).Owns w.state w.conf.held
  same : Same w c
  rest : ∀ t th, w.conf.threads[t]? = some th → th.phase = .own ∧ (arc cfg).idle w.state t
  room : ArcRoom cfg k w.state

omit [LawfulBEq L] [LawfulHashable (Node L)] in
theorem Ready.less {k : Nat} {w : World cfg R} {c : Conf L R (Tree L)} (h : Ready (k + 1) w c) : Ready k w c :=
  ⟨h.owns, h.same, h.rest, h.room.1, h.room.2.1, by have := h.room.2.2; omega⟩

omit [LawfulBEq L] [LawfulHashable (Node L)] in
theorem rest_set {w : World cfg R} {s : (arc cfg).State} {t : Nat} {th : Thread L R Addr} {qs : List (List Addr)}
    (h : ∀ t th, w.conf.threads[t]? = some th → th.phase = .own ∧ (arc cfg).idle w.state t) (hp : th.phase = .own) (hi : (arc cfg).idle s t)
    (hoth : ∀ u, u ≠ t → (arc cfg).idle w.state u → (arc cfg).idle s u) : ∀ u tu,
    (⟨s, { threads := w.conf.threads.set t th, queues := qs }⟩ : World cfg R).conf.threads[u]? = some tu → tu.phase = .own ∧ (arc cfg).idle s u := by
  intro u tu hu
  rcases get_set hu with ⟨rfl, rfl⟩ | ⟨hut, hu⟩
  · exact ⟨hp, hi⟩
  · exact ⟨(h u tu hu).1, hoth u hut (h u tu hu).2⟩

theorem able_look (hv : cfg.Valid) (hk : ∀ n, cfg.kids n = n.kids) {k : Nat} {w : World cfg R} {c : Conf L R (Tree L)} (h : Ready (k + 1) w c)
    {t : Nat} {vt vt' : Thread L R (Tree L)} {vqs : List (List (Tree L))} (hvt : c.threads[t]? = some vt)
    (hl : Look trees vt c.queues vt' vqs) : ∃ w', WRun w w' ∧ Ready k w' { threads := c.threads.set t vt', queues := vqs } := by
  have A := arc_laws hv
  have hr : (arc cfg).Reach w.state := h.room.1.reach
  have same_ := h.same
  obtain ⟨th, ht, hs⟩ := same_.threads.back hvt
  obtain ⟨hp, hid⟩ := h.rest t th ht
  have done : ∀ {th' : Thread L R Addr} {qs : List (List Addr)}, Look (handles cfg w.state) th w.conf.queues th' qs →
      Same (⟨w.state, { threads := w.conf.threads.set t th', queues := qs }⟩ : World cfg R) { threads := c.threads.set t vt', queues := vqs } →
      ∃ w', WRun w w' ∧ Ready k w' { threads := c.threads.set t vt', queues := vqs } := by
    intro th' qs hk hsm
    exact ⟨_, .step .refl (.look ht hp hk), A.less h.owns fun p => Nat.le_of_eq (held_look ht hk p), hsm,
      rest_set h.rest (by cases hk <;> exact hp) hid fun _ _ h => h, h.less.room⟩
  cases hl with
  | @eq i j k x y b e hi hj hb =>
    obtain ⟨p, h1, h2⟩ := stands_back hs.locals hi
    obtain ⟨q, h3, h4⟩ := stands_back hs.locals hj
    have hb : b = same x y := hb
    have h5 := Src.ArcHeld.own_canonical hv hk hr (owned h.owns (held_local ht (List.mem_of_getElem? h1)))
      (owned h.owns (held_local ht (List.mem_of_getElem? h3))) h2 h4
    have hpq : Traits.eq p q = b := by
      rw [hb, Bool.eq_iff_iff, same_iff, ← h5]
      simp [Traits.eq]
    exact done (.eq (hs.prog.trans e) h1 h3 hpq.symm)
      ⟨same_.threads.set (a := { th with prog := k b }) (b := { vt with prog := k b }) ⟨rfl, hs.phase, hs.locals⟩ t, same_.queues⟩
  | @node i k x l n e hi hb =>
    obtain ⟨p, h1, h2⟩ := stands_back hs.locals hi
    obtain ⟨rfl, rfl⟩ := hb
    cases h2 with
    | @node _ l ks ts hd a =>
      exact done (.node (hs.prog.trans e) h1 ⟨ks, hd, (unfoldsAll_length a).symm⟩)
        ⟨same_.threads.set (a := { th with prog := k l ts.length }) (b := { vt with prog := k l ts.length }) ⟨rfl, hs.phase, hs.locals⟩ t, same_.queues⟩
  | @give q i k x l e hi hq =>
    obtain ⟨p, h1, h2⟩ := stands_back hs.locals hi
    obtain ⟨l', h3, h4⟩ := same_.queues.back hq
    exact done (.give (hs.prog.trans e) h1 h3)
      ⟨same_.threads.set (a := { th with prog := k, locals := th.locals.set i none }) (b := { vt with prog := k, locals := vt.locals.set i none })
        ⟨rfl, hs.phase, hs.locals.set (show StandsVar w.state none none from trivial) i⟩ t, same_.queues.set (h4.snoc h2) q⟩
  | @take q k x l e hq =>
    obtain ⟨l', h3, h4⟩ := same_.queues.back hq
    cases h4 with
    | @cons p _ _ _ h5 h6 =>
      exact done (.take (hs.prog.trans e) h3)
        ⟨same_.threads.set (a := { th with prog := k, locals := th.locals ++ [some p] }) (b := { vt with prog := k, locals := vt.locals ++ [some x] })
          ⟨rfl, hs.phase, hs.locals.snoc (show StandsVar w.state (some p) (some x) from h5)⟩ t, same_.queues.set h6 q⟩

omit [LawfulBEq L] [LawfulHashable (Node L)] in
theorem unfolds_get {s : (arc cfg).State} {p : Addr} {x : Tree L} (h : Stands s p x) : (Arc.get s.base.mem.heap p).isSome := by
  cases h with
  | node hd _ =>
    simp only [Arc.deref, Option.map_eq_some_iff] at hd
    obtain ⟨cell, h1, _⟩ := hd
    exact Option.isSome_iff_exists.mpr ⟨cell, h1⟩

theorem able_clone (hv : cfg.Valid) (hk : ∀ n, cfg.kids n = n.kids) {m : Nat} {w : World cfg R} {c : Conf L R (Tree L)} (h : Ready (m + 1) w c)
    {t : Nat} {vt : Thread L R (Tree L)} {i : Nat} {x : Tree L} {k : Prog L R} (hvt : c.threads[t]? = some vt) (hg : vt.prog = .clone i k)
    (hx : vt.locals[i]? = some (some x)) :
    ∃ w', WRun w w' ∧ Ready m w' { c with threads := c.threads.set t { vt with prog := k, locals := vt.locals ++ [some x] } } := by
  have A := arc_laws hv
  have hr : (arc cfg).Reach w.state := h.room.1.reach
  obtain ⟨th, ht, hs⟩ := h.same.threads.back hvt
  obtain ⟨hp, hid⟩ := h.rest t th ht
  obtain ⟨p, hl, hst⟩ := stands_back hs.locals hx
  have hpos := held_local ht (List.mem_of_getElem? hl)
  have hpm := owned h.owns hpos
  obtain ⟨s, e, hf, hroom⟩ := arc_clone (path := [p]) (p := p) h.room hid
    (by
      have hpm' : p ∈ w.state.base.view.handles := hpm
      obtain ⟨cell, hcell⟩ := Option.isSome_iff_exists.mp (unfolds_get hst)
      have hcell' : Arc.get w.state.base.view.heap p = some cell := hcell
      simp only [Arc.borrow, hpm', if_true, Arc.follow, hcell']) (unfolds_get hst)
  have hc : (arc cfg).Clones w.state t p s := ⟨hid, e, hf⟩
  obtain ⟨_, hi⟩ := A.clones hr hc
  have hs' : (arc cfg).Step w.state s := ⟨_, e, hf⟩
  have ho' := A.owns_clones hc hpos h.owns
  have ho : (arc cfg).Owns s w.conf.held := A.less ho' fun p => Nat.le_add_right _ _
  have hsame : Same ⟨s, w.conf⟩ c := h.same.stay fun p hp t ht => stands_keep hv hk hr hs' ho hp ht
  obtain ⟨th1, ht1, h1⟩ := hsame.threads.back hvt
  have ht1 : w.conf.threads[t]? = some th1 := ht1
  rw [ht] at ht1; cases ht1
  have hst' : Stands s p x := stands_keep hv hk hr hs' ho hpos hst
  exact ⟨_, .step .refl (.clone ht hp (hs.prog.trans hg) hl hc),
    A.less ho' fun q => Nat.le_of_eq (held_snoc { th with prog := k, locals := th.locals ++ [some p] } ht rfl q),
    ⟨hsame.threads.set (a := { th with prog := k, locals := th.locals ++ [some p] }) (b := { vt with prog := k, locals := vt.locals ++ [some x] })
      ⟨rfl, h1.phase, h1.locals.snoc (show StandsVar s (some p) (some x) from hst')⟩ t, hsame.queues⟩,
    rest_set h.rest hp ((hi t).mp hid) fun u _ hu => (hi u).mp hu, hroom⟩

theorem able_kid (hv : cfg.Valid) (hk : ∀ n, cfg.kids n = n.kids) {m : Nat} {w : World cfg R} {c : Conf L R (Tree L)} (h : Ready (m + 1) w c)
    {t : Nat} {vt : Thread L R (Tree L)} {i n : Nat} {x y : Tree L} {k : Prog L R} (hvt : c.threads[t]? = some vt) (hg : vt.prog = .kid i n k)
    (hx : vt.locals[i]? = some (some x)) (hy : (kids x)[n]? = some y) :
    ∃ w', WRun w w' ∧ Ready m w' { c with threads := c.threads.set t { vt with prog := k, locals := vt.locals ++ [some y] } } := by
  have A := arc_laws hv
  have hr : (arc cfg).Reach w.state := h.room.1.reach
  obtain ⟨th, ht, hs⟩ := h.same.threads.back hvt
  obtain ⟨hp, hid⟩ := h.rest t th ht
  obtain ⟨p, hl, hst⟩ := stands_back hs.locals hx
  have hpm := owned h.owns (held_local ht (List.mem_of_getElem? hl))
  have : ∃ l ks q, (arc cfg).deref w.state p = some ⟨l, ks⟩ ∧ ks[n]? = some q ∧ Stands w.state q y := by
    cases hst with
    | @node _ l ks ts hd a =>
      obtain ⟨q, h1, h2⟩ := unfoldsAll_back a hy
      exact ⟨l, ks, q, hd, h1, h2⟩
  obtain ⟨l, ks, q, hd, hn, hsy⟩ := this
  have hbor : Arc.borrow cfg w.state.base.view [p, q] = .ok q := by
    have hd' : Arc.deref w.state.base.view p = some ⟨l, ks⟩ := hd
    simp only [Arc.deref, Option.map_eq_some_iff] at hd'
    obtain ⟨cell, h1, h2⟩ := hd'
    have hq : q ∈ cfg.kids cell.data := by rw [hk, h2]; exact List.mem_of_getElem? hn
    have hpm' : p ∈ w.state.base.view.handles := hpm
    obtain ⟨cell', hcell⟩ := Option.isSome_iff_exists.mp (unfolds_get hsy)
    have hcell' : Arc.get w.state.base.view.heap q = some cell' := hcell
    simp only [Arc.borrow, hpm', if_true, Arc.follow, h1, hq, hcell']
  obtain ⟨s, e, hf, hroom⟩ := arc_clone (path := [p, q]) (p := q) h.room hid hbor (unfolds_get hsy)
  have hc : Picks cfg w.state t p n q s := ⟨hid, ⟨l, ks, hd, hn⟩, e, hf⟩
  obtain ⟨hh, hth⟩ := pick_out (step_act e)
  have hi : ∀ u, (arc cfg).idle w.state u ↔ (arc cfg).idle s u := by
    intro u
    show w.state.base.threads[u]? = some [] ↔ s.base.threads[u]? = some []
    rw [hth]
  have hs' : (arc cfg).Step w.state s := ⟨_, e, hf⟩
  have ho' : (arc cfg).Owns s fun r => w.conf.held r + if r = q then 1 else 0 := by
    intro r
    have g1 : w.conf.held r ≤ w.state.base.handles.count r := h.owns r
    show _ ≤ s.base.handles.count r
    rw [hh, List.count_cons]
    by_cases h : r = q
    · subst h; simpa using g1
    · simpa [h, Ne.symm h] using g1
  have ho : (arc cfg).Owns s w.conf.held := A.less ho' fun p => Nat.le_add_right _ _
  have hsame : Same ⟨s, w.conf⟩ c := h.same.stay fun p hp t ht => stands_keep hv hk hr hs' ho hp ht
  obtain ⟨th1, ht1, h1⟩ := hsame.threads.back hvt
  have ht1 : w.conf.threads[t]? = some th1 := ht1
  rw [ht] at ht1; cases ht1
  have hsy' : Stands s q y := stands_keep hv hk hr hs' ho' (by simp) hsy
  exact ⟨_, .step .refl (.kid ht hp (hs.prog.trans hg) hl hc),
    A.less ho' fun r => Nat.le_of_eq (held_snoc { th with prog := k, locals := th.locals ++ [some q] } ht rfl r),
    ⟨hsame.threads.set (a := { th with prog := k, locals := th.locals ++ [some q] }) (b := { vt with prog := k, locals := vt.locals ++ [some y] })
      ⟨rfl, h1.phase, h1.locals.snoc (show StandsVar s (some q) (some y) from hsy')⟩ t, hsame.queues⟩,
    rest_set h.rest hp ((hi t).mp hid) fun u _ hu => (hi u).mp hu, hroom⟩

theorem able_drop (hv : cfg.Valid) (hk : ∀ n, cfg.kids n = n.kids) {m : Nat} {w : World cfg R} {c : Conf L R (Tree L)} (h : Ready m w c)
    {t : Nat} {vt : Thread L R (Tree L)} {i : Nat} {x : Tree L} {k : Prog L R} (hvt : c.threads[t]? = some vt) (hvp : vt.phase = .own)
    (hg : vt.prog = .drop i k) (hx : vt.locals[i]? = some (some x)) :
    ∃ w', WRun w w' ∧ Ready m w' { c with threads := c.threads.set t { vt with prog := k, locals := vt.locals.set i none } } := by
  have A := arc_laws hv
  have hr : (arc cfg).Reach w.state := h.room.1.reach
  obtain ⟨th, ht, hs⟩ := h.same.threads.back hvt
  obtain ⟨hp, hid⟩ := h.rest t th ht
  obtain ⟨p, hl, hst⟩ := stands_back hs.locals hx
  obtain ⟨X1, X2, X3, hc, hgo, hs3, hh3, hoth3, hid3, hroom⟩ := arc_drop hv h.room hid (owned h.owns (held_local ht (List.mem_of_getElem? hl)))
  obtain ⟨_, hi⟩ := A.drops hr hc
  have hs1 : (arc cfg).Step w.state X1 := ⟨_, hc.2.1, hc.2.2⟩
  let cf : Conf L R Addr := { w.conf with threads := w.conf.threads.set t { prog := k, locals := th.locals.set i none, phase := .dropping } }
  let c' : Conf L R (Tree L) := { c with threads := c.threads.set t { vt with prog := k, locals := vt.locals.set i none } }
  have hheld := held_drop (c := w.conf) { prog := k, locals := th.locals.set i none, phase := .dropping } ht hl rfl
  have ho1 : (arc cfg).Owns X1 cf.held := A.owns_drops hc (A.less h.owns fun q => Nat.le_of_eq (hheld q))
  have hsame1 : Same ⟨X1, cf⟩ c' := by
    have h2 : Same ⟨w.state, cf⟩ c' :=
      ⟨h.same.threads.set (a := { prog := k, locals := th.locals.set i none, phase := .dropping }) (b := { vt with prog := k, locals := vt.locals.set i none })
        ⟨rfl, (by show SamePhase .dropping vt.phase; rw [hvp]; trivial), hs.locals.set (show StandsVar w.state none none from trivial) i⟩ t, h.same.queues⟩
    exact h2.stay fun q hq x hx => stands_keep hv hk hr hs1 ho1 hq hx
  have hr1 := A.steps hr hs1
  have hcft : cf.threads[t]? = some { prog := k, locals := th.locals.set i none, phase := .dropping } := set_get _ ht
  -- the call may have ended at once
  have hgo' : WRun (⟨X1, cf⟩ : World cfg R) ⟨X2, cf⟩ ∧ (arc cfg).Reach X2 ∧ (arc cfg).Owns X2 cf.held ∧
      (∀ u, u ≠ t → ((arc cfg).idle X1 u ↔ (arc cfg).idle X2 u)) ∧ Same (⟨X2, cf⟩ : World cfg R) c' := by
    clear hs3 hh3 hoth3 hid3 hroom
    induction hgo with
    | refl => exact ⟨.refl, hr1, ho1, fun _ _ => Iff.rfl, hsame1⟩
    | @step Y1 Y2 act _ k1 k2 k3 k4 k5 ih =>
      obtain ⟨r, i1, i2, i4, i5⟩ := ih
      have hs : (arc cfg).Step Y1 Y2 := ⟨act, k1, k2⟩
      have ho2 : (arc cfg).Owns Y2 cf.held := fun p => by
        show _ ≤ Y2.base.handles.count p
        rw [k3]; exact i2 p
      have hoth : ∀ u, u ≠ t → ((arc cfg).idle Y1 u ↔ (arc cfg).idle Y2 u) := by
        intro u hu
        show Y1.base.threads[u]? = some [] ↔ Y2.base.threads[u]? = some []
        rw [k4 u hu]
      refine ⟨.step r (.inside (w := ⟨Y1, cf⟩) hs (fun u tu hu hpu => ?_) ho2), A.steps i1 hs, ho2, fun u hu => (i4 u hu).trans (hoth u hu), ?_⟩
      · by_cases hut : u = t
        · subst hut
          have hu : cf.threads[u]? = some tu := hu
          rw [hcft] at hu; cases hu; exact absurd rfl hpu
        · exact hoth u hut
      · exact i5.stay fun p hp x hx => stands_keep hv hk i1 hs ho2 hp hx
  obtain ⟨hrun, hr2, ho2, hoth2, hsame2⟩ := hgo'
  have ho3 : (arc cfg).Owns X3 cf.held := fun p => by
    show _ ≤ X3.base.handles.count p
    rw [hh3]; exact ho2 p
  have hoth3' : ∀ u, u ≠ t → ((arc cfg).idle X2 u ↔ (arc cfg).idle X3 u) := by
    intro u hu
    show X2.base.threads[u]? = some [] ↔ X3.base.threads[u]? = some []
    rw [hoth3 u hu]
  have hw3 : WStep (⟨X2, cf⟩ : World cfg R) ⟨X3, cf⟩ := by
    refine .inside (w := ⟨X2, cf⟩) hs3 (fun u tu hu hpu => ?_) ho3
    by_cases hut : u = t
    · subst hut
      have hu : cf.threads[u]? = some tu := hu
      rw [hcft] at hu; cases hu; exact absurd rfl hpu
    · exact hoth3' u hut
  have hsame3 : Same (⟨X3, cf⟩ : World cfg R) c' := hsame2.stay fun p hp x hx => stands_keep hv hk hr2 hs3 ho3 hp hx
  have hw4 := WStep.dropped (w := ⟨X3, cf⟩) hcft rfl hid3
  have hw1 : WStep w ⟨X1, cf⟩ := .drop ht hp (hs.prog.trans hg) hl hc
  refine ⟨_, (WRun.step .refl hw1).trans ((hrun.step hw3).step hw4), ?_, ?_, ?_, hroom⟩
  · exact A.less ho3 fun p => Nat.le_of_eq (held_same { prog := k, locals := th.locals.set i none, phase := .own } hcft rfl p)
  · refine ⟨?_, hsame3.queues⟩
    have hvt' : c'.threads[t]? = some { vt with prog := k, locals := vt.locals.set i none } := set_get _ hvt
    obtain ⟨tu, htu, h1⟩ := hsame3.threads.back hvt'
    have htu : cf.threads[t]? = some tu := htu
    rw [hcft] at htu; cases htu
    have h2 := hsame3.threads.set (a := { prog := k, locals := th.locals.set i none, phase := .own }) (b := { vt with prog := k, locals := vt.locals.set i none })
      ⟨h1.prog, by show SamePhase .own vt.phase; rw [hvp]; trivial, h1.locals⟩ t
    have h3 : c'.threads.set t { vt with prog := k, locals := vt.locals.set i none } = c'.threads := by
      obtain ⟨hlt, h4⟩ := List.getElem?_eq_some_iff.mp hvt'
      conv => lhs; rw [← h4]
      exact List.set_getElem_self hlt
    rw [h3] at h2
    exact h2
  · intro u tu hu
    rcases get_set hu with ⟨rfl, rfl⟩ | ⟨hut, hu⟩
    · exact ⟨rfl, hid3⟩
    · rcases get_set (l := w.conf.threads) hu with ⟨rfl, _⟩ | ⟨_, hu⟩
      · exact absurd rfl hut
      · exact ⟨(h.rest u tu hu).1, (hoth3' u hut).mp ((hoth2 u hut).mp ((A.other'' hc u hut).mp (h.rest u tu hu).2))⟩

theorem able_build (hv : cfg.Valid) (hk : ∀ n, cfg.kids n = n.kids) {m : Nat} {w : World cfg R} {c : Conf L R (Tree L)} (h : Ready (m + 1) w c)
    {t : Nat} {vt : Thread L R (Tree L)} {l : L} {is : List Nat} {k : Prog L R} {ts : List (Tree L)} {ms : List (Option (Tree L))}
    (hvt : c.threads[t]? = some vt) (hg : vt.prog = .build l is k) (hm : move is vt.locals = some (ts, ms)) :
    ∃ w', WRun w w' ∧ Ready m w' { c with threads := c.threads.set t { prog := k, locals := ms ++ [some (.node l ts)], phase := .own } } := by
  have A := arc_laws hv
  have hr : (arc cfg).Reach w.state := h.room.1.reach
  obtain ⟨th, ht, hs⟩ := h.same.threads.back hvt
  obtain ⟨hp, hid⟩ := h.rest t th ht
  obtain ⟨ps, ls, hmv, h3, h4⟩ := move_back (r := StandsVar w.state) (r' := Stands w.state) (show StandsVar w.state none none from trivial)
    (fun {o b} h => by
      cases o with
      | none => exact h.elim
      | some a => exact ⟨a, rfl, h⟩) hs.locals hm
  have hcnt := move_count hmv
  obtain ⟨X1, X2, b, X3, hc, hgo, hret, hroom⟩ := arc_new hv (v := ⟨l, ps⟩) h.room hid (by
    intro p
    rw [hk]
    have g1 : w.conf.held p ≤ w.state.base.handles.count p := h.owns p
    have g2 := le_sum (fun th : Thread L R Addr => th.locals.count (some p)) ht
    have g3 := hcnt p
    refine (?_ : ps.count p ≤ _)
    simp only [Conf.held] at g1
    omega)
  obtain ⟨hs1, hi1, hni, hrun⟩ := A.calls hr hc
  let cf : Conf L R Addr := { w.conf with threads := w.conf.threads.set t { th with locals := ls, phase := .building ps } }
  let c1 : Conf L R (Tree L) := { c with threads := c.threads.set t { vt with locals := ms, phase := .building ts } }
  have hheld := held_set (c := w.conf) { th with locals := ls, phase := .building ps } ht
  have hc' := hc
  obtain ⟨_, dst, e, hf⟩ := hc'
  obtain ⟨hh, hmem⟩ := new_handles (step_act e)
  have ho1 : (arc cfg).Owns X1 cf.held := by
    intro p
    have g1 := h.owns p
    have g2 := hheld p
    have g3 := hcnt p
    show _ ≤ X1.base.handles.count p
    rw [hh, hk, Arc.count_eraseAll]
    have g4 : w.conf.held p ≤ w.state.base.handles.count p := g1
    refine (?_ : _ ≤ w.state.base.handles.count p - ps.count p)
    simp only [cf] at g2 ⊢
    omega
  have hsame1 : Same ⟨X1, cf⟩ c1 := by
    have h5 : Same ⟨w.state, cf⟩ c1 :=
      ⟨h.same.threads.set (a := { th with locals := ls, phase := .building ps }) (b := { vt with locals := ms, phase := .building ts })
        ⟨hs.prog, show ps.length = ts.length from unfoldsAll_length (pairs_all h3), h4⟩ t, h.same.queues⟩
    exact h5.stay fun p hp x hx => stands_keep hv hk hr hs1 ho1 hp hx
  have hB1 : Builds X1 t l ps ts := by
    refine ⟨hni, hrun, fun _ => ?_⟩
    refine Src.ArcNest.unfoldsAll_mono (fun p x hx => ?_) (pairs_all h3)
    have hx' : Arc.deref w.state.base.mem.view p = some x := hx
    rw [← hmem] at hx'
    exact hx'
  obtain ⟨hrun2, hr2, ho2, hni2, hoth2, hsm2, hB2⟩ := goes_run (R := R) hv hk (cf := cf) hgo (A.steps hr hs1) ho1 hni
  have hsame2 := hsm2 _ hsame1
  have hst := built_stands hv hk hr2 ho2 (hB2 _ _ _ hB1) hret
  obtain ⟨hs3, _, hid3⟩ := A.returns hr2 hret
  have hcft : cf.threads[t]? = some { th with locals := ls, phase := .building ps } := set_get _ ht
  have hvt1 : c1.threads[t]? = some { vt with locals := ms, phase := .building ts } := set_get _ hvt
  have hw1 : WStep w ⟨X1, cf⟩ := .call ht hp (hs.prog.trans hg) hmv hc
  have hw3 := WStep.ret (w := ⟨X2, cf⟩) hcft rfl (hs.prog.trans hg) hret
  have ho' := A.owns_returns hr2 hret ho2
  have ho3 : (arc cfg).Owns X3 cf.held := A.less ho' fun p => Nat.le_add_right _ _
  have hsame3 : Same (⟨X3, cf⟩ : World cfg R) c1 := hsame2.stay fun p hp x hx => stands_keep hv hk hr2 hs3 ho3 hp hx
  obtain ⟨tu, htu, h1⟩ := hsame3.threads.back hvt1
  have htu : cf.threads[t]? = some tu := htu
  rw [hcft] at htu; cases htu
  refine ⟨_, (WRun.step .refl hw1).trans (hrun2.step hw3), ?_, ?_, ?_, hroom⟩
  · exact A.less ho' fun p => Nat.le_of_eq (held_snoc { prog := k, locals := ls ++ [some b], phase := .own } hcft rfl p)
  · have h5 := hsame3.threads.set (a := { prog := k, locals := ls ++ [some b], phase := .own })
      (b := { prog := k, locals := ms ++ [some (.node l ts)], phase := .own })
      ⟨rfl, trivial, h1.locals.snoc (show StandsVar X3 (some b) (some (.node l ts)) from hst)⟩ t
    simp only [c1, List.set_set] at h5
    exact ⟨h5, hsame3.queues⟩
  · intro u tu hu
    rcases get_set hu with ⟨rfl, rfl⟩ | ⟨hut, hu⟩
    · exact ⟨rfl, hid3⟩
    · rcases get_set (l := w.conf.threads) hu with ⟨rfl, _⟩ | ⟨_, hu⟩
      · exact absurd rfl hut
      · exact ⟨(h.rest u tu hu).1, (A.other' hret u hut).mp ((hoth2 u hut).mp ((A.other hc u hut).mp (h.rest u tu hu).2))⟩

/-- One step with trees. -/
theorem able_step (hv : cfg.Valid) (hk : ∀ n, cfg.kids n = n.kids) {m : Nat} {w : World cfg R} {c0 c c' : Conf L R (Tree L)}
    (h : Ready (m + 1) w c0) (hl : Lag c0 c) (e : VStep c c') : ∃ w' c0', WRun w w' ∧ Ready m w' c0' ∧ Lag c0' c' := by
  cases e with
  | @look t th th' qs ht hp hk' =>
    have h0 := hl.own ht hp
    rw [← hl.queues] at hk'
    obtain ⟨w', h1, h2⟩ := able_look hv hk h h0 hk'
    exact ⟨w', _, h1, h2, hl.set t (by cases hk' <;> exact hp) _⟩
  | @build t th l is k ts ls ht hp hg hm =>
    refine ⟨w, c0, .refl, h.less, ?_, hl.queues⟩
    have h0 := hl.own ht hp
    have h1 := hl.threads.set (a := th) (b := { th with locals := ls, phase := .building ts })
      ⟨hp, .inr ⟨l, is, k, ts, ls, hg, hm, rfl⟩⟩ t
    obtain ⟨hlt, h2⟩ := List.getElem?_eq_some_iff.mp h0
    rw [← h2, List.set_getElem_self] at h1
    rw [h2] at h1
    exact h1
  | @built t th l is k ts ht hp hg =>
    obtain ⟨th0, h0, h1, h2⟩ := hl.threads.back ht
    rcases h2 with rfl | ⟨l', is', k', ts', ls, g1, g2, rfl⟩
    · rw [h1] at hp; cases hp
    · cases hp
      have hg : th0.prog = .build l is k := hg
      rw [hg] at g1; cases g1
      obtain ⟨w', h3, h4⟩ := able_build hv hk h h0 hg g2
      have h5 := hl.set t (th := { prog := k, locals := ls ++ [some (.node l ts)], phase := .own }) rfl c0.queues
      exact ⟨w', _, h3, h4, h5.threads, hl.queues⟩
  | @clone t th i x k ht hp hg hx =>
    obtain ⟨w', h1, h2⟩ := able_clone hv hk h (hl.own ht hp) hg hx
    exact ⟨w', _, h1, h2, (hl.set t (th := { th with prog := k, locals := th.locals ++ [some x] }) hp c0.queues).threads, hl.queues⟩
  | @kid t th i n x y k ht hp hg hx hy =>
    obtain ⟨w', h1, h2⟩ := able_kid hv hk h (hl.own ht hp) hg hx hy
    exact ⟨w', _, h1, h2, (hl.set t (th := { th with prog := k, locals := th.locals ++ [some y] }) hp c0.queues).threads, hl.queues⟩
  | @drop t th i x k ht hp hg hx =>
    obtain ⟨w', h1, h2⟩ := able_drop hv hk h.less (hl.own ht hp) hp hg hx
    exact ⟨w', _, h1, h2, (hl.set t (th := { th with prog := k, locals := th.locals.set i none }) hp c0.queues).threads, hl.queues⟩

end

section
variable {L R : Type} [BEq L]

/-- `m` steps with trees. -/
inductive VSteps (c : Conf L R (Tree L)) : Nat → Conf L R (Tree L) → Prop
  | refl : VSteps c 0 c
  | step {m : Nat} {c' c'' : Conf L R (Tree L)} : VSteps c m c' → VStep c' c'' → VSteps c (m + 1) c''

theorem VSteps.head {c c' c'' : Conf L R (Tree L)} {m : Nat} (e : VStep c c') (h : VSteps c' m c'') : VSteps c (m + 1) c'' := by
  induction h with
  | refl => exact .step .refl e
  | step _ e' ih => exact .step ih e'

/-- Every execution with trees has some number of steps. -/
theorem VRun.steps {c c' : Conf L R (Tree L)} (h : VRun c c') : ∃ m, VSteps c m c' := by
  induction h with
  | refl => exact ⟨0, .refl⟩
  | step _ e ih => obtain ⟨m, h⟩ := ih; exact ⟨m + 1, .step h e⟩

/-- The number of steps of a thread on its own. -/
def Prog.steps : Prog L R → List (Option (Tree L)) → Nat
  | .done _, _ => 0
  | .build l is k, ls => match move is ls with
    | some (ts, ls') => k.steps (ls' ++ [some (.node l ts)]) + 2
    | none => 0
  | .clone i k, ls => match ls[i]? with
    | some (some x) => k.steps (ls ++ [some x]) + 1
    | _ => 0
  | .kid i n k, ls => match ls[i]? with
    | some (some x) => match (kids x)[n]? with
      | some y => k.steps (ls ++ [some y]) + 1
      | none => 0
    | _ => 0
  | .drop i k, ls => match ls[i]? with
    | some (some _) => k.steps (ls.set i none) + 1
    | _ => 0
  | .eq i j k, ls => match ls[i]?, ls[j]? with
    | some (some x), some (some y) => (k (same x y)).steps ls + 1
    | _, _ => 0
  | .node i k, ls => match ls[i]? with
    | some (some x) => (k (label x) (kids x).length).steps ls + 1
    | _ => 0
  | .give .., _ | .take .., _ => 0

/-- The result that a thread has if it works alone can be reached. -/
theorem eval_steps {t : Nat} {r : R} : ∀ (g : Prog L R) {ls : List (Option (Tree L))}, g.eval ls = some r →
    ∀ {c : Conf L R (Tree L)}, c.threads[t]? = some { prog := g, locals := ls, phase := .own } →
      ∃ c', VSteps c (g.steps ls) c' ∧ c'.progs[t]? = some (.done r) := by
  intro g
  induction g with
  | done r' =>
    intro ls he c ht
    cases he
    exact ⟨c, .refl, by simp only [Conf.progs, List.getElem?_map, ht, Option.map_some]⟩
  | build l is k ih =>
    intro ls he c ht
    simp only [Prog.eval] at he
    split at he
    · rename_i ts ls' hm
      have e1 := VStep.build ht rfl rfl hm
      have ht1 := set_get { prog := .build l is k, locals := ls', phase := .building ts } ht
      have e2 := VStep.built (c := { c with threads := c.threads.set t { prog := .build l is k, locals := ls', phase := .building ts } }) ht1 rfl rfl
      obtain ⟨c', h1, h2⟩ := ih he (c := { c with threads := (c.threads.set t ⟨.build l is k, ls', .building ts⟩).set t ⟨k, ls' ++ [some (.node l ts)], .own⟩ }) (set_get _ ht1)
      refine ⟨c', ?_, h2⟩
      simp only [Prog.steps, hm]
      exact (h1.head e2).head e1
    · cases he
  | clone i k ih =>
    intro ls he c ht
    simp only [Prog.eval] at he
    split at he
    · rename_i x hx
      have e := VStep.clone ht rfl rfl hx
      obtain ⟨c', h1, h2⟩ := ih he (c := { c with threads := c.threads.set t ⟨k, ls ++ [some x], .own⟩ }) (set_get _ ht)
      refine ⟨c', ?_, h2⟩
      simp only [Prog.steps, hx]
      exact h1.head e
    · cases he
  | kid i n k ih =>
    intro ls he c ht
    simp only [Prog.eval] at he
    split at he
    · rename_i x hx
      split at he
      · rename_i y hy
        have e := VStep.kid ht rfl rfl hx hy
        obtain ⟨c', h1, h2⟩ := ih he (c := { c with threads := c.threads.set t ⟨k, ls ++ [some y], .own⟩ }) (set_get _ ht)
        refine ⟨c', ?_, h2⟩
        simp only [Prog.steps, hx, hy]
        exact h1.head e
      · cases he
    · cases he
  | drop i k ih =>
    intro ls he c ht
    simp only [Prog.eval] at he
    split at he
    · rename_i x hx
      have e := VStep.drop ht rfl rfl hx
      obtain ⟨c', h1, h2⟩ := ih he (c := { c with threads := c.threads.set t ⟨k, ls.set i none, .own⟩ }) (set_get _ ht)
      refine ⟨c', ?_, h2⟩
      simp only [Prog.steps, hx]
      exact h1.head e
    · cases he
  | eq i j k ih =>
    intro ls he c ht
    simp only [Prog.eval] at he
    split at he
    · rename_i x y hx hy
      have e := VStep.look ht rfl (.eq rfl hx hy rfl)
      obtain ⟨c', h1, h2⟩ := ih _ he (c := { c with threads := c.threads.set t ⟨k (same x y), ls, .own⟩ }) (set_get _ ht)
      refine ⟨c', ?_, h2⟩
      simp only [Prog.steps, hx, hy]
      exact h1.head e
    · cases he
  | node i k ih =>
    intro ls he c ht
    simp only [Prog.eval] at he
    split at he
    · rename_i x hx
      have e := VStep.look ht rfl (.node rfl hx ⟨rfl, rfl⟩)
      obtain ⟨c', h1, h2⟩ := ih _ _ he (c := { c with threads := c.threads.set t ⟨k (label x) (kids x).length, ls, .own⟩ }) (set_get _ ht)
      refine ⟨c', ?_, h2⟩
      simp only [Prog.steps, hx]
      exact h1.head e
    · cases he
  | give => intro ls he; cases he
  | take => intro ls he; cases he

end

section
variable {L R : Type} [BEq L] [Hashable (Node L)] [LawfulBEq L] [LawfulHashable (Node L)] {cfg : Cfg (Node L)}

/-- Every execution with trees can be done with handles. -/
theorem achieves (hv : cfg.Valid) (hk : ∀ n, cfg.kids n = n.kids) {ps : List (Prog L R)} {n : Nat} {w : World cfg R} (h : Starts ps n w)
    {m : Nat} {c : Conf L R (Tree L)} (hr : VSteps (start ps n) m c) : ∀ k, ArcRoom cfg (k + m) w.state →
    ∃ w' c0, WRun w w' ∧ Ready k w' c0 ∧ Lag c0 c := by
  induction hr with
  | refl =>
    intro k hroom
    have hi := inv_start h
    have own : ∀ (t : Nat) (th : Thread L R Addr), w.conf.threads[t]? = some th → th.phase = .own := by
      intro t th ht
      rw [h.conf] at ht
      have h1 : (ps.map fun p => ({ prog := p, locals := [], phase := .own } : Thread L R Addr))[t]? = some th := ht
      obtain ⟨g, _, h3⟩ := List.mem_map.mp (List.mem_of_getElem? h1)
      subst h3; rfl
    refine ⟨w, _, .refl, ⟨hi.owns, hi.same, fun t th ht => ⟨own t th ht, hi.own t th ht (own t th ht)⟩, hroom⟩, ?_, rfl⟩
    show Pairs _ (ps.map _) (ps.map _)
    clear hi own hroom h
    induction ps with
    | nil => exact .nil
    | cons p ps ih => exact .cons ⟨rfl, .inl rfl⟩ ih
  | @step m c1 c2 _ e ih =>
    intro k hroom
    obtain ⟨w1, c0, h1, h2, h3⟩ := ih (k + 1) (by rwa [Nat.add_right_comm, Nat.add_assoc])
    obtain ⟨w2, c0', h4, h5, h6⟩ := able_step hv hk h2 h3 e
    exact ⟨w2, c0', h1.trans h4, h5, h6⟩

end
end Client.Term
