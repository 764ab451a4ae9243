import Verif.Client.Term
import Verif.Client.ArcLaws
import Verif.Src.ArcTerm
/-
Proof of C93: whatever a program does with hash-consed terms, it can do with trees.
-/
namespace Client
open Arc (Addr Cfg Node Tree Unfolds UnfoldsAll)
open Src.ArcNest (Running Few)

/-! ### A call that panics goes on panicking -/

section
variable {V : Type}

/-- What a step can do with the calls of a thread. -/
inductive Grows (cs : List (Running V)) : List (Running V) → Prop
  | same : Grows cs cs
  | push (c : Running V) : Grows cs (c :: cs)
  | change {c c' : Running V} {l : List (Running V)} : cs = c :: l →
      (c.stack.any (·.panicking) = true → c'.stack.any (·.panicking) = true) → Grows cs (c' :: l)
  | pop {c : Running V} {l : List (Running V)} : cs = c :: l → Grows cs l

theorem grows_set {l : List (List (Running V))} {t : Nat} {old new : List (Running V)} (ht : l[t]? = some old) (h : Grows old new) {u : Nat}
    {cs : List (Running V)} (hu : l[u]? = some cs) : ∃ cs', (l.set t new)[u]? = some cs' ∧ Grows cs cs' := by
  by_cases hut : u = t
  · subst hut
    rw [hu] at ht; cases ht
    exact ⟨new, by simp [(List.getElem?_eq_some_iff.mp hu).1], h⟩
  · exact ⟨cs, by rw [List.getElem?_set_ne (Ne.symm hut)]; exact hu, .same⟩

theorem Grows.outer {cs cs' : List (Running V)} (h : Grows cs cs') {c c' : Running V} (hc : cs.getLast? = some c) (hc' : cs'.getLast? = some c')
    (hp : c.stack.any (·.panicking) = true) : c'.stack.any (·.panicking) = true := by
  cases h with
  | same => rw [hc] at hc'; cases hc'; exact hp
  | push c0 =>
    cases cs with
    | nil => simp at hc
    | cons d l => rw [List.getLast?_cons_cons, hc] at hc'; cases hc'; exact hp
  | @change d d' l hcs hd =>
    subst hcs
    cases l with
    | nil =>
      simp only [List.getLast?_singleton, Option.some.injEq] at hc hc'
      subst hc; subst hc'
      exact hd hp
    | cons d2 l =>
      rw [List.getLast?_cons_cons] at hc hc'
      rw [hc] at hc'; cases hc'; exact hp
  | @pop d l hcs =>
    subst hcs
    cases cs' with
    | nil => simp at hc'
    | cons d2 l => rw [List.getLast?_cons_cons, hc'] at hc; cases hc; exact hp

variable [BEq V] [Hashable V] {cfg : Cfg V}

theorem panic_panicking {m : Src.ArcCode.Mem V} {fs fs' : Src.ArcCode.Stack V} (h : (Src.ArcCode.lang cfg).panic m fs = .ok fs') :
    fs'.any (·.panicking) = true := by
  cases fs with
  | nil => cases h
  | cons f fs =>
    simp only [Src.Lang.panic] at h
    (repeat' split at h) <;> first | (cases h; done) | (cases h; simp)

theorem nest_grows {can : List (Running V) → Bool} {N N' : Src.ArcNest.State V} {act : Src.ArcNest.Act V}
    (e : Src.ArcNest.step cfg N act can = .ok N') {u : Nat} {cs : List (Running V)} (hu : N.threads[u]? = some cs) :
    ∃ cs', N'.threads[u]? = some cs' ∧ Grows cs cs' := by
  cases act with
  | spawn =>
    cases e
    exact ⟨cs, by rw [List.getElem?_append_left (List.getElem?_eq_some_iff.mp hu).1]; exact hu, .same⟩
  | new t v dst =>
    simp only [Src.ArcNest.step] at e
    split at e
    · rename_i cs0 ht
      split at e
      · cases e; exact grows_set ht (.push _) hu
      · cases e
    · cases e
  | drop t v =>
    simp only [Src.ArcNest.step] at e
    split at e
    · rename_i cs0 ht
      split at e
      · cases e; exact grows_set ht (.push _) hu
      · cases e
    · cases e
  | clone t path =>
    simp only [Src.ArcNest.step] at e
    (repeat' split at e) <;> first | (cases e; done) | (cases e; exact ⟨cs, hu, .same⟩)
  | read t path =>
    simp only [Src.ArcNest.step] at e
    (repeat' split at e) <;> first | (cases e; done) | (cases e; exact ⟨cs, hu, .same⟩)
  | take t p =>
    simp only [Src.ArcNest.step] at e
    split at e
    · rename_i id call f fs cs0 ht
      split at e
      · split at e
        · cases e
          refine grows_set ht ?_ hu; exact .change rfl fun h => h
        · cases e
      · cases e
    · cases e
  | put t p =>
    simp only [Src.ArcNest.step] at e
    split at e
    · rename_i id call f fs cs0 ht
      split at e
      · split at e
        · cases e
          refine grows_set ht ?_ hu; exact .change rfl fun h => h
        · cases e
      · cases e
    · cases e
  | run t a =>
    simp only [Src.ArcNest.step] at e
    split at e
    · rename_i c0 cs0 ht
      split at e
      · cases e; exact grows_set ht (.pop (c := c0) rfl) hu
      · rename_i hr
        cases e; refine grows_set ht ?_ hu
        exact .change rfl fun hp => Src.Lang.run_panicking _ hr (by simp) hp
      · cases e
      · cases e
    · cases e
  | panic t =>
    simp only [Src.ArcNest.step] at e
    split at e
    · rename_i c0 cs0 ht
      split at e
      · rename_i hr
        cases e; refine grows_set ht ?_ hu; exact .change rfl fun _ => panic_panicking hr
      · cases e
      · cases e
    · cases e

/-- The outermost call of thread `t` is not panicking. -/
def Calm (X : Src.ArcHeld.State V) (t : Tid) : Prop :=
  ∀ cs c, X.base.threads[t]? = some cs → cs.getLast? = some c → c.stack.any (·.panicking) = false

theorem calm_back {X X' : Src.ArcHeld.State V} {act : Src.ArcHeld.Act V} (e : Src.ArcHeld.step cfg X act = .ok X') {t : Tid} {v' : V}
    (ho' : Outer X' t v') (hc : Calm X' t) : Calm X t := by
  intro cs c h1 h2
  obtain ⟨cs', c', dst, h3, h4, _⟩ := ho'
  have h5 := hc cs' c' h3 h4
  have h6 : Grows cs cs' := by
    rcases Src.ArcHeld.step_base e with ⟨_, _, _, _, _, rfl⟩ | ⟨_, _, e, _⟩
    · rw [h1] at h3; cases h3; exact .same
    · obtain ⟨cs2, h7, h8⟩ := nest_grows e h1
      rw [h3] at h7; cases h7; exact h8
  cases hp : c.stack.any (·.panicking) with
  | false => rfl
  | true => rw [h6.outer h2 h4 hp] at h5; cases h5

theorem new_handles {N N' : Src.ArcNest.State V} {can : List (Running V) → Bool} {t : Tid} {v : V} {dst : Bool}
    (e : Src.ArcNest.step cfg N (.new t v dst) can = .ok N') : N'.handles = Arc.eraseAll N.handles (cfg.kids v) ∧ N'.mem = N.mem := by
  simp only [Src.ArcNest.step] at e
  (repeat' split at e) <;> first | (cases e; done) | (cases e; exact ⟨rfl, rfl⟩)

omit [BEq V] [Hashable V] in
theorem borrow_two {s : Arc.State V} {p q r : Addr} (h : Arc.borrow cfg s [p, q] = .ok r) : r = q := by
  simp only [Arc.borrow] at h
  split at h
  · simp only [Arc.follow] at h
    (repeat' split at h) <;> first | (cases h; done) | (cases h; rfl)
  · cases h

theorem pick_out {N N' : Src.ArcNest.State V} {can : List (Running V) → Bool} {t : Tid} {p q : Addr}
    (e : Src.ArcNest.step cfg N (.clone t [p, q]) can = .ok N') : N'.handles = q :: N.handles ∧ N'.threads = N.threads := by
  simp only [Src.ArcNest.step] at e
  split at e
  · split at e
    · split at e
      · rename_i r hb
        have := borrow_two hb
        subst this
        split at e
        · cases e; exact ⟨rfl, rfl⟩
        · cases e
      · cases e
      · cases e
    · cases e
  · cases e

end
end Client

namespace Client.Term
open Arc (Addr Cfg Node Tree Unfolds UnfoldsAll)
open Src.ArcNest (Running Few)

/-! ### Trees -/

section
variable {L : Type}

mutual
theorem same_iff [BEq L] [LawfulBEq L] : ∀ {t u : Tree L}, same t u = true ↔ t = u
  | .node l ts, .node m us => by
    simp only [same, Bool.and_eq_true, beq_iff_eq, Tree.node.injEq]
    exact and_congr_right fun _ => sameAll_iff
theorem sameAll_iff [BEq L] [LawfulBEq L] : ∀ {ts us : List (Tree L)}, sameAll ts us = true ↔ ts = us
  | [], [] => by simp [sameAll]
  | [], _ :: _ => by simp [sameAll]
  | _ :: _, [] => by simp [sameAll]
  | t :: ts, u :: us => by
    simp only [sameAll, Bool.and_eq_true, List.cons.injEq]
    exact and_congr same_iff sameAll_iff
end

theorem unfoldsAll_get {s : Arc.State (Node L)} {ps : List Addr} {ts : List (Tree L)} (h : UnfoldsAll s ps ts) :
    ∀ {n : Nat} {p : Addr}, ps[n]? = some p → ∃ t, ts[n]? = some t ∧ Unfolds s p t := by
  induction ps generalizing ts with
  | nil => intro n p e; simp at e
  | cons q ps ih =>
    intro n p e
    cases h with
    | cons u a =>
      cases n with
      | zero => simp only [List.getElem?_cons_zero, Option.some.injEq] at e; subst e; exact ⟨_, by simp, u⟩
      | succ n => simpa using ih a (by simpa using e)

theorem unfoldsAll_length {s : Arc.State (Node L)} {ps : List Addr} {ts : List (Tree L)} (h : UnfoldsAll s ps ts) : ps.length = ts.length := by
  induction ps generalizing ts with
  | nil => cases h; rfl
  | cons q ps ih => cases h with
    | cons u a => simp only [List.length_cons, ih a]

theorem unfolds_deref {s : Arc.State (Node L)} {p : Addr} {t : Tree L} (h : Unfolds s p t) {l : L} {ks : List Addr}
    (hd : Arc.deref s p = some ⟨l, ks⟩) : l = label t ∧ UnfoldsAll s ks (kids t) := by
  cases h with
  | node h1 a => rw [hd] at h1; cases h1; exact ⟨rfl, a⟩

end

/-! ### What the program owns -/

section
variable {L R : Type} [BEq L] [Hashable (Node L)]

theorem move_count : ∀ {is : List Nat} {l l' : List (Option Addr)} {ps : List Addr}, move is l = some (ps, l') → ∀ p,
    l'.count (some p) + ps.count p = l.count (some p)
  | [], l, l', ps, h, p => by cases h; simp
  | i :: is, l, l', ps, h, p => by
    simp only [move] at h
    split at h
    · rename_i q hi
      obtain ⟨⟨ps1, l1⟩, h1, h2⟩ := Option.map_eq_some_iff.mp h
      cases h2
      have h3 := move_count h1 p
      have h4 := count_none hi p
      rw [List.count_cons]
      by_cases hpq : p = q
      · subst hpq; simp at h4 ⊢; omega
      · simp only [hpq, if_false, beq_iff_eq, Ne.symm hpq] at h4 ⊢; omega
    · cases h

theorem move_pairs {α β : Type} {r : Option α → Option β → Prop} {r' : α → β → Prop} (hn : r none none)
    (hs : ∀ {a o}, r (some a) o → ∃ b, o = some b ∧ r' a b) : ∀ {is : List Nat} {l l' : List (Option α)} {m : List (Option β)} {ps : List α},
    Pairs r l m → move is l = some (ps, l') → ∃ qs m', move is m = some (qs, m') ∧ Pairs r' ps qs ∧ Pairs r l' m'
  | [], l, l', m, ps, hp, h => by cases h; exact ⟨[], m, rfl, .nil, hp⟩
  | i :: is, l, l', m, ps, hp, h => by
    simp only [move] at h
    split at h
    · rename_i a hi
      obtain ⟨⟨ps1, l1⟩, h1, h2⟩ := Option.map_eq_some_iff.mp h
      cases h2
      obtain ⟨o, h3, h4⟩ := hp.get hi
      obtain ⟨b, rfl, h5⟩ := hs h4
      obtain ⟨qs, m', h6, h7, h8⟩ := move_pairs hn hs (hp.set hn i) h1
      exact ⟨b :: qs, m', by simp only [move, h3, h6, Option.map_some], .cons h5 h7, h8⟩
    · cases h

omit [BEq L] [Hashable (Node L)] in
theorem held_local {c : Conf L R Addr} {t : Nat} {th : Thread L R Addr} {p : Addr} (ht : c.threads[t]? = some th) (hp : some p ∈ th.locals) :
    0 < c.held p := by
  have h1 := le_sum (fun th : Thread L R Addr => th.locals.count (some p)) ht
  have h2 : 0 < th.locals.count (some p) := List.count_pos_iff.mpr hp
  simp only [Conf.held]; omega

omit [BEq L] [Hashable (Node L)] in
theorem held_queue {c : Conf L R Addr} {q : Nat} {l : List Addr} {p : Addr} (hq : c.queues[q]? = some l) (hp : p ∈ l) : 0 < c.held p := by
  have h1 := le_sum (fun l : List Addr => l.count p) hq
  have h2 : 0 < l.count p := List.count_pos_iff.mpr hp
  simp only [Conf.held]; omega

omit [BEq L] [Hashable (Node L)] in
theorem held_set {c : Conf L R Addr} {t : Nat} {th : Thread L R Addr} (th' : Thread L R Addr) (ht : c.threads[t]? = some th) (p : Addr) :
    ({ c with threads := c.threads.set t th' } : Conf L R Addr).held p + th.locals.count (some p) = c.held p + th'.locals.count (some p) := by
  have := sum_set (fun th : Thread L R Addr => th.locals.count (some p)) th' ht
  simp only [Conf.held] at this ⊢; omega

omit [BEq L] [Hashable (Node L)] in
theorem held_same {c : Conf L R Addr} {t : Nat} {th : Thread L R Addr} (th' : Thread L R Addr) (ht : c.threads[t]? = some th)
    (h : th'.locals = th.locals) (p : Addr) : ({ c with threads := c.threads.set t th' } : Conf L R Addr).held p = c.held p := by
  have := held_set th' ht p
  rw [h] at this; omega

omit [BEq L] [Hashable (Node L)] in
theorem held_snoc {c : Conf L R Addr} {t : Nat} {th : Thread L R Addr} (th' : Thread L R Addr) (ht : c.threads[t]? = some th) {b : Addr}
    (h : th'.locals = th.locals ++ [some b]) (p : Addr) :
    ({ c with threads := c.threads.set t th' } : Conf L R Addr).held p = c.held p + if p = b then 1 else 0 := by
  have := held_set th' ht p
  rw [h, count_snoc] at this; omega

omit [BEq L] [Hashable (Node L)] in
theorem held_drop {c : Conf L R Addr} {t : Nat} {th : Thread L R Addr} (th' : Thread L R Addr) (ht : c.threads[t]? = some th) {b : Addr} {i : Nat}
    (hi : th.locals[i]? = some (some b)) (h : th'.locals = th.locals.set i none) (p : Addr) :
    ({ c with threads := c.threads.set t th' } : Conf L R Addr).held p + (if p = b then 1 else 0) = c.held p := by
  have := held_set th' ht p
  have h2 := count_none hi p
  rw [h] at this; omega

omit [BEq L] [Hashable (Node L)] in
theorem held_look {c : Conf L R Addr} {S : View L Addr} {t : Nat} {th th' : Thread L R Addr} {qs : List (List Addr)}
    (ht : c.threads[t]? = some th) (h : Look S th c.queues th' qs) (p : Addr) :
    ({ threads := c.threads.set t th', queues := qs } : Conf L R Addr).held p = c.held p := by
  have h1 := sum_set (fun th : Thread L R Addr => th.locals.count (some p)) th' ht
  simp only [Conf.held]
  cases h with
  | eq => simp only at h1; omega
  | node => simp only at h1; omega
  | give e hi hq =>
    rename_i q i k b l
    have h2 := sum_set (fun l : List Addr => l.count p) (l ++ [b]) hq
    have h3 := count_none hi p
    have h4 : (l ++ [b]).count p = l.count p + if p = b then 1 else 0 := by
      rw [List.count_append]
      by_cases h : p = b
      · subst h; simp
      · simp [h, Ne.symm h]
    simp only at h1 h2
    omega
  | take e hq =>
    rename_i q k b l
    have h2 := sum_set (fun l : List Addr => l.count p) l hq
    have h3 := count_snoc th.locals p b
    have h4 : (b :: l).count p = l.count p + if p = b then 1 else 0 := by
      rw [List.count_cons]
      by_cases h : p = b
      · subst h; simp
      · simp [h, Ne.symm h]
    simp only at h1 h2
    omega

/-! ### Handles and trees -/

variable {cfg : Cfg (Node L)}

theorem Same.progs {w : World cfg R} {c : Conf L R (Tree L)} (h : Same w c) : c.progs = w.conf.progs := by
  have key : ∀ {l : List (Thread L R Addr)} {m : List (Thread L R (Tree L))}, Pairs (SameThread w.state) l m →
      m.map (·.prog) = l.map (·.prog) := by
    intro l m h
    induction h with
    | nil => rfl
    | cons h1 _ ih => simp only [List.map_cons, ih, h1.prog]
  exact key h.threads

/-- The state changes, and what the program owns is as it was. -/
theorem Same.stay {s s' : (arc cfg).State} {cf : Conf L R Addr} {c : Conf L R (Tree L)} (h : Same ⟨s, cf⟩ c)
    (hd : ∀ p, 0 < cf.held p → ∀ t, Stands s p t → Stands s' p t) : Same ⟨s', cf⟩ c := by
  refine ⟨h.threads.mono fun th hth th' h1 => ⟨h1.prog, h1.phase, h1.locals.mono fun o ho x hx => ?_⟩,
    h.queues.mono fun l hl l' h1 => h1.mono fun p hp x hx => ?_⟩
  · obtain ⟨t, ht⟩ := List.getElem?_of_mem hth
    cases o with
    | none => cases x with
      | none => trivial
      | some _ => exact hx.elim
    | some p => cases x with
      | none => exact hx.elim
      | some x => exact hd p (held_local ht ho) x hx
  · obtain ⟨q, hq⟩ := List.getElem?_of_mem hl
    exact hd p (held_queue hq hp) x hx

theorem stands_var {s : (arc cfg).State} {l : List (Option Addr)} {m : List (Option (Tree L))} (h : Pairs (StandsVar s) l m) {i : Nat} {p : Addr}
    (hi : l[i]? = some (some p)) : ∃ x, m[i]? = some (some x) ∧ Stands s p x := by
  obtain ⟨o, h1, h2⟩ := h.get hi
  cases o with
  | none => exact h2.elim
  | some x => exact ⟨x, h1, h2⟩

theorem pairs_all {s : (arc cfg).State} {ps : List Addr} {ts : List (Tree L)} (h : Pairs (Stands s) ps ts) : UnfoldsAll s.base.view ps ts := by
  induction h with
  | nil => exact .nil
  | cons h1 _ ih => exact .cons h1 ih

omit [Hashable (Node L)] in
theorem VRun.trans' {c c' c'' : Conf L R (Tree L)} (h : VRun c c') (h' : VRun c' c'') : VRun c c'' := by
  induction h' with
  | refl => exact h
  | step _ e ih => exact .step ih e

omit [BEq L] [Hashable (Node L)] in
theorem phase_own {ph : Phase (Tree L)} (h : SamePhase .own ph) : ph = .own := by
  cases ph <;> first | rfl | exact h.elim

variable [LawfulBEq L] [LawfulHashable (Node L)]

omit [LawfulBEq L] [LawfulHashable (Node L)] in
theorem owned {s : (arc cfg).State} {n : Addr → Nat} (ho : (arc cfg).Owns s n) {p : Addr} (hp : 0 < n p) : p ∈ s.base.handles :=
  List.count_pos_iff.mp (Nat.lt_of_lt_of_le hp (ho p))

/-- What the program owns stands for the same trees after a step. -/
theorem stands_keep (hv : cfg.Valid) (hk : ∀ n, cfg.kids n = n.kids) {s s' : (arc cfg).State} (hr : (arc cfg).Reach s) (hs : (arc cfg).Step s s')
    {n : Addr → Nat} (ho : (arc cfg).Owns s' n) {p : Addr} (hp : 0 < n p) {t : Tree L} (ht : Stands s p t) : Stands s' p t := by
  obtain ⟨act, e, hf⟩ := hs
  exact Src.ArcHeld.own_keep hv hk (.step hr e hf) e (owned ho hp) ht

/-- A step of a thread that does not call. -/
theorem look_sim (hv : cfg.Valid) (hk : ∀ n, cfg.kids n = n.kids) {s : (arc cfg).State} {cf : Conf L R Addr}
    {c : Conf L R (Tree L)} (hr : (arc cfg).Reach s) (ho : (arc cfg).Owns s cf.held) (h : Same ⟨s, cf⟩ c) {t : Nat} {th th' : Thread L R Addr}
    {qs : List (List Addr)} (ht : cf.threads[t]? = some th) (hph : th.phase = .own) (hl : Look (handles cfg s) th cf.queues th' qs) :
    ∃ c', VStep c c' ∧ Same ⟨s, { threads := cf.threads.set t th', queues := qs }⟩ c' ∧
      ∃ vt', c'.threads = c.threads.set t vt' ∧ vt'.phase = .own := by
  obtain ⟨vt, hvt, hs⟩ := h.threads.get ht
  have hvp : vt.phase = .own := phase_own (hph ▸ hs.phase)
  cases hl with
  | @eq i j k p q b e hi hj hb =>
    obtain ⟨x, h1, h2⟩ := stands_var hs.locals hi
    obtain ⟨y, h3, h4⟩ := stands_var hs.locals hj
    have h5 := Src.ArcHeld.own_canonical hv hk hr (owned ho (held_local ht (List.mem_of_getElem? hi)))
      (owned ho (held_local ht (List.mem_of_getElem? hj))) h2 h4
    refine ⟨_, .look hvt hvp (.eq (hs.prog.symm.trans e) h1 h3 rfl),
      ⟨h.threads.set (a := { th with prog := k b }) (b := { vt with prog := k (same x y) }) ⟨?_, hs.phase, hs.locals⟩ t, h.queues⟩, _, rfl, hvp⟩
    have hb : b = Traits.eq p q := hb
    show k b = k (same x y)
    rw [hb]
    congr 1
    rw [Bool.eq_iff_iff, same_iff, ← h5]
    simp [Traits.eq]
  | @node i k p l n e hi hb =>
    obtain ⟨x, h1, h2⟩ := stands_var hs.locals hi
    obtain ⟨ks, h3, rfl⟩ := hb
    obtain ⟨rfl, h5⟩ := unfolds_deref h2 h3
    rw [unfoldsAll_length h5]
    exact ⟨_, .look hvt hvp (.node (hs.prog.symm.trans e) h1 ⟨rfl, rfl⟩),
      ⟨h.threads.set (a := { th with prog := k (label x) (kids x).length }) (b := { vt with prog := k (label x) (kids x).length })
        ⟨rfl, hs.phase, hs.locals⟩ t, h.queues⟩, _, rfl, hvp⟩
  | @give q i k p l e hi hq =>
    obtain ⟨y, h1, h2⟩ := stands_var hs.locals hi
    obtain ⟨l', h3, h4⟩ := h.queues.get hq
    exact ⟨_, .look hvt hvp (.give (hs.prog.symm.trans e) h1 h3),
      ⟨h.threads.set (a := { th with prog := k, locals := th.locals.set i none }) (b := { vt with prog := k, locals := vt.locals.set i none })
        ⟨rfl, hs.phase, hs.locals.set (show StandsVar s none none from trivial) i⟩ t, h.queues.set (h4.snoc h2) q⟩, _, rfl, hvp⟩
  | @take q k p l e hq =>
    obtain ⟨l', h3, h4⟩ := h.queues.get hq
    cases h4 with
    | @cons _ x _ _ h5 h6 =>
      exact ⟨_, .look hvt hvp (.take (hs.prog.symm.trans e) h3),
        ⟨h.threads.set (a := { th with prog := k, locals := th.locals ++ [some p] }) (b := { vt with prog := k, locals := vt.locals ++ [some x] })
          ⟨rfl, hs.phase, hs.locals.snoc (show StandsVar s (some p) (some x) from h5)⟩ t, h.queues.set h6 q⟩, _, rfl, hvp⟩

/-- A call of `new` with children `ps`, which stand for `ts` unless the call panics. -/
def Builds (s : (arc cfg).State) (t : Tid) (l : L) (ps : List Addr) (ts : List (Tree L)) : Prop :=
  ¬ (arc cfg).idle s t ∧ Outer s t ⟨l, ps⟩ ∧ (Calm s t → UnfoldsAll s.base.view ps ts)

theorem Builds.keep (hv : cfg.Valid) (hk : ∀ n, cfg.kids n = n.kids) {s s' : (arc cfg).State} (hr : (arc cfg).Reach s)
    (hs : (arc cfg).Step s s') {t : Tid} {l : L} {ps : List Addr} {ts : List (Tree L)} (h : Builds s t l ps ts)
    (hi : (arc cfg).idle s t ↔ (arc cfg).idle s' t) : Builds s' t l ps ts := by
  obtain ⟨h1, h2, h3⟩ := h
  have h4 : ¬ (arc cfg).idle s' t := fun hh => h1 (hi.mpr hh)
  have h5 := (arc_laws hv).runs hr hs h2 h4
  refine ⟨h4, h5, fun hc => ?_⟩
  obtain ⟨act, e, hf⟩ := hs
  have h6 := h3 (calm_back e h5 hc)
  obtain ⟨cs, c, dst, g1, g2, g3⟩ := h5
  exact Src.ArcHeld.arg_keep hv hk (.step hr e hf) e (List.mem_of_getElem? g1) (List.mem_of_getLast? g2) g3 (hc cs c g1 g2) h6

/-- What holds in every execution. -/
structure Inv (w : World cfg R) (c : Conf L R (Tree L)) : Prop where
  reach : (arc cfg).Reach w.state
  owns : (arc cfg).Owns w.state w.conf.held
  same : Same w c
  own : ∀ t th, w.conf.threads[t]? = some th → th.phase = .own → (arc cfg).idle w.state t
  calling : ∀ t th vt ps, w.conf.threads[t]? = some th → c.threads[t]? = some vt → th.phase = .building ps →
    ∃ l is k ts, th.prog = .build l is k ∧ vt.phase = .building ts ∧ Builds w.state t l ps ts

theorem inv_step (hv : cfg.Valid) (hk : ∀ n, cfg.kids n = n.kids) {w w' : World cfg R} {c : Conf L R (Tree L)}
    (h : Inv w c) (e : WStep w w') : ∃ c', VRun c c' ∧ Inv w' c' := by
  have A := arc_laws hv
  cases e with
  | @inside s hs hi ho =>
    refine ⟨c, .refl, A.steps h.reach hs, ho, h.same.stay fun p hp t ht => stands_keep hv hk h.reach hs ho hp ht, ?_, ?_⟩
    · intro t th ht hp
      exact (hi t th ht (by rw [hp]; exact fun h => nomatch h)).mp (h.own t th ht hp)
    · intro t th vt ps ht hvt hp
      obtain ⟨l, is, k, ts, h1, h2, h3⟩ := h.calling t th vt ps ht hvt hp
      exact ⟨l, is, k, ts, h1, h2, h3.keep hv hk h.reach hs (hi t th ht (by rw [hp]; exact fun h => nomatch h))⟩
  | @look t th th' qs ht hp hl =>
    obtain ⟨c', h1, h2, vt', h3, h4⟩ := look_sim hv hk h.reach h.owns h.same ht hp hl
    have hph : th'.phase = .own := by cases hl <;> exact hp
    refine ⟨c', .step .refl h1, h.reach, A.less h.owns fun p => Nat.le_of_eq (held_look ht hl p), h2, ?_, ?_⟩
    · intro u tu hu hpu
      rcases get_set hu with ⟨rfl, rfl⟩ | ⟨_, hu⟩
      · exact h.own _ _ ht hp
      · exact h.own u tu hu hpu
    · intro u tu vu ps hu hvu hpu
      rw [h3] at hvu
      rcases get_set hu with ⟨rfl, rfl⟩ | ⟨hut, hu⟩
      · rw [hph] at hpu; cases hpu
      · rcases get_set hvu with ⟨rfl, _⟩ | ⟨_, hvu⟩
        · exact absurd rfl hut
        · exact h.calling u tu vu ps hu hvu hpu
  | @call s t th l is k ps ls ht hp hg hm hc =>
    obtain ⟨hs, hi, hni, hrun⟩ := A.calls h.reach hc
    obtain ⟨vt, hvt, h1⟩ := h.same.threads.get ht
    have hvp : vt.phase = .own := phase_own (hp ▸ h1.phase)
    obtain ⟨ts, ms, h2, h3, h4⟩ := move_pairs (r := StandsVar w.state) (r' := Stands w.state) (show StandsVar w.state none none from trivial)
      (fun {a o} h => by
        cases o with
        | none => exact h.elim
        | some b => exact ⟨b, rfl, h⟩) h1.locals hm
    have hheld := held_set (c := w.conf) { th with locals := ls, phase := .building ps } ht
    have hcnt := move_count hm
    have hc' := hc
    obtain ⟨_, dst, e, hf⟩ := hc'
    obtain ⟨hh, hmem⟩ := new_handles (step_act e)
    have ho : (arc cfg).Owns s ({ w.conf with threads := w.conf.threads.set t { th with locals := ls, phase := .building ps } } : Conf L R Addr).held := by
      intro p
      have g1 := h.owns p
      have g2 := hheld p
      have g3 := hcnt p
      show _ ≤ s.base.handles.count p
      rw [hh, hk, Arc.count_eraseAll]
      have g4 : w.conf.held p ≤ w.state.base.handles.count p := g1
      refine (?_ : _ ≤ w.state.base.handles.count p - ps.count p)
      simp only at g2 ⊢
      omega
    refine ⟨_, .step .refl (.build hvt hvp (h1.prog.symm.trans hg) h2), A.steps h.reach hs, ho, ?_, ?_, ?_⟩
    · have h5 : Same ⟨w.state, { w.conf with threads := w.conf.threads.set t { th with locals := ls, phase := .building ps } }⟩
          { c with threads := c.threads.set t { vt with locals := ms, phase := .building ts } } :=
        ⟨h.same.threads.set (a := { th with locals := ls, phase := .building ps }) (b := { vt with locals := ms, phase := .building ts })
          ⟨h1.prog, show ps.length = ts.length from unfoldsAll_length (pairs_all h3), h4⟩ t, h.same.queues⟩
      exact h5.stay fun p hp x hx => stands_keep hv hk h.reach hs ho hp hx
    · intro u tu hu hpu
      rcases get_set hu with ⟨rfl, rfl⟩ | ⟨hut, hu⟩
      · cases hpu
      · exact (A.other hc u hut).mp (h.own u tu hu hpu)
    · intro u tu vu ps' hu hvu hpu
      rcases get_set hu with ⟨rfl, rfl⟩ | ⟨hut, hu⟩
      · rcases get_set hvu with ⟨_, rfl⟩ | ⟨hut, _⟩
        · cases hpu
          refine ⟨l, is, k, ts, hg, rfl, hni, hrun, fun _ => ?_⟩
          refine Src.ArcNest.unfoldsAll_mono (fun p x hx => ?_) (pairs_all h3)
          have hx' : Arc.deref w.state.base.mem.view p = some x := hx
          rw [← hmem] at hx'
          exact hx'
        · exact absurd rfl hut
      · rcases get_set hvu with ⟨rfl, _⟩ | ⟨_, hvu⟩
        · exact absurd rfl hut
        · obtain ⟨l', is', k', ts', g1, g2, g3⟩ := h.calling u tu vu ps' hu hvu hpu
          exact ⟨l', is', k', ts', g1, g2, g3.keep hv hk h.reach hs (A.other hc u hut)⟩
  | @ret s t th l is k ps b ht hp hg hc =>
    obtain ⟨hs, hi, hni⟩ := A.returns h.reach hc
    obtain ⟨vt, hvt, h0⟩ := h.same.threads.get ht
    obtain ⟨l', is', k', ts, hg', hvp, _, hrun, htr⟩ := h.calling t th vt ps ht hvt hp
    rw [hg] at hg'; cases hg'
    have ho' := A.owns_returns h.reach hc h.owns
    have ho : (arc cfg).Owns s w.conf.held := A.less ho' fun p => Nat.le_add_right _ _
    have hsame : Same ⟨s, w.conf⟩ c := h.same.stay fun p hp t ht => stands_keep hv hk h.reach hs ho hp ht
    obtain ⟨vt', hvt', h1⟩ := hsame.threads.get ht
    rw [hvt] at hvt'; cases hvt'
    have hst : Stands s b (.node l ts) := by
      obtain ⟨x, hx, hxv⟩ := A.result h.reach h.owns hrun hc
      obtain ⟨c0, a, g1, e, hf, g2, g3⟩ := hc
      obtain ⟨g4, _, _⟩ := run_out g1 (step_act e) g3
      obtain ⟨v, dst, c1, g5, g6, g7, _⟩ := arc_result hv h.reach ⟨c0, a, g1, e, hf, g2, g3⟩
      have hall := htr (by
        intro cs c2 k1 k2
        rw [g1] at k1; cases k1
        simp only [List.getLast?_singleton, Option.some.injEq] at k2
        subst k2; exact g4)
      obtain ⟨t', ht'⟩ := Src.ArcHeld.own_tree hv hk (X := s) (.step h.reach e hf) (p := b) (by rw [g7]; exact List.mem_cons_self)
      obtain ⟨hxl, hxk⟩ := (Arc.Node.beq_iff x ⟨l, ps⟩).mp hxv
      obtain ⟨xl, xk⟩ := x
      simp only at hxl hxk
      subst hxl; subst hxk
      have hx' : Arc.deref s.base.view b = some ⟨xl, xk⟩ := hx
      cases ht' with
      | node d1 a1 =>
        rw [hx'] at d1; cases d1
        rw [Src.ArcNest.unfoldsAll_agree (Src.ArcHeld.step_agree e) hall a1]
        exact .node hx' a1
    refine ⟨_, .step .refl (.built hvt hvp (h1.prog.symm.trans hg)), A.steps h.reach hs,
      A.less ho' fun p => Nat.le_of_eq (held_snoc { prog := k, locals := th.locals ++ [some b], phase := .own } ht rfl p),
      ⟨hsame.threads.set (a := { prog := k, locals := th.locals ++ [some b], phase := .own })
        (b := { prog := k, locals := vt.locals ++ [some (.node l ts)], phase := .own }) ⟨rfl, trivial, h1.locals.snoc (show StandsVar s (some b) (some (.node l ts)) from hst)⟩ t, hsame.queues⟩, ?_, ?_⟩
    · intro u tu hu hpu
      rcases get_set hu with ⟨rfl, rfl⟩ | ⟨hut, hu⟩
      · exact hni
      · exact (A.other' hc u hut).mp (h.own u tu hu hpu)
    · intro u tu vu ps' hu hvu hpu
      rcases get_set hu with ⟨rfl, rfl⟩ | ⟨hut, hu⟩
      · cases hpu
      · rcases get_set hvu with ⟨rfl, _⟩ | ⟨_, hvu⟩
        · exact absurd rfl hut
        · obtain ⟨l', is', k', ts', g1, g2, g3⟩ := h.calling u tu vu ps' hu hvu hpu
          exact ⟨l', is', k', ts', g1, g2, g3.keep hv hk h.reach hs (A.other' hc u hut)⟩
  | @clone s t th i p k ht hp hg hl hc =>
    obtain ⟨_, hi⟩ := A.clones h.reach hc
    have hs : (arc cfg).Step w.state s := ⟨_, hc.2.1, hc.2.2⟩
    have ho' := A.owns_clones hc (held_local ht (List.mem_of_getElem? hl)) h.owns
    have ho : (arc cfg).Owns s w.conf.held := A.less ho' fun p => Nat.le_add_right _ _
    have hsame : Same ⟨s, w.conf⟩ c := h.same.stay fun p hp t ht => stands_keep hv hk h.reach hs ho hp ht
    obtain ⟨vt, hvt, h1⟩ := hsame.threads.get ht
    have hvp : vt.phase = .own := phase_own (hp ▸ h1.phase)
    obtain ⟨x, hx, hst⟩ := stands_var h1.locals hl
    refine ⟨_, .step .refl (.clone hvt hvp (h1.prog.symm.trans hg) hx), A.steps h.reach hs,
      A.less ho' fun q => Nat.le_of_eq (held_snoc { th with prog := k, locals := th.locals ++ [some p] } ht rfl q),
      ⟨hsame.threads.set (a := { th with prog := k, locals := th.locals ++ [some p] }) (b := { vt with prog := k, locals := vt.locals ++ [some x] })
        ⟨rfl, h1.phase, h1.locals.snoc (show StandsVar s (some p) (some x) from hst)⟩ t, hsame.queues⟩, ?_, ?_⟩
    · intro u tu hu hpu
      rcases get_set hu with ⟨rfl, rfl⟩ | ⟨hut, hu⟩
      · exact (hi _).mp (h.own _ _ ht hp)
      · exact (hi u).mp (h.own u tu hu hpu)
    · intro u tu vu ps' hu hvu hpu
      rcases get_set hu with ⟨rfl, rfl⟩ | ⟨hut, hu⟩
      · have hpu : th.phase = .building ps' := hpu
        rw [hp] at hpu; cases hpu
      · rcases get_set hvu with ⟨rfl, _⟩ | ⟨_, hvu⟩
        · exact absurd rfl hut
        · obtain ⟨l', is', k', ts', g1, g2, g3⟩ := h.calling u tu vu ps' hu hvu hpu
          exact ⟨l', is', k', ts', g1, g2, g3.keep hv hk h.reach hs (hi u)⟩
  | @kid s t th i n p q k ht hp hg hl hc =>
    obtain ⟨hid, ⟨l, ks, hd, hn⟩, e, hf⟩ := hc
    obtain ⟨hh, hth⟩ := pick_out (step_act e)
    have hi : ∀ u, (arc cfg).idle w.state u ↔ (arc cfg).idle s u := by
      intro u
      show w.state.base.threads[u]? = some [] ↔ s.base.threads[u]? = some []
      rw [hth]
    have hs : (arc cfg).Step w.state s := ⟨_, e, hf⟩
    have ho' : (arc cfg).Owns s fun r => w.conf.held r + if r = q then 1 else 0 := by
      intro r
      have g1 : w.conf.held r ≤ w.state.base.handles.count r := h.owns r
      show _ ≤ s.base.handles.count r
      rw [hh, List.count_cons]
      by_cases h : r = q
      · subst h; simpa using g1
      · simpa [h, Ne.symm h] using g1
    have ho : (arc cfg).Owns s w.conf.held := A.less ho' fun p => Nat.le_add_right _ _
    have hsame : Same ⟨s, w.conf⟩ c := h.same.stay fun p hp t ht => stands_keep hv hk h.reach hs ho hp ht
    obtain ⟨vt, hvt, h0⟩ := h.same.threads.get ht
    obtain ⟨vt0, hvt0, h1⟩ := hsame.threads.get ht
    rw [hvt] at hvt0; cases hvt0
    have hvp : vt.phase = .own := phase_own (hp ▸ h1.phase)
    obtain ⟨x, hx, hst⟩ := stands_var h0.locals hl
    obtain ⟨_, hall⟩ := unfolds_deref hst hd
    obtain ⟨y, hy, hsy⟩ := unfoldsAll_get hall hn
    have hsy' : Stands s q y := stands_keep hv hk h.reach hs ho' (by simp) hsy
    refine ⟨_, .step .refl (.kid hvt hvp (h1.prog.symm.trans hg) hx hy), A.steps h.reach hs,
      A.less ho' fun r => Nat.le_of_eq (held_snoc { th with prog := k, locals := th.locals ++ [some q] } ht rfl r),
      ⟨hsame.threads.set (a := { th with prog := k, locals := th.locals ++ [some q] }) (b := { vt with prog := k, locals := vt.locals ++ [some y] })
        ⟨rfl, h1.phase, h1.locals.snoc (show StandsVar s (some q) (some y) from hsy')⟩ t, hsame.queues⟩, ?_, ?_⟩
    · intro u tu hu hpu
      rcases get_set hu with ⟨rfl, rfl⟩ | ⟨hut, hu⟩
      · exact (hi _).mp (h.own _ _ ht hp)
      · exact (hi u).mp (h.own u tu hu hpu)
    · intro u tu vu ps' hu hvu hpu
      rcases get_set hu with ⟨rfl, rfl⟩ | ⟨hut, hu⟩
      · have hpu : th.phase = .building ps' := hpu
        rw [hp] at hpu; cases hpu
      · rcases get_set hvu with ⟨rfl, _⟩ | ⟨_, hvu⟩
        · exact absurd rfl hut
        · obtain ⟨l', is', k', ts', g1, g2, g3⟩ := h.calling u tu vu ps' hu hvu hpu
          exact ⟨l', is', k', ts', g1, g2, g3.keep hv hk h.reach hs (hi u)⟩
  | @drop s t th i p k ht hp hg hl hc =>
    obtain ⟨_, hi⟩ := A.drops h.reach hc
    have hs : (arc cfg).Step w.state s := ⟨_, hc.2.1, hc.2.2⟩
    have hheld := held_drop (c := w.conf) { prog := k, locals := th.locals.set i none, phase := .dropping } ht hl rfl
    have ho : (arc cfg).Owns s ({ w.conf with threads := w.conf.threads.set t { prog := k, locals := th.locals.set i none, phase := .dropping } } : Conf L R Addr).held :=
      A.owns_drops hc (A.less h.owns fun q => Nat.le_of_eq (hheld q))
    obtain ⟨vt, hvt, h1⟩ := h.same.threads.get ht
    have hvp : vt.phase = .own := phase_own (hp ▸ h1.phase)
    obtain ⟨x, hx, hst⟩ := stands_var h1.locals hl
    refine ⟨_, .step .refl (.drop hvt hvp (h1.prog.symm.trans hg) hx), A.steps h.reach hs, ho, ?_, ?_, ?_⟩
    · have h2 : Same ⟨w.state, { w.conf with threads := w.conf.threads.set t { prog := k, locals := th.locals.set i none, phase := .dropping } }⟩
          { c with threads := c.threads.set t { vt with prog := k, locals := vt.locals.set i none } } :=
        ⟨h.same.threads.set (a := { prog := k, locals := th.locals.set i none, phase := .dropping }) (b := { vt with prog := k, locals := vt.locals.set i none })
          ⟨rfl, (by show SamePhase .dropping vt.phase; rw [hvp]; trivial), h1.locals.set (show StandsVar w.state none none from trivial) i⟩ t, h.same.queues⟩
      exact h2.stay fun q hq x hx => stands_keep hv hk h.reach hs ho hq hx
    · intro u tu hu hpu
      rcases get_set hu with ⟨rfl, rfl⟩ | ⟨hut, hu⟩
      · cases hpu
      · exact (A.other'' hc u hut).mp (h.own u tu hu hpu)
    · intro u tu vu ps' hu hvu hpu
      rcases get_set hu with ⟨rfl, rfl⟩ | ⟨hut, hu⟩
      · cases hpu
      · rcases get_set hvu with ⟨rfl, _⟩ | ⟨_, hvu⟩
        · exact absurd rfl hut
        · obtain ⟨l', is', k', ts', g1, g2, g3⟩ := h.calling u tu vu ps' hu hvu hpu
          exact ⟨l', is', k', ts', g1, g2, g3.keep hv hk h.reach hs (A.other'' hc u hut)⟩
  | @dropped t th ht hp hi =>
    obtain ⟨vt, hvt, h1⟩ := h.same.threads.get ht
    refine ⟨c, .refl, h.reach, A.less h.owns fun p => Nat.le_of_eq (held_same { th with phase := .own } ht rfl p), ⟨?_, h.same.queues⟩, ?_, ?_⟩
    · have h3 : SamePhase .own vt.phase := by
        have := h1.phase
        rw [hp] at this
        revert this
        cases vt.phase <;> exact fun h => h
      have h2 := h.same.threads.set (a := { th with phase := .own }) (b := vt) ⟨h1.prog, h3, h1.locals⟩ t
      obtain ⟨hlt, hvt⟩ := List.getElem?_eq_some_iff.mp hvt
      rw [← hvt, List.set_getElem_self] at h2
      exact h2
    · intro u tu hu hpu
      rcases get_set hu with ⟨rfl, rfl⟩ | ⟨hut, hu⟩
      · exact hi
      · exact h.own u tu hu hpu
    · intro u tu vu ps' hu hvu hpu
      rcases get_set hu with ⟨rfl, rfl⟩ | ⟨hut, hu⟩
      · cases hpu
      · exact h.calling u tu vu ps' hu hvu hpu

omit [BEq L] [Hashable (Node L)] [LawfulBEq L] [LawfulHashable (Node L)] in
theorem held_start (ps : List (Prog L R)) (n : Nat) (p : Addr) : (start ps n : Conf L R Addr).held p = 0 := by
  have h1 : ∀ ps : List (Prog L R), ((ps.map fun p => ({ prog := p, locals := [], phase := .own } : Thread L R Addr)).map
      fun th => th.locals.count (some p)).sum = 0 := by
    intro ps
    induction ps with
    | nil => rfl
    | cons _ _ ih => simpa using ih
  have h2 : ∀ n, ((List.replicate n ([] : List Addr)).map fun l => l.count p).sum = 0 := by
    intro n
    induction n with
    | zero => rfl
    | succ n ih => simp [List.replicate_succ]
  simp only [Conf.held, start, h1, h2]

omit [LawfulBEq L] [LawfulHashable (Node L)] in
theorem same_start (s : (arc cfg).State) (ps : List (Prog L R)) (n : Nat) : Same (⟨s, start ps n⟩ : World cfg R) (start ps n) := by
  constructor
  · show Pairs _ (ps.map _) (ps.map _)
    induction ps with
    | nil => exact .nil
    | cons p ps ih => exact .cons ⟨rfl, trivial, .nil⟩ ih
  · show Pairs _ (List.replicate n []) (List.replicate n [])
    induction n with
    | zero => exact .nil
    | succ n ih => exact .cons .nil ih

omit [LawfulBEq L] [LawfulHashable (Node L)] in
theorem inv_start {ps : List (Prog L R)} {n : Nat} {w : World cfg R} (h : Starts ps n w) : Inv w (start ps n) := by
  obtain ⟨s, cf⟩ := w
  obtain ⟨hc, hr, hi⟩ := h
  subst hc
  have own : ∀ {t : Nat} {th : Thread L R Addr}, (start ps n : Conf L R Addr).threads[t]? = some th → th.phase = .own ∧ t < ps.length := by
    intro t th ht
    have h1 : (ps.map fun p => ({ prog := p, locals := [], phase := .own } : Thread L R Addr))[t]? = some th := ht
    obtain ⟨hlt, h2⟩ := List.getElem?_eq_some_iff.mp h1
    simp only [List.getElem_map] at h2
    rw [List.length_map] at hlt
    exact ⟨by rw [← h2], hlt⟩
  refine ⟨hr, fun p => ?_, same_start s ps n, fun t th ht _ => hi t (own ht).2, fun t th vt ps ht _ hp => ?_⟩
  · show (start ps n : Conf L R Addr).held p ≤ _
    rw [held_start]; exact Nat.zero_le _
  · rw [(own ht).1] at hp; cases hp

theorem inv_run (hv : cfg.Valid) (hk : ∀ n, cfg.kids n = n.kids) {ps : List (Prog L R)} {n : Nat}
    {w w' : World cfg R} (h : Starts ps n w) (hr : WRun w w') : ∃ c, VRun (start ps n) c ∧ Inv w' c := by
  induction hr with
  | refl => exact ⟨_, .refl, inv_start h⟩
  | step _ e ih =>
    obtain ⟨c, h1, h2⟩ := ih
    obtain ⟨c', h3, h4⟩ := inv_step hv hk h2 e
    exact ⟨c', h1.trans' h3, h4⟩

/-! ### One thread, computed -/

/-- The rest of a thread, also if it is building a node. -/
def rest (th : Thread L R (Tree L)) : Option R := match th.phase, th.prog with
  | .building ts, .build l _ k => k.eval (th.locals ++ [some (.node l ts)])
  | _, p => p.eval th.locals

omit [Hashable (Node L)] [LawfulBEq L] [LawfulHashable (Node L)] in
theorem rest_own {th : Thread L R (Tree L)} (h : th.phase = .own) : rest th = th.prog.eval th.locals := by
  simp only [rest, h]

omit [Hashable (Node L)] [LawfulBEq L] [LawfulHashable (Node L)] in
theorem eval_run {ps : List (Prog L R)} {n : Nat} {c : Conf L R (Tree L)} (h : VRun (start ps n) c) {t : Nat} {p : Prog L R}
    (hp : ps[t]? = some p) (ha : p.Alone) : ∃ th, c.threads[t]? = some th ∧ th.prog.Alone ∧ rest th = p.eval [] := by
  induction h with
  | refl => exact ⟨⟨p, [], .own⟩, by simp [start, hp], ha, rfl⟩
  | @step c' c'' _ e ih =>
    obtain ⟨th, h1, h2, h3⟩ := ih
    have set : ∀ {u : Nat} {tu tu' : Thread L R (Tree L)}, c'.threads[u]? = some tu →
        (tu.prog.Alone → tu'.prog.Alone ∧ rest tu' = rest tu) →
        ∃ th, (c'.threads.set u tu')[t]? = some th ∧ th.prog.Alone ∧ rest th = p.eval [] := by
      intro u tu tu' hu hh
      by_cases hut : t = u
      · subst hut
        rw [h1] at hu; cases hu
        obtain ⟨h4, h5⟩ := hh h2
        exact ⟨tu', by simp [(List.getElem?_eq_some_iff.mp h1).1], h4, h5.trans h3⟩
      · exact ⟨th, by rw [List.getElem?_set_ne (Ne.symm hut)]; exact h1, h2, h3⟩
    cases e with
    | @look u tu tu' qs hu hph hl =>
      refine set hu fun hal => ?_
      have hph' : tu'.phase = .own := by cases hl <;> exact hph
      rw [rest_own hph, rest_own hph']
      cases hl with
      | @eq i j k x y b e hi hj hb =>
        have hb : b = same x y := hb
        subst hb
        rw [e] at hal
        cases hal with
        | eq hk => exact ⟨hk _, by simp only [e, Prog.eval, hi, hj]⟩
      | @node i k x l n e hi hb =>
        obtain ⟨rfl, rfl⟩ := hb
        rw [e] at hal
        cases hal with
        | node hk => exact ⟨hk _ _, by simp only [e, Prog.eval, hi]⟩
      | give e => rw [e] at hal; cases hal
      | take e => rw [e] at hal; cases hal
    | @build u tu l is k ts ls hu hph e hm =>
      refine set hu fun hal => ⟨hal, ?_⟩
      rw [rest_own hph]
      simp only [rest, e, Prog.eval, hm]
    | @built u tu l is k ts hu hph e =>
      refine set hu fun hal => ?_
      rw [e] at hal
      cases hal with
      | build hk => exact ⟨hk, by simp only [rest, hph, e]⟩
    | @clone u tu i x k hu hph e hi =>
      refine set hu fun hal => ?_
      rw [e] at hal
      cases hal with
      | clone hk => exact ⟨hk, by simp only [rest, hph, e, Prog.eval, hi]⟩
    | @kid u tu i n x y k hu hph e hi hn =>
      refine set hu fun hal => ?_
      rw [e] at hal
      cases hal with
      | kid hk => exact ⟨hk, by simp only [rest, hph, e, Prog.eval, hi, hn]⟩
    | @drop u tu i x k hu hph e hi =>
      refine set hu fun hal => ?_
      rw [e] at hal
      cases hal with
      | drop hk => exact ⟨hk, by simp only [rest, hph, e, Prog.eval, hi]⟩

end
end Client.Term
