import Verif.TypeArena.Weak
/-!
C68: `NewIntern` has no data races, and weak memory adds no behaviour to it. Vocabulary: events and happens-before in
`Verif/TypeArena/Trace.lean`, `Weak.step`, `Weak.Sees`, `Weak.Instants` in `Verif/TypeArena/Weak.lean`.
-/
namespace TypeArena
open TypeMap (Cfg Code Entry Tid Res set_cases set_self set_other snoc_cases snoc_left)
open Pool (get_append get_snoc get_last get_lt)
open Trace
variable {cfg : Cfg}

/-! ### No data races -/
namespace Trace

/-- Two accesses conflict if they touch the same memory and one of them writes it: the push of an element and any later access to it or to
what is behind it; two accesses to the set of one type. -/
inductive Conflict : What cfg → What cfg → Prop where
  | push {i p w} : Touch i p w → Conflict (.push i p) w
  | access {i p w} : Touch i p w → Conflict w (.push i p)
  | set {t p q} : Conflict (.data t p) (.data t q)

/-- **C68, no data races.** Of two conflicting accesses one happens before the other. -/
theorem C68_no_races {s : State cfg} {tr : List (Ev cfg)} (h : Run s tr) {i j : Nat} {u v : Tid} {w w' : What cfg}
    (hi : tr[i]? = some ⟨u, w⟩) (hj : tr[j]? = some ⟨v, w'⟩) (hne : i ≠ j) (hc : Conflict w w') : HB tr i j ∨ HB tr j i := by
  have O := h.ordered
  cases hc with
  | push ht => exact .inl (O.ord.touch hi hj ht)
  | access ht => exact .inr (O.ord.touch hj hi ht)
  | @set t p q =>
    obtain ⟨c, hc⟩ := O.tab hi ⟨rfl, rfl⟩
    obtain ⟨d, hd⟩ := O.tab hj ⟨rfl, rfl⟩
    obtain ⟨rfl, _⟩ := hc.unique hd
    rcases Nat.lt_or_gt_of_ne hne with hlt | hlt
    · exact .inl (O.ord.total hlt hi hj ⟨rfl, rfl⟩ ⟨rfl, rfl⟩)
    · exact .inr (O.ord.total hlt hj hi ⟨rfl, rfl⟩ ⟨rfl, rfl⟩)

/-- **C68, initialised before use.** Whatever a thread reads, or locks, in a vector was pushed, and the push happens before. -/
theorem C68_initialised {s : State cfg} {tr : List (Ev cfg)} (h : Run s tr) {j i p : Nat} {v : Tid} {w : What cfg}
    (hj : tr[j]? = some ⟨v, w⟩) (ht : Touch i p w) : ∃ (k : Nat) (u : Tid), tr[k]? = some ⟨u, .push i p⟩ ∧ HB tr k j := by
  have O := h.ordered
  obtain ⟨k, u, hk⟩ := O.ord.pushed (O.ord.reached hj ht)
  exact ⟨k, u, hk, O.ord.touch hk hj ht⟩

/-- Events of client code. -/
def What.isClient : What cfg → Bool
  | .use _ _ | .send _ _ | .recv _ _ _ => true
  | _ => false

/-- A result that is used, sent or received was returned by a call, and that happens before. -/
theorem has_done {s : State cfg} {tr : List (Ev cfg)} (h : Run s tr) :
    (∀ {j : Nat} {v : Tid} {n : Nat} {t : cfg.Ty} {r : cfg.R t}, tr[j]? = some ⟨v, .recv n t r⟩ →
      ∃ (i : Nat) (u : Tid), tr[i]? = some ⟨u, .done t r⟩ ∧ HB tr i j) ∧
    ∀ {j : Nat} {v : Tid} {t : cfg.Ty} {r : cfg.R t}, (tr[j]? = some ⟨v, .use t r⟩ ∨ tr[j]? = some ⟨v, .send t r⟩) →
      ∃ (i : Nat) (u : Tid), tr[i]? = some ⟨u, .done t r⟩ ∧ HB tr i j := by
  have has : ∀ {tr : List (Ev cfg)} {u : Tid} {t : cfg.Ty} {r : cfg.R t} {w : What cfg}, Has tr u t r →
      (∀ {j : Nat} {v : Tid} {n : Nat} {t : cfg.Ty} {r : cfg.R t}, tr[j]? = some ⟨v, .recv n t r⟩ →
        ∃ (i : Nat) (u : Tid), tr[i]? = some ⟨u, .done t r⟩ ∧ HB tr i j) →
      ∃ (i : Nat) (v : Tid), (tr ++ [⟨u, w⟩])[i]? = some ⟨v, .done t r⟩ ∧ HB (tr ++ [⟨u, w⟩]) i tr.length := by
    rintro tr u t r w ⟨j, hj | ⟨n, hj⟩⟩ ih
    · exact ⟨j, u, get_append hj, .po (get_lt hj) (get_append hj) (get_last _ _) rfl⟩
    · obtain ⟨i, v, hi, hb⟩ := ih hj
      exact ⟨i, v, get_append hi, (hb.append _).trans (.po (get_lt hj) (get_append hj) (get_last _ _) rfl)⟩
  induction h with
  | init => constructor <;> intros <;> simp_all
  | @act s s' a tr _ hs ih =>
    have hev : ∀ e ∈ events s a, e.what.isClient = false := by
      intro e he
      cases a with
      | spawn => cases he
      | call _ _ _ => cases he
      | run u n =>
        simp only [events] at he
        cases hu : s.threads[u]? with
        | none => rw [hu] at he; cases he
        | some pc =>
          rw [hu] at he
          cases pc with
          | idle => cases he
          | search t _ =>
            rcases List.mem_cons.mp he with rfl | he
            · exact rfl
            · obtain ⟨p, _, rfl⟩ := List.mem_map.mp he
              exact rfl
          | again t _ _ =>
            rcases List.mem_cons.mp he with rfl | he
            · exact rfl
            · obtain ⟨p, _, rfl⟩ := List.mem_map.mp he
              exact rfl
          | push t _ =>
            rcases List.mem_singleton.mp he with rfl
            exact rfl
          | lock t _ pos =>
            simp only at he
            split at he
            · rcases List.mem_cons.mp he with rfl | he
              · exact rfl
              · rcases List.mem_singleton.mp he with rfl
                exact rfl
            · rcases List.mem_singleton.mp he with rfl
              exact rfl
          | inside t orig i k pos =>
            cases k with
            | ret r =>
              rcases List.mem_cons.mp he with rfl | he
              · exact rfl
              · rcases List.mem_singleton.mp he with rfl
                exact rfl
            | next f k =>
              rcases List.mem_singleton.mp he with rfl
              exact rfl
      | panic u =>
        simp only [events] at he
        cases hu : s.threads[u]? with
        | none => rw [hu] at he; cases he
        | some pc =>
          rw [hu] at he
          cases pc with
          | inside t orig i k pos =>
            rcases List.mem_cons.mp he with rfl | he
            · exact rfl
            · rcases List.mem_singleton.mp he with rfl
              exact rfl
          | _ => cases he
    constructor
    · intro j v n t r hj
      rcases get_append_cases hj with hj | hm
      · obtain ⟨i, u, hi, hb⟩ := ih.1 hj
        exact ⟨i, u, get_append hi, hb.append _⟩
      · exact absurd (hev _ hm) (by simp [What.isClient])
    · intro j v t r hj
      rcases hj with hj | hj
      · rcases get_append_cases hj with hj | hm
        · obtain ⟨i, u, hi, hb⟩ := ih.2 (.inl hj)
          exact ⟨i, u, get_append hi, hb.append _⟩
        · exact absurd (hev _ hm) (by simp [What.isClient])
      · rcases get_append_cases hj with hj | hm
        · obtain ⟨i, u, hi, hb⟩ := ih.2 (.inr hj)
          exact ⟨i, u, get_append hi, hb.append _⟩
        · exact absurd (hev _ hm) (by simp [What.isClient])
  | @use s tr u t r _ hh ih =>
    constructor
    · intro j v n t' r' hj
      rcases get_snoc hj with hj | ⟨_, e⟩
      · obtain ⟨i, u, hi, hb⟩ := ih.1 hj
        exact ⟨i, u, get_append hi, hb.append _⟩
      · cases e
    · intro j v t' r' hj
      rcases hj with hj | hj
      · rcases get_snoc hj with hj | ⟨rfl, e⟩
        · obtain ⟨i, u, hi, hb⟩ := ih.2 (.inl hj)
          exact ⟨i, u, get_append hi, hb.append _⟩
        · cases e; exact has hh ih.1
      · rcases get_snoc hj with hj | ⟨_, e⟩
        · obtain ⟨i, u, hi, hb⟩ := ih.2 (.inr hj)
          exact ⟨i, u, get_append hi, hb.append _⟩
        · cases e
  | @send s tr u t r _ hh ih =>
    constructor
    · intro j v n t' r' hj
      rcases get_snoc hj with hj | ⟨_, e⟩
      · obtain ⟨i, u, hi, hb⟩ := ih.1 hj
        exact ⟨i, u, get_append hi, hb.append _⟩
      · cases e
    · intro j v t' r' hj
      rcases hj with hj | hj
      · rcases get_snoc hj with hj | ⟨_, e⟩
        · obtain ⟨i, u, hi, hb⟩ := ih.2 (.inl hj)
          exact ⟨i, u, get_append hi, hb.append _⟩
        · cases e
      · rcases get_snoc hj with hj | ⟨rfl, e⟩
        · obtain ⟨i, u, hi, hb⟩ := ih.2 (.inr hj)
          exact ⟨i, u, get_append hi, hb.append _⟩
        · cases e; exact has hh ih.1
  | @recv s tr u u' n t r _ hn ih =>
    constructor
    · intro j v n' t' r' hj
      rcases get_snoc hj with hj | ⟨rfl, e⟩
      · obtain ⟨i, u, hi, hb⟩ := ih.1 hj
        exact ⟨i, u, get_append hi, hb.append _⟩
      · cases e
        obtain ⟨i, v, hi, hb⟩ := ih.2 (.inr hn)
        exact ⟨i, v, get_append hi, (hb.append _).trans (.msg (get_lt hn) (get_append hn) (get_last _ _))⟩
    · intro j v t' r' hj
      rcases hj with hj | hj
      · rcases get_snoc hj with hj | ⟨_, e⟩
        · obtain ⟨i, u, hi, hb⟩ := ih.2 (.inl hj)
          exact ⟨i, u, get_append hi, hb.append _⟩
        · cases e
      · rcases get_snoc hj with hj | ⟨_, e⟩
        · obtain ⟨i, u, hi, hb⟩ := ih.2 (.inr hj)
          exact ⟨i, u, get_append hi, hb.append _⟩
        · cases e

/-- Everything that closures did to the set of type `t` before a call for `t` returned happens before that return. -/
theorem data_done {s : State cfg} {tr : List (Ev cfg)} (h : Run s tr) {k j : Nat} {u v : Tid} {t : cfg.Ty} {p : Nat} {r : cfg.R t}
    (hk : tr[k]? = some ⟨u, .data t p⟩) (hj : tr[j]? = some ⟨v, .done t r⟩) (hlt : k < j) : HB tr k j := by
  have O := h.ordered
  obtain ⟨i, pos, rfl, hi⟩ := O.fin hj
  obtain ⟨c, hc⟩ := O.tab hk ⟨rfl, rfl⟩
  obtain ⟨d, hd⟩ := O.tab hi ⟨rfl, rfl⟩
  obtain ⟨rfl, _⟩ := hc.unique hd
  have hne : k ≠ i := fun e => by
    subst e
    rw [hk] at hi
    cases hi
  have hki : k < i := by omega
  exact (O.ord.total hki hk hi ⟨rfl, rfl⟩ ⟨rfl, rfl⟩).trans (.po (Nat.lt_succ_self i) hi hj rfl)

/-- **C68, results.** A result that a client uses was returned by a call of that type, which happens before the use, and so does
everything that closures did to the set of the type before that call returned: in particular the creation of the value behind a
handle. -/
theorem C68_results {s : State cfg} {tr : List (Ev cfg)} (h : Run s tr) {j : Nat} {v : Tid} {t : cfg.Ty} {r : cfg.R t}
    (hj : tr[j]? = some ⟨v, .use t r⟩) :
    ∃ (i : Nat) (u : Tid), tr[i]? = some ⟨u, .done t r⟩ ∧ HB tr i j ∧
      ∀ (k : Nat) (w : Tid) (p : Nat), tr[k]? = some ⟨w, .data t p⟩ → k < i → HB tr k j := by
  obtain ⟨i, u, hi, hb⟩ := (has_done h).2 (.inl hj)
  exact ⟨i, u, hi, hb, fun k w p hk hlt => (data_done h hk hi hlt).trans hb⟩

end Trace

/-! ### Weak memory -/
namespace Weak
variable {A : Act cfg → Prop}

theorem instants_run {c : Instant cfg} {l : List (Instant cfg)} (h : TypeArena.Instants A (c :: l)) : Run c.s c.tr := by
  generalize hl : c :: l = m at h
  induction h generalizing c l with
  | init => cases hl; exact .init
  | act hi ha hs ih => cases hl; exact (ih rfl).act hs
  | use hi hh ih => cases hl; exact (ih rfl).use hh
  | send hi hh ih => cases hl; exact (ih rfl).send hh
  | recv hi hn ih => cases hl; exact (ih rfl).recv hn

/-- What a step does to the vectors. -/
theorem step_vecs {s s' : State cfg} {a : Act cfg} (h : Reach s) (hs : TypeArena.step s a = .ok s') :
    s'.vecs = s.vecs ∨
    (∃ u t v c, s.vecs[cfg.shard t]? = some v ∧ s'.vecs = s.vecs.set (cfg.shard t) (v ++ [⟨t, c⟩]) ∧
      events s a = [⟨u, .push (cfg.shard t) v.length⟩] ∧ c.val = cfg.dflt t) ∨
    ∃ u t pos c c', IsTab s.vecs t pos c ∧ s'.vecs = setCell s.vecs t pos c' ∧ (c'.val = c.val ∨ events s a = [⟨u, .data t pos⟩]) := by
  have I := h.inv
  cases a with
  | spawn => cases hs; exact .inl rfl
  | call u t code =>
    simp only [TypeArena.step] at hs
    split at hs
    · cases hs; exact .inl rfl
    · cases hs
  | run u n =>
    simp only [TypeArena.step] at hs
    cases hu : s.threads[u]? with
    | none => rw [hu] at hs; cases hs
    | some pc =>
      rw [hu] at hs
      simp only at hs
      cases pc with
      | idle => cases hs
      | search t code =>
        simp only [TypeArena.run] at hs
        (repeat' split at hs) <;> cases hs <;> exact .inl rfl
      | push t code =>
        simp only [TypeArena.run] at hs
        cases hv : s.vecs[cfg.shard t]? with
        | none => rw [hv] at hs; cases hs
        | some v =>
          rw [hv] at hs
          cases hs
          exact .inr (.inl ⟨u, t, v, _, hv, rfl, by simp only [events, hu, hv, Option.elim_some], rfl⟩)
      | again t code m =>
        simp only [TypeArena.run] at hs
        (repeat' split at hs) <;> cases hs <;> exact .inl rfl
      | lock t code pos =>
        obtain ⟨c, hc⟩ := I.lock u t code pos hu
        simp only [TypeArena.run, hc.get] at hs
        (repeat' split at hs)
        · cases hs
        · cases hs; exact .inl rfl
        · cases hs; exact .inr (.inr ⟨u, t, pos, c, _, hc, rfl, .inl rfl⟩)
      | inside t orig i k pos =>
        obtain ⟨c, c0, hc, _⟩ := I.ins u t orig i k pos hu
        simp only [TypeArena.run, hc.get] at hs
        cases k with
        | ret r => cases hs; exact .inr (.inr ⟨u, t, pos, c, _, hc, rfl, .inl rfl⟩)
        | next f k => cases hs; exact .inr (.inr ⟨u, t, pos, c, _, hc, rfl, .inr (by simp only [events, hu])⟩)
  | panic u =>
    simp only [TypeArena.step] at hs
    cases hu : s.threads[u]? with
    | none => rw [hu] at hs; cases hs
    | some pc =>
      rw [hu] at hs
      cases pc with
      | inside t orig i k pos =>
        obtain ⟨c, c0, hc, _⟩ := I.ins u t orig i k pos hu
        simp only [TypeArena.runPanic, hc.get] at hs
        cases hs
        exact .inr (.inr ⟨u, t, pos, c, _, hc, rfl, .inl rfl⟩)
      | _ => cases hs

theorem cellTy_set {s s' : State cfg} {t : cfg.Ty} {pos : Nat} {c c' : Lock (cfg.C t)} (h : getCell s.vecs t pos = some c)
    (hs : s'.vecs = setCell s.vecs t pos c') (i p : Nat) : cellTy s' i p = cellTy s i p := by
  obtain ⟨v, hv, hp⟩ := getCell_some h
  unfold cellTy
  rw [hs, setCell]
  by_cases e : i = cfg.shard t
  · subst e
    rw [getElem?_modify_self hv, hv, Option.bind_some, Option.bind_some]
    by_cases e : p = pos
    · subst e; rw [set_self hp, hp]; rfl
    · rw [set_other e]
  · have e' : ¬ cfg.shard t = i := fun h => e h.symm
    simp only [List.getElem?_modify, e', if_false]
    simp

/-- The types in a vector never change. -/
theorem cellTy_step {s s' : State cfg} {a : Act cfg} (h : Reach s) (hs : TypeArena.step s a = .ok s') {i p : Nat} {t : cfg.Ty}
    (ht : cellTy s i p = some t) : cellTy s' i p = some t := by
  rcases step_vecs h hs with e | ⟨u, t', v, c, hv, e, _⟩ | ⟨u, t', pos, c, c', hc, e, _⟩
  · unfold cellTy at ht ⊢; rw [e]; exact ht
  · unfold cellTy at ht ⊢
    rw [e]
    by_cases hi : i = cfg.shard t'
    · subst hi
      rw [hv, Option.bind_some] at ht
      rw [set_self hv, Option.bind_some]
      cases hp : v[p]? with
      | none => rw [hp] at ht; cases ht
      | some x => rw [snoc_left hp]; rw [hp] at ht; exact ht
    · rw [set_other hi]; exact ht
  · rw [cellTy_set hc.get e]; exact ht

/-- Sets are changed by closures, and come into being with a push. -/
theorem valAt_step {s s' : State cfg} {a : Act cfg} (h : Reach s) (hs : TypeArena.step s a = .ok s') {t : cfg.Ty} {pos : Nat}
    (hne : valAt s' t pos ≠ valAt s t pos) : ∃ u, events s a = [⟨u, .data t pos⟩] ∨ events s a = [⟨u, .push (cfg.shard t) pos⟩] := by
  rcases step_vecs h hs with e | ⟨u, t', v, c, hv, e, he, _⟩ | ⟨u, t', p, c, c', hc, e, he⟩
  · exact absurd (by unfold valAt; rw [e]) hne
  · refine ⟨u, .inr ?_⟩
    unfold valAt at hne
    rw [e] at hne
    rcases getCell_push hv (c := c) t pos with h | ⟨rfl, rfl, _⟩
    · rw [h] at hne; exact absurd rfl hne
    · exact he
  · refine ⟨u, .inl ?_⟩
    unfold valAt at hne
    rw [e] at hne
    by_cases heq : t = t' ∧ pos = p
    · obtain ⟨rfl, rfl⟩ := heq
      rw [getCell_set_same hc.get, hc.get] at hne
      rcases he with he | he
      · simp only [Option.map_some, he] at hne; exact absurd rfl hne
      · exact he
    · rw [getCell_set_other hc.get heq] at hne; exact absurd rfl hne

/-- Older instants have shorter traces, and types stay. -/
theorem older {c c1 : Instant cfg} {l : List (Instant cfg)} (hm : c1 ∈ c :: l) (h : TypeArena.Instants A (c :: l)) :
    Run c1.s c1.tr ∧ (∃ m, c.tr = c1.tr ++ m) ∧ ∀ i p t, cellTy c1.s i p = some t → cellTy c.s i p = some t := by
  generalize hl : c :: l = L at h
  induction h generalizing c l with
  | init =>
    cases hl
    rcases List.mem_singleton.mp hm with rfl
    exact ⟨.init, ⟨[], rfl⟩, fun _ _ _ h => h⟩
  | @act c0 l0 s' a hi ha hs ih =>
    cases hl
    rcases List.mem_cons.mp hm with rfl | hm
    · exact ⟨(instants_run hi).act hs, ⟨[], by rw [List.append_nil]⟩, fun _ _ _ h => h⟩
    · obtain ⟨h1, ⟨m, h2⟩, h3⟩ := ih hm rfl
      exact ⟨h1, ⟨m ++ events c0.s a, by rw [h2, List.append_assoc]⟩,
        fun i p t ht => cellTy_step (instants_run hi).reach hs (h3 i p t ht)⟩
  | use hi hh ih =>
    cases hl
    rcases List.mem_cons.mp hm with rfl | hm
    · exact ⟨(instants_run hi).use hh, ⟨[], by rw [List.append_nil]⟩, fun _ _ _ h => h⟩
    · obtain ⟨h1, ⟨m, h2⟩, h3⟩ := ih hm rfl
      exact ⟨h1, ⟨m ++ _, by rw [h2, List.append_assoc]⟩, h3⟩
  | send hi hh ih =>
    cases hl
    rcases List.mem_cons.mp hm with rfl | hm
    · exact ⟨(instants_run hi).send hh, ⟨[], by rw [List.append_nil]⟩, fun _ _ _ h => h⟩
    · obtain ⟨h1, ⟨m, h2⟩, h3⟩ := ih hm rfl
      exact ⟨h1, ⟨m ++ _, by rw [h2, List.append_assoc]⟩, h3⟩
  | recv hi hh ih =>
    cases hl
    rcases List.mem_cons.mp hm with rfl | hm
    · exact ⟨(instants_run hi).recv hh, ⟨[], by rw [List.append_nil]⟩, fun _ _ _ h => h⟩
    · obtain ⟨h1, ⟨m, h2⟩, h3⟩ := ih hm rfl
      exact ⟨h1, ⟨m ++ _, by rw [h2, List.append_assoc]⟩, h3⟩

theorem cellTy_size {s : State cfg} {i p : Nat} : (cellTy s i p).isSome = true ↔ p < size s i := by
  unfold cellTy size
  cases s.vecs[i]? with
  | none => simp
  | some v => simp

/-- A thread that knows of a push sees the element as it is. -/
theorem seesTy_newest {c : Instant cfg} {l : List (Instant cfg)} (h : TypeArena.Instants A (c :: l)) {m : List (Ev cfg)}
    (hm : ∀ e ∈ m, ∀ i p, e.what ≠ .push i p) {u : Tid} {w : What cfg} {i p : Nat} {x : Option cfg.Ty}
    (hx : SeesTy (c :: l) (c.tr ++ m) ⟨u, w⟩ i p x) (hk : Knows (c.tr ++ m) u i p) : x = cellTy c.s i p ∧ x.isSome = true := by
  obtain ⟨c1, hc1, rfl, hc⟩ := hx
  obtain ⟨h1, ⟨m1, h2⟩, h3⟩ := older hc1 h
  obtain ⟨k, v, hk1, hk2⟩ := hk
  have hlt := hc k v hk1 hk2.hb
  have hk3 : c.tr[k]? = some ⟨v, .push i p⟩ := by
    rcases get_append_cases hk1 with hk1 | hk1
    · exact hk1
    · exact absurd rfl (hm _ hk1 i p)
  rw [h2, List.getElem?_append_left hlt] at hk3
  have hs := cellTy_size.mpr (h1.ordered.ord.bound hk3)
  obtain ⟨t, ht⟩ := Option.isSome_iff_exists.mp hs
  exact ⟨by rw [ht, h3 i p t ht], hs⟩

/-- The elements a loop reads are as they are. -/
theorem seesAll_newest {c : Instant cfg} {l : List (Instant cfg)} (h : TypeArena.Instants A (c :: l)) {u : Tid} {i n : Nat}
    {ty : Nat → Option cfg.Ty} (hn : n ≤ size c.s i) (hx : SeesAll (c :: l) c.tr u i n ty) (p : Nat) (hp : p < n) :
    ty p = cellTy c.s i p ∧ (ty p).isSome = true := by
  refine seesTy_newest h ?_ (hx p hp) ?_
  · intro e he j q
    rcases List.mem_cons.mp he with rfl | he
    · exact fun h => by cases h
    · obtain ⟨_, _, rfl⟩ := List.mem_map.mp he
      exact fun h => by cases h
  · rw [List.append_cons]
    exact ((instants_run h).ordered.ord.know hp hn).append _

/-- ... so that it finds what `TypeArena.find` finds. -/
theorem find_newest {w : View cfg} {s : State cfg} {t : cfg.Ty} {v : List (Cell cfg)} {n : Nat} (hv : s.vecs[cfg.shard t]? = some v)
    (hn : n ≤ v.length) (h : ∀ p, p < n → w.ty p = cellTy s (cfg.shard t) p ∧ (w.ty p).isSome = true) :
    w.ok n = true ∧ w.find t n = find v t n := by
  constructor
  · exact List.all_eq_true.mpr fun p hp => (h p (List.mem_range.mp hp)).2
  · have hty : ∀ p, (hp : p < v.length) → p < n → w.ty p = some v[p].1 := by
      intro p hp hpn
      rw [(h p hpn).1, cellTy, hv, Option.bind_some, List.getElem?_eq_getElem hp]
      rfl
    unfold View.find find
    cases hf : List.findIdx? (fun x => (downcast t x).isSome) (v.take n) with
    | none =>
      rw [List.find?_eq_none]
      rw [List.findIdx?_eq_none_iff] at hf
      intro p hp hd
      have hpn := List.mem_range.mp hp
      have hpv := Nat.lt_of_lt_of_le hpn hn
      have := hf v[p] (List.mem_of_getElem? (i := p) (by rw [List.getElem?_take_of_lt hpn, List.getElem?_eq_getElem hpv]))
      rw [downcast_isSome] at this
      rw [hty p hpv hpn] at hd
      simp only [Option.some.injEq, decide_eq_true_eq] at hd
      simp [hd] at this
    | some q =>
      rw [List.findIdx?_eq_some_iff_getElem] at hf
      obtain ⟨hi, hq, hm⟩ := hf
      have hi' : q < n ∧ q < v.length := by rw [List.length_take] at hi; omega
      rw [List.find?_range_eq_some]
      rw [List.getElem_take, downcast_isSome] at hq
      refine ⟨?_, List.mem_range.mpr hi'.1, ?_⟩
      · rw [hty q hi'.2 hi'.1]; simpa using hq
      · intro j hj
        have := hm j hj
        rw [List.getElem_take, downcast_isSome] at this
        rw [hty j (by omega) (by omega)]
        simpa using this

/-- A set is as it was, if it was not written since. -/
theorem val_since {c c1 : Instant cfg} {l : List (Instant cfg)} (hm : c1 ∈ c :: l) (h : TypeArena.Instants A (c :: l)) {t : cfg.Ty} {pos : Nat}
    (hw : ∀ k, WritesVal (c :: l) k t pos → k < c1.tr.length) : valAt c1.s t pos = valAt c.s t pos := by
  generalize hl : c :: l = L at h
  induction h generalizing c l with
  | init =>
    cases hl
    rcases List.mem_singleton.mp hm with rfl
    rfl
  | @act c0 l0 s' a hi ha hs ih =>
    cases hl
    rcases List.mem_cons.mp hm with rfl | hm
    · rfl
    · rw [ih hm (fun k hk => hw k (.inr hk)) rfl]
      by_cases hne : valAt s' t pos = valAt c0.s t pos
      · exact hne.symm
      · exfalso
        obtain ⟨u, he⟩ := valAt_step (instants_run hi).reach hs hne
        obtain ⟨_, ⟨m, h2⟩, _⟩ := older hm hi
        have hlt := hw c0.tr.length (.inl ⟨Nat.le_refl _, ⟨u, by
          rcases he with he | he
          · exact .inl (by simp only [he]; exact get_last _ _)
          · exact .inr (by simp only [he]; exact get_last _ _)⟩, hne⟩)
        rw [h2, List.length_append] at hlt
        omega
  | use hi hh ih =>
    cases hl
    rcases List.mem_cons.mp hm with rfl | hm
    · rfl
    · have := ih hm (fun k hk => hw k (.inr hk)) rfl
      exact this
  | send hi hh ih =>
    cases hl
    rcases List.mem_cons.mp hm with rfl | hm
    · rfl
    · have := ih hm (fun k hk => hw k (.inr hk)) rfl
      exact this
  | recv hi hh ih =>
    cases hl
    rcases List.mem_cons.mp hm with rfl | hm
    · rfl
    · have := ih hm (fun k hk => hw k (.inr hk)) rfl
      exact this

theorem writes_event {c : Instant cfg} {l : List (Instant cfg)} (h : TypeArena.Instants A (c :: l)) {k : Nat} {t : cfg.Ty} {pos : Nat}
    (hw : WritesVal (c :: l) k t pos) : ∃ u, c.tr[k]? = some ⟨u, .data t pos⟩ ∨ c.tr[k]? = some ⟨u, .push (cfg.shard t) pos⟩ := by
  generalize hl : c :: l = L at h
  induction h generalizing c l with
  | init => cases hl; exact hw.elim
  | act hi ha hs ih =>
    cases hl
    rcases hw with ⟨_, he, _⟩ | hw
    · exact he
    · obtain ⟨u, he⟩ := ih hw rfl
      exact ⟨u, he.imp get_append get_append⟩
  | use hi hh ih =>
    cases hl
    rcases hw with ⟨_, he, _⟩ | hw
    · exact he
    · obtain ⟨u, he⟩ := ih hw rfl
      exact ⟨u, he.imp get_append get_append⟩
  | send hi hh ih =>
    cases hl
    rcases hw with ⟨_, he, _⟩ | hw
    · exact he
    · obtain ⟨u, he⟩ := ih hw rfl
      exact ⟨u, he.imp get_append get_append⟩
  | recv hi hh ih =>
    cases hl
    rcases hw with ⟨_, he, _⟩ | hw
    · exact he
    · obtain ⟨u, he⟩ := ih hw rfl
      exact ⟨u, he.imp get_append get_append⟩

/-- The holder of the mutex sees the set as it is. -/
theorem seesVal_newest {c : Instant cfg} {l : List (Instant cfg)} (h : TypeArena.Instants A (c :: l)) {u : Tid} {t : cfg.Ty} {pos : Nat}
    {x : Option (cfg.C t)} (hh : holder c.s t pos = some u) (hk : Knows c.tr u (cfg.shard t) pos)
    (hx : SeesVal (c :: l) c.tr ⟨u, .data t pos⟩ t pos x) : x = valAt c.s t pos := by
  obtain ⟨c1, hc1, rfl, hc⟩ := hx
  have O := (instants_run h).ordered.ord
  refine val_since hc1 h fun k hw => hc k hw ?_
  obtain ⟨v, he | he⟩ := writes_event h hw
  · exact (O.seen hh he ⟨rfl, rfl⟩).hb
  · obtain ⟨j, v', hj, hs⟩ := hk
    rw [O.once he hj]
    exact hs.hb

/-- **C68, plain reads see the newest values**: whatever values the memory model allows the plain reads of a step to return, the step does
what it does when they return the newest ones. -/
theorem C68_reads {c : Instant cfg} {l : List (Instant cfg)} (h : TypeArena.Instants A (c :: l)) {w : View cfg} {a : Act cfg}
    (hw : Sees c l w a) : step w c.s a = TypeArena.step c.s a := by
  have O := (instants_run h).ordered
  have I := (instants_run h).reach.inv
  cases a with
  | run u n =>
    simp only [step, TypeArena.step]
    cases hu : c.s.threads[u]? with
    | none => rfl
    | some pc =>
      simp only
      have hp := hw pc hu
      cases pc with
      | idle => rfl
      | search t code =>
        simp only [run, TypeArena.run]
        cases hv : c.s.vecs[cfg.shard t]? with
        | none => rfl
        | some v =>
          simp only
          split
          · rfl
          · rename_i hn
            have hn' := Nat.le_of_not_lt hn
            obtain ⟨h1, h2⟩ := find_newest hv hn' fun p hp' => seesAll_newest h (by unfold size; rw [hv]; exact hn') hp p hp'
            rw [if_pos h1, h2]
            rfl
      | push t code => rfl
      | again t code m =>
        simp only [run, TypeArena.run]
        cases hv : c.s.vecs[cfg.shard t]? with
        | none => rfl
        | some v =>
          simp only
          split
          · rfl
          · rename_i hn
            have hn' : n ≤ v.length := by omega
            obtain ⟨h1, h2⟩ := find_newest hv hn' fun p hp' => seesAll_newest h (by unfold size; rw [hv]; exact hn') hp p hp'
            rw [if_pos h1, h2]
            rfl
      | lock t code pos =>
        obtain ⟨d, hd⟩ := I.lock u t code pos hu
        have hx := (seesTy_newest h (m := []) (fun _ h => by cases h) (by rw [List.append_nil]; exact hp)
          (by rw [List.append_nil]; exact O.pcs hu rfl)).1
        have : w.ty pos = some t := by
          obtain ⟨v, hv, hq, _⟩ := hd
          rw [hx, cellTy, hv, Option.bind_some, hq]
          rfl
        simp only [run]
        rw [if_pos this]
      | inside t orig i k pos =>
        obtain ⟨d, d0, hd, ho, _⟩ := I.ins u t orig i k pos hu
        cases k with
        | ret r => rfl
        | next f k =>
          have hx := seesVal_newest h (by unfold holder; rw [hd.get]; exact ho) (O.pcs hu rfl) hp
          have hx' : w.val t = some d.val := by rw [hx, valAt, hd.get]; rfl
          simp only [run, TypeArena.run, hd.get, hx']
  | _ => rfl

/-- **C68, only interleavings**: an execution in which every plain read may return any value that the memory model allows is an
execution in which every read returns the newest value. -/
theorem C68_only_interleavings {l : List (Instant cfg)} (h : Instants A l) : TypeArena.Instants A l := by
  induction h with
  | init => exact .init
  | act w _ ha hw hs ih => exact ih.act ha (by rw [← C68_reads ih hw]; exact hs)
  | use _ hh ih => exact ih.use hh
  | send _ hh ih => exact ih.send hh
  | recv _ hn ih => exact ih.recv hn

/-- **C68, no undefined behaviour**: with whatever the reads return, nothing that is not initialised is read, and `unreachable!` is not
reached. -/
theorem C68_no_bug {c : Instant cfg} {l : List (Instant cfg)} (h : Instants A (c :: l)) {w : View cfg} {a : Act cfg} (hw : Sees c l w a) :
    step w c.s a ≠ .bug := by
  have h' := C68_only_interleavings h
  rw [C68_reads h' hw]
  exact C46_never_unreachable (instants_run h').reach a

/-- **C68, all interleavings**: the newest values may always be read, so no execution is lost. -/
theorem C68_all_interleavings {l : List (Instant cfg)} (h : TypeArena.Instants A l) : Instants A l := by
  induction h with
  | init => exact .init
  | @act c l s' a hi ha hs ih =>
    -- the newest values
    have hty : ∀ {m : List (Ev cfg)} {r : Ev cfg} {i p : Nat}, (∀ e ∈ m, ∀ i p, e.what ≠ .push i p) →
        SeesTy (c :: l) (c.tr ++ m) r i p (cellTy c.s i p) := by
      intro m r i p hm
      refine ⟨c, List.mem_cons_self, rfl, fun k u hk _ => ?_⟩
      rcases get_append_cases hk with hk | hk
      · exact get_lt hk
      · exact absurd rfl (hm _ hk i p)
    have hval : ∀ {r : Ev cfg} {t : cfg.Ty} {pos : Nat}, SeesVal (c :: l) c.tr r t pos (valAt c.s t pos) := by
      intro r t pos
      refine ⟨c, List.mem_cons_self, rfl, fun k hk _ => ?_⟩
      obtain ⟨u, he | he⟩ := writes_event hi hk <;> exact get_lt he
    have key : ∃ w : View cfg, Sees c l w a := by
      cases a with
      | run u n =>
        cases hu : c.s.threads[u]? with
        | none => exact ⟨⟨fun _ => none, fun _ => none⟩, fun pc h => by rw [hu] at h; cases h⟩
        | some pc =>
          have mk : ∀ w : View cfg, SeesPc (c :: l) c.tr w u n pc → ∃ w : View cfg, Sees c l w (.run u n) :=
            fun w hw => ⟨w, fun pc' h => by rw [hu] at h; cases h; exact hw⟩
          have all : ∀ i, SeesAll (c :: l) c.tr u i n (cellTy c.s i) := by
            intro i p _
            refine hty fun e he j q => ?_
            rcases List.mem_cons.mp he with rfl | he
            · exact fun h => by cases h
            · obtain ⟨_, _, rfl⟩ := List.mem_map.mp he
              exact fun h => by cases h
          cases pc with
          | idle => exact mk ⟨fun _ => none, fun _ => none⟩ trivial
          | push t _ => exact mk ⟨fun _ => none, fun _ => none⟩ trivial
          | search t _ => exact mk ⟨cellTy c.s (cfg.shard t), fun _ => none⟩ (all _)
          | again t _ _ => exact mk ⟨cellTy c.s (cfg.shard t), fun _ => none⟩ (all _)
          | lock t _ pos =>
            refine mk ⟨cellTy c.s (cfg.shard t), fun _ => none⟩ ?_
            have := hty (m := []) (r := ⟨u, .acq t pos⟩) (i := cfg.shard t) (p := pos) (fun _ h => by cases h)
            rw [List.append_nil] at this
            exact this
          | inside t _ _ _ pos => exact mk ⟨fun _ => none, fun t => valAt c.s t pos⟩ hval
      | _ => exact ⟨⟨fun _ => none, fun _ => none⟩, trivial⟩
    obtain ⟨w, hw⟩ := key
    exact .act w ih ha hw (by rw [C68_reads hi hw]; exact hs)
  | use _ hh ih => exact ih.use hh
  | send _ hh ih => exact ih.send hh
  | recv _ hn ih => exact ih.recv hn

/-! ### Handles -/
section
open Closures Closures.NewTables
open Pool (Ptr)
variable {T : Types}

theorem instants_reach {c : Instant T.cfg} {l : List (Instant T.cfg)} (h : TypeArena.Instants (NewTables.Allowed (T := T)) (c :: l)) :
    NewTables.Reach c.s := by
  generalize hl : c :: l = m at h
  induction h generalizing c l with
  | init => cases hl; exact .refl
  | act hi ha hs ih => cases hl; exact .step (ih rfl) ha hs
  | use hi hh ih => cases hl; have := ih rfl; exact this
  | send hi hh ih => cases hl; have := ih rfl; exact this
  | recv hi hn ih => cases hl; have := ih rfl; exact this

/-- A handle is returned by a call that interns a value. -/
theorem ptr_returned (ok : T.Ok) {s : State T.cfg} (h : NewTables.Reach s) {t : T.Ty} {p : Ptr} {e : Entry (Table (T.V t)) Ret}
    (he : e ∈ s.log t) (hr : e.res = some (.ptr p)) : ∃ v, Returned (T.lay t) (s.log t) v p := by
  obtain ⟨newer, older, hl⟩ := List.append_of_mem he
  obtain ⟨o, ho, hc⟩ := h.ops t e he
  obtain ⟨code, n, res⟩ := e
  simp only at hr hc
  subst hr hc
  have := ok.eq t
  have := ok.hash t
  obtain ⟨m0, hrep, _⟩ := h.now t
  obtain ⟨_, _, _, _, _, ef⟩ := replay_entry hrep (h.ops t) ho hl
  cases o with
  | intern q v al => exact ⟨v, q, al, n, ho, he⟩
  | query q =>
    cases ef with
    | same hk => exact (hk _ rfl).elim
    | added e _ _ => cases e
  | len =>
    cases ef with
    | same hk => exact (hk _ rfl).elim
    | added e _ _ => cases e

theorem content_tab {s : State T.cfg} {t : T.Ty} {pos : Nat} {c : Lock (Table (T.V t))} (h : IsTab (cfg := T.cfg) s.vecs t pos c) :
    content s t = c.val := by
  unfold content
  rw [table_iff.mpr h]

theorem content_none {s : State T.cfg} {t : T.Ty} (h : ∀ pos c, ¬ IsTab (cfg := T.cfg) s.vecs t pos c) : content s t = [] := by
  unfold content
  cases ht : table s t with
  | none => rfl
  | some x => exact absurd (table_iff.mp ht) (h x.1 x.2)

theorem content_congr {s s' : State T.cfg} {t : T.Ty}
    (h : ∀ pos c, IsTab (cfg := T.cfg) s'.vecs t pos c ↔ IsTab (cfg := T.cfg) s.vecs t pos c) : content s' t = content s t := by
  cases ht : table s t with
  | none =>
    have hn : ∀ pos c, ¬ IsTab (cfg := T.cfg) s.vecs t pos c := fun pos c hc => by rw [table_iff.mpr hc] at ht; cases ht
    rw [content_none hn, content_none fun pos c hc => hn pos c ((h pos c).mp hc)]
  | some x =>
    have hc : IsTab (cfg := T.cfg) s.vecs t x.1 x.2 := table_iff.mp ht
    rw [content_tab hc, content_tab ((h _ _).mpr hc)]

/-- The content of a table changes only in steps of closures of the type. -/
theorem content_step {s s' : State T.cfg} {a : Act T.cfg} (h : TypeArena.Reach s) (hs : TypeArena.step s a = .ok s') {t : T.Ty}
    (hne : content s' t ≠ content s t) : ∃ u pos, events s a = [⟨u, .data (cfg := T.cfg) t pos⟩] := by
  rcases step_vecs h hs with e | ⟨u, t', v, c, hv, e, _, hd⟩ | ⟨u, t', p, c, c', hc, e, he⟩
  · exact absurd (content_congr fun pos c => by rw [e]) hne
  · exfalso
    apply hne
    by_cases ht : t = t'
    · subst ht
      by_cases hex : ∃ p d, IsTab (cfg := T.cfg) s.vecs t p d
      · obtain ⟨p, d, hpd⟩ := hex
        rw [content_tab hpd, content_tab (by rw [e]; exact (isTab_push_same hv).mpr (.inl hpd))]
      · have hn : ∀ p d, ¬ IsTab (cfg := T.cfg) s.vecs t p d := fun p d hpd => hex ⟨p, d, hpd⟩
        rw [content_none hn, content_tab (by rw [e]; exact (isTab_push_same hv).mpr (.inr ⟨hn, rfl, rfl⟩)), hd]
    · exact content_congr fun pos c => by rw [e]; exact isTab_push_other ht hv
  · by_cases ht : t = t'
    · subst ht
      refine ⟨u, p, ?_⟩
      rcases he with he | he
      · rw [content_tab hc, content_tab (by rw [e]; exact (isTab_set_same hc).mpr ⟨rfl, rfl⟩)] at hne
        exact absurd he hne
      · exact he
    · exact absurd (content_congr fun pos c => by rw [e]; exact isTab_set_other ht hc) hne

theorem object_since {c c1 : Instant T.cfg} {l : List (Instant T.cfg)} (hm : c1 ∈ c :: l)
    (h : TypeArena.Instants (NewTables.Allowed (T := T)) (c :: l)) {t : T.Ty} {p : Ptr}
    (hw : ∀ k, WritesObject (c :: l) k t p → k < c1.tr.length) : object c1.s t p = object c.s t p := by
  generalize hl : c :: l = L at h
  induction h generalizing c l with
  | init =>
    cases hl
    rcases List.mem_singleton.mp hm with rfl
    rfl
  | @act c0 l0 s' a hi ha hs ih =>
    cases hl
    rcases List.mem_cons.mp hm with rfl | hm
    · rfl
    · rw [ih hm (fun k hk => hw k (.inr hk)) rfl]
      by_cases hne : object s' t p = object c0.s t p
      · exact hne.symm
      · exfalso
        obtain ⟨u, pos, he⟩ := content_step (t := t) (instants_run hi).reach hs fun e => hne (by unfold object; rw [e])
        obtain ⟨_, ⟨m, h2⟩, _⟩ := older hm hi
        have hlt := hw c0.tr.length (.inl ⟨Nat.le_refl _, ⟨u, pos, by simp only [he]; exact get_last _ _⟩, hne⟩)
        rw [h2, List.length_append] at hlt
        omega
  | use hi hh ih =>
    cases hl
    rcases List.mem_cons.mp hm with rfl | hm
    · rfl
    · have := ih hm (fun k hk => hw k (.inr hk)) rfl
      exact this
  | send hi hh ih =>
    cases hl
    rcases List.mem_cons.mp hm with rfl | hm
    · rfl
    · have := ih hm (fun k hk => hw k (.inr hk)) rfl
      exact this
  | recv hi hh ih =>
    cases hl
    rcases List.mem_cons.mp hm with rfl | hm
    · rfl
    · have := ih hm (fun k hk => hw k (.inr hk)) rfl
      exact this

theorem object_event {c : Instant T.cfg} {l : List (Instant T.cfg)} (h : TypeArena.Instants (NewTables.Allowed (T := T)) (c :: l))
    {t : T.Ty} {p : Ptr} {k : Nat} (hw : WritesObject (c :: l) k t p) :
    ∃ v pos, c.tr[k]? = some ⟨v, .data (cfg := T.cfg) t pos⟩ := by
  generalize hl : c :: l = L at h
  induction h generalizing c l with
  | init => cases hl; exact hw.elim
  | act hi ha hs ih =>
    cases hl
    rcases hw with ⟨_, he, _⟩ | hw
    · exact he
    · obtain ⟨v, pos, he⟩ := ih hw rfl
      exact ⟨v, pos, get_append he⟩
  | use hi hh ih =>
    cases hl
    rcases hw with ⟨_, he, _⟩ | hw
    · exact he
    · obtain ⟨v, pos, he⟩ := ih hw rfl
      exact ⟨v, pos, get_append he⟩
  | send hi hh ih =>
    cases hl
    rcases hw with ⟨_, he, _⟩ | hw
    · exact he
    · obtain ⟨v, pos, he⟩ := ih hw rfl
      exact ⟨v, pos, get_append he⟩
  | recv hi hh ih =>
    cases hl
    rcases hw with ⟨_, he, _⟩ | hw
    · exact he
    · obtain ⟨v, pos, he⟩ := ih hw rfl
      exact ⟨v, pos, get_append he⟩

/-- The value behind a handle is not written after a call has returned it. -/
theorem writes_before (ok : T.Ok) {c : Instant T.cfg} {l : List (Instant T.cfg)}
    (h : TypeArena.Instants (NewTables.Allowed (T := T)) (c :: l)) {t : T.Ty} {p : Ptr} {i k : Nat} {u : Tid}
    (hi : c.tr[i]? = some ⟨u, .done (cfg := T.cfg) t (.ptr p)⟩) (hw : WritesObject (c :: l) k t p) : k < i := by
  have tail : ∀ {c0 : Instant T.cfg} {l0 : List (Instant T.cfg)} {m : List (Ev T.cfg)},
      TypeArena.Instants (NewTables.Allowed (T := T)) (c0 :: l0) → WritesObject (c0 :: l0) k t p →
      (∀ {i : Nat} {u : Tid}, c0.tr[i]? = some ⟨u, .done (cfg := T.cfg) t (.ptr p)⟩ → k < i) → ∀ {i : Nat} {u : Tid},
      (c0.tr ++ m)[i]? = some ⟨u, .done (cfg := T.cfg) t (.ptr p)⟩ → k < i := by
    intro c0 l0 m hin hw ih i u hi
    by_cases hlt : i < c0.tr.length
    · rw [List.getElem?_append_left hlt] at hi; exact ih hi
    · obtain ⟨_, _, hk⟩ := object_event hin hw
      exact Nat.lt_of_lt_of_le (get_lt hk) (Nat.le_of_not_lt hlt)
  generalize hl : c :: l = L at h
  induction h generalizing c l i u with
  | init => cases hl; exact hw.elim
  | @act c0 l0 s' a hin ha hs ih =>
    cases hl
    rcases hw with ⟨h1, h2, h3⟩ | hw
    · exfalso
      obtain ⟨v, pos, he⟩ := content_step (t := t) (instants_run hin).reach hs fun e => h3 (by unfold object; rw [e])
      simp only [he] at hi
      rcases get_snoc hi with hi | ⟨_, e⟩
      · obtain ⟨e, he, hr⟩ := (instants_run hin).ordered.log hi
        have hre := instants_reach hin
        obtain ⟨x, hx⟩ := ptr_returned ok hre he hr
        exact h3 (C51_never_changes ok hre (.step .refl ha hs) t hx).2
      · cases e
    · exact tail hin hw (fun hi => ih hi hw rfl) hi
  | use hin hh ih =>
    cases hl
    rcases hw with ⟨h1, h2, h3⟩ | hw
    · exact absurd rfl h3
    · exact tail hin hw (fun hi => ih hi hw rfl) hi
  | send hin hh ih =>
    cases hl
    rcases hw with ⟨h1, h2, h3⟩ | hw
    · exact absurd rfl h3
    · exact tail hin hw (fun hi => ih hi hw rfl) hi
  | recv hin hh ih =>
    cases hl
    rcases hw with ⟨h1, h2, h3⟩ | hw
    · exact absurd rfl h3
    · exact tail hin hw (fun hi => ih hi hw rfl) hi

/-- **C68, handles**: a thread that has a handle, from a call of its own or from another thread, reads through it the value that was
interned, whatever the memory model allows the read to return. -/
theorem C68_handles (ok : T.Ok) {c : Instant T.cfg} {l : List (Instant T.cfg)} (h : Instants (NewTables.Allowed (T := T)) (c :: l))
    {u : Tid} {t : T.Ty} {p : Ptr} (hh : Has (cfg := T.cfg) c.tr u t (.ptr p)) {x : Option (T.V t)}
    (hx : SeesObject (c :: l) c.tr ⟨u, .use (cfg := T.cfg) t (.ptr p)⟩ t p x) :
    ∃ v y, Returned (T.lay t) (c.s.log t) v p ∧ x = some y ∧ (y == v) = true := by
  have h' := C68_only_interleavings h
  have R := (instants_run h').use hh
  obtain ⟨i, v, hi, hb, hd⟩ := C68_results R (get_last _ _)
  have hi' : c.tr[i]? = some ⟨v, .done (cfg := T.cfg) t (.ptr p)⟩ := by
    rcases get_snoc hi with hi | ⟨_, e⟩
    · exact hi
    · cases e
  obtain ⟨c1, hc1, rfl, hc⟩ := hx
  have hs := object_since hc1 h' fun k hw => hc k hw (by
    obtain ⟨w, pos, hk⟩ := object_event h' hw
    exact hd k w pos (get_append hk) (writes_before ok h' hi' hw))
  obtain ⟨e, he, hr⟩ := (instants_run h').ordered.log hi'
  have hre := instants_reach h'
  obtain ⟨x, hx⟩ := ptr_returned ok hre he hr
  obtain ⟨_, ⟨y, hy, hxy⟩, _⟩ := C51_pointer_eq_iff_value_eq ok hre t hx hx
  exact ⟨x, y, hx, by rw [hs]; exact hy, hxy⟩

/-! ### Concrete executions -/
open Closures.Demo (types Val)
open Closures.Demo.N (Cmd)

/-- All instants of an execution, latest first. -/
def execInst : List (Instant types.cfg) → List Cmd → List (Instant types.cfg)
  | c :: l, a :: as => match TypeArena.step c.s a.act with
    | .ok s' => execInst (⟨s', c.tr ++ events c.s a.act⟩ :: c :: l) as
    | _ => c :: l
  | l, _ => l

theorem execInst_ok {l : List (Instant types.cfg)} {as : List Cmd} (h : TypeArena.Instants (NewTables.Allowed (T := types)) l) :
    TypeArena.Instants (NewTables.Allowed (T := types)) (execInst l as) := by
  induction as generalizing l with
  | nil => cases l <;> exact h
  | cons a as ih =>
    cases l with
    | nil => exact h
    | cons c l =>
      simp only [execInst]
      split
      · rename_i s' hs
        exact ih (h.act a.ok hs)
      · exact h

def demoInst (l : List Cmd) : List (Instant types.cfg) := execInst [⟨TypeArena.init types.cfg, []⟩] l

theorem demoInst_ok (l : List Cmd) : TypeArena.Instants (NewTables.Allowed (T := types)) (demoInst l) := execInst_ok .init

/-- Thread 0 interns `⟨5, 1⟩` of type `true`; thread 1 exists. -/
def one : List Cmd :=
  [.spawn, .spawn, .new 0 true ⟨5, 1⟩, .run 0 0, .run 0 0, .run 0 1, .run 0 0, .run 0 0, .run 0 0, .run 0 0, .run 0 0]

theorem hb_last {tr : List (Ev cfg)} {i j : Nat} (h : HB tr i j) : ∃ (n : Nat) (a b : Ev cfg), n < j ∧ tr[n]? = some a ∧ tr[j]? = some b ∧
    (a.tid = b.tid ∨ (∃ t p, b.what = .acq t p) ∨ (∃ i n, b.what = .load i n) ∨ ∃ m t r, b.what = .recv m t r) := by
  induction h with
  | po h1 h2 h3 h4 => exact ⟨_, _, _, h1, h2, h3, .inl h4⟩
  | sync h1 h2 h3 => exact ⟨_, _, _, h1, h2, h3, .inr (.inl ⟨_, _, rfl⟩)⟩
  | pub h1 h2 h3 => exact ⟨_, _, _, h1, h2, h3, .inr (.inr (.inl ⟨_, _, rfl⟩))⟩
  | msg h1 h2 h3 => exact ⟨_, _, _, h1, h2, h3, .inr (.inr (.inr ⟨_, _, _, rfl⟩))⟩
  | trans _ _ _ ih => exact ih

/-- The events of `one`: search, push, search again, lock, look up, box, insert, unlock, return. -/
example : (demoInst one).head?.map (·.tr) = some
    [⟨0, .load (types.cfg.shard true) 0⟩, ⟨0, .push (types.cfg.shard true) 0⟩, ⟨0, .load (types.cfg.shard true) 1⟩,
      ⟨0, .look (types.cfg.shard true) 0⟩, ⟨0, .acq true 0⟩, ⟨0, .data true 0⟩, ⟨0, .data true 0⟩, ⟨0, .data true 0⟩,
      ⟨0, .rel true 0⟩, ⟨0, .done true (Ret.ptr ⟨1000, 0⟩)⟩] := rfl

/-- Synchronisation matters: after `one`, if thread 1 could look at the vector without reading its length it might find the element not
initialised, if it could look into the set without taking the mutex it might find it empty, and if it could use the pointer without
having got the handle it might find the memory not initialised. -/
theorem stale_possible : ∃ (c : Instant types.cfg) (l : List (Instant types.cfg)),
    Instants (NewTables.Allowed (T := types)) (c :: l) ∧ cellTy c.s (types.cfg.shard true) 0 = some true ∧
    SeesTy (c :: l) c.tr ⟨1, .look (types.cfg.shard true) 0⟩ (types.cfg.shard true) 0 none ∧
    valAt c.s true 0 = some [(⟨1000, 0⟩, (⟨5, 1⟩ : Val))] ∧ SeesVal (c :: l) c.tr ⟨1, .data true 0⟩ true 0 (some []) ∧
    object c.s true ⟨1000, 0⟩ = some (⟨5, 1⟩ : Val) ∧
    SeesObject (c :: l) c.tr ⟨1, .use (cfg := types.cfg) true (Ret.ptr ⟨1000, 0⟩)⟩ true ⟨1000, 0⟩ none := by
  have h1 := demoInst_ok one
  obtain ⟨c, l, hl, htr, hty, hval, hob⟩ : ∃ c l, demoInst one = c :: l ∧ (∀ e ∈ c.tr, e.tid = 0) ∧
      cellTy c.s (types.cfg.shard true) 0 = some true ∧ valAt c.s true 0 = some [(⟨1000, 0⟩, (⟨5, 1⟩ : Val))] ∧
      object c.s true ⟨1000, 0⟩ = some (⟨5, 1⟩ : Val) := ⟨_, _, rfl, by decide, rfl, rfl, rfl⟩
  obtain ⟨c0, hm0, hty0, hob0⟩ : ∃ c0 ∈ demoInst one, cellTy c0.s (types.cfg.shard true) 0 = none ∧
      object c0.s true ⟨1000, 0⟩ = none := ⟨_, List.mem_of_getElem? (i := 11) rfl, rfl, rfl⟩
  obtain ⟨c1, hm1, hval1⟩ : ∃ c1 ∈ demoInst one, valAt c1.s true 0 = some [] := ⟨_, List.mem_of_getElem? (i := 5) rfl, rfl⟩
  rw [hl] at h1 hm0 hm1
  have no : ∀ (w : What types.cfg) (i : Nat), (∀ t p, w ≠ .acq t p) → (∀ i n, w ≠ .load i n) → (∀ m t r, w ≠ .recv m t r) →
      ¬ HB (c.tr ++ [⟨1, w⟩]) i c.tr.length := by
    intro w i hw1 hw2 hw3 hb
    obtain ⟨n, a, b, e1, e2, e3, e4⟩ := hb_last hb
    rw [get_last] at e3; cases e3
    rw [List.getElem?_append_left e1] at e2
    rcases e4 with e4 | ⟨_, _, e4⟩ | ⟨_, _, e4⟩ | ⟨_, _, _, e4⟩
    · rw [htr a (List.mem_of_getElem? e2)] at e4; cases e4
    · exact hw1 _ _ e4
    · exact hw2 _ _ e4
    · exact hw3 _ _ _ e4
  refine ⟨c, l, C68_all_interleavings h1, hty, ⟨c0, hm0, hty0, fun k u _ hb => absurd hb (no _ k ?_ ?_ ?_)⟩, hval,
    ⟨c1, hm1, hval1, fun k _ hb => absurd hb (no _ k ?_ ?_ ?_)⟩, hob, ⟨c0, hm0, hob0, fun k _ hb => absurd hb (no _ k ?_ ?_ ?_)⟩⟩ <;>
  (intros; intro h; cases h)

/-- With the handle, received from thread 0, thread 1 reads what was interned. -/
example : ∃ (c : Instant types.cfg) (l : List (Instant types.cfg)), Instants (NewTables.Allowed (T := types)) (c :: l) ∧
    Has (cfg := types.cfg) c.tr 1 true (Ret.ptr ⟨1000, 0⟩) ∧
    ∀ x, SeesObject (c :: l) c.tr ⟨1, .use (cfg := types.cfg) true (Ret.ptr ⟨1000, 0⟩)⟩ true ⟨1000, 0⟩ x →
      ∃ y : Val, x = some y ∧ (y == ⟨5, 1⟩) = true := by
  have h1 := demoInst_ok one
  obtain ⟨c, l, hl, hd, hlog⟩ : ∃ c l, demoInst one = c :: l ∧ c.tr[9]? = some ⟨0, .done (cfg := types.cfg) true (Ret.ptr ⟨1000, 0⟩)⟩ ∧
      Returned (types.lay true) (c.s.log true) (⟨5, 1⟩ : Val) ⟨1000, 0⟩ :=
    ⟨_, _, rfl, rfl, ⟨_, _, _, Closures.Demo.new_ok _, List.mem_of_getElem? (i := 0) rfl⟩⟩
  rw [hl] at h1
  have h2 := ((C68_all_interleavings h1).send (u := 0) ⟨9, .inl hd⟩).recv (u := 1) (get_last _ _)
  have h3 : Has (cfg := types.cfg) (c.tr ++ [⟨0, .send true (Ret.ptr ⟨1000, 0⟩)⟩] ++ [⟨1, .recv c.tr.length true (Ret.ptr ⟨1000, 0⟩)⟩])
      1 true (Ret.ptr ⟨1000, 0⟩) := ⟨_, .inr ⟨_, get_last _ _⟩⟩
  refine ⟨_, _, h2, h3, fun x hx => ?_⟩
  obtain ⟨v, y, hv, rfl, hy⟩ := C68_handles Closures.Demo.types_ok h2 h3 hx
  refine ⟨y, rfl, ?_⟩
  have := (C51_pointer_eq_iff_value_eq Closures.Demo.types_ok (instants_reach h1) true hv hlog).1.mp rfl
  have inst := Closures.Demo.types_ok.eq true
  exact inst.trans hy this

/-- Two threads race for the first table of a type, both push; the accesses of both to the set that is used are ordered, and so are
the push of that table by thread 1 and the lookups of thread 0 in the vector. -/
example : ∃ (s : State types.cfg) (tr : List (Ev types.cfg)), Run s tr ∧
    ∃ i j k m n : Nat, tr[i]? = some ⟨1, .push (types.cfg.shard true) 0⟩ ∧ tr[j]? = some ⟨0, .push (types.cfg.shard true) 1⟩ ∧
      tr[k]? = some ⟨0, .look (types.cfg.shard true) 0⟩ ∧ tr[m]? = some ⟨0, .data true 0⟩ ∧ tr[n]? = some ⟨1, .data true 0⟩ ∧
      HB tr i k ∧ HB tr m n := by
  have h1 := demoInst_ok Closures.Demo.N.script
  obtain ⟨c, l, hl, hi, hj, hk, hm, hn⟩ : ∃ c l, demoInst Closures.Demo.N.script = c :: l ∧
      c.tr[2]? = some ⟨1, .push (types.cfg.shard true) 0⟩ ∧ c.tr[3]? = some ⟨0, .push (types.cfg.shard true) 1⟩ ∧
      c.tr[7]? = some ⟨0, .look (types.cfg.shard true) 0⟩ ∧ c.tr[10]? = some ⟨0, .data true 0⟩ ∧
      c.tr[16]? = some ⟨1, .data true 0⟩ := ⟨_, _, rfl, rfl, rfl, rfl, rfl, rfl⟩
  rw [hl] at h1
  have R := instants_run h1
  refine ⟨c.s, c.tr, R, 2, 3, 7, 10, 16, hi, hj, hk, hm, hn, ?_, ?_⟩
  · rcases C68_no_races R hi hk (by decide) (.push ⟨rfl, rfl⟩) with h | h
    · exact h
    · exact absurd h.lt (by decide)
  · rcases C68_no_races R hm hn (by decide) .set with h | h
    · exact h
    · exact absurd h.lt (by decide)

end
end Weak
end TypeArena
