import Verif.Arc.Race4
import Verif.Arc.Demo
/-!
C17: every access to an object happens before its deallocation, whatever the interleaving, with the orderings of the
source. Vocabulary (events, `HB`, `Traced`, `Orders.code`) in `Verif/Arc/Trace.lean`.
-/
namespace Arc
variable {V : Type} [BEq V] [Hashable V] {cfg : Cfg V} {s s' : State V} {obj : Addr → Nat}
  {own : List (Nat × Addr)} {tr : List Ev}

/-- C17: in every execution, every access to an object (its creation, any read of its value by the library or by client
code through any handle, any update of its counter), on any thread, happens before the deallocation of the object. -/
theorem C17_access_before_free [LawfulHashable V] [EquivBEq V] (hv : cfg.Valid)
    (h : Traced cfg Orders.code s obj own tr) {i j : Nat} {a : Ev} {t : Tid} {o : Nat} (hi : tr[i]? = some a)
    (ha : a.what.touch = some o) (hj : tr[j]? = some ⟨t, .free o⟩) : HB tr i j :=
  (traced_J ⟨rfl, rfl⟩ hv h).fin i j t a o hj hi ha

/-- The creation of an object happens before every other access to it, and there is only one. -/
theorem C17_init_before_access [LawfulHashable V] [EquivBEq V] (hv : cfg.Valid)
    (h : Traced cfg Orders.code s obj own tr) {i : Nat} {a : Ev} {o : Nat} (hi : tr[i]? = some a)
    (ha : a.what.touch = some o ∨ a.what = .free o) :
    ∃ m u, tr[m]? = some ⟨u, .make o⟩ ∧ (m = i ∨ HB tr m i) ∧ ∀ (n : Nat) w, tr[n]? = some ⟨w, .make o⟩ → n = m := by
  have j := traced_J ⟨rfl, rfl⟩ hv h
  obtain ⟨⟨u, h1⟩, h2⟩ := j.born i a o hi ha
  exact ⟨o, u, h1, h2, fun n w hn => j.mks n w o hn⟩

/-- An object is deallocated at most once. -/
theorem C17_freed_once [LawfulHashable V] [EquivBEq V] (hv : cfg.Valid)
    (h : Traced cfg Orders.code s obj own tr) {i j : Nat} {t u : Tid} {o : Nat} (hi : tr[i]? = some ⟨t, .free o⟩)
    (hj : tr[j]? = some ⟨u, .free o⟩) : i = j :=
  (traced_J ⟨rfl, rfl⟩ hv h).once i j t u o hi hj

/-- Plain (non-atomic) memory accesses that must not be concurrent: an object's creation or destruction with any access
to the object, and two accesses to the hash table of a shard one of which may write. -/
def Conflict : What → What → Prop
  | .make o, b => b.touch = some o ∨ b = .free o
  | .free o, b => b.touch = some o ∨ b = .free o
  | .look o, b => b = .make o ∨ b = .free o
  | .rmw o _, b => b = .make o ∨ b = .free o
  | .table i, b => b = .table i ∨ b = .size i
  | .size i, b => b = .table i
  | _, _ => False

/-- No execution has a data race on an object or on the hash table: of two conflicting accesses, one happens before the
other. -/
theorem C17_no_race_of [LawfulHashable V] [EquivBEq V] {od : Orders}
    (hod : od.drop.acquires = true ∧ od.drop.releases = true) (hv : cfg.Valid)
    (h : Traced cfg od s obj own tr) {i j : Nat} {a b : Ev} (hne : i ≠ j) (hi : tr[i]? = some a) (hj : tr[j]? = some b)
    (hc : Conflict a.what b.what) : HB tr i j ∨ HB tr j i := by
  have J := traced_J hod hv h
  obtain ⟨t, wa⟩ := a
  obtain ⟨u, wb⟩ := b
  have make : ∀ {i j : Nat} {t : Tid} {b : Ev} {o}, i ≠ j → tr[i]? = some ⟨t, .make o⟩ → tr[j]? = some b →
      (b.what.touch = some o ∨ b.what = .free o) → HB tr i j := by
    intro i j t b o hne hi hj hb
    cases J.mks i t o hi
    exact ((J.born j b _ hj hb).2).resolve_left hne
  have free : ∀ {i j : Nat} {t : Tid} {b : Ev} {o}, i ≠ j → tr[i]? = some ⟨t, .free o⟩ → tr[j]? = some b →
      (b.what.touch = some o ∨ b.what = .free o) → HB tr j i := by
    intro i j t b o hne hi hj hb
    rcases hb with hb | hb
    · exact J.fin j i t b o hi hj hb
    · obtain ⟨u, wb⟩ := b
      cases hb
      exact absurd (J.once i j t u o hi hj) hne
  have table : ∀ (w w' : What) L, tr[i]? = some ⟨t, w⟩ → tr[j]? = some ⟨u, w'⟩ →
      (w = .table L ∧ (w' = .table L ∨ w' = .size L) ∨ w = .size L ∧ w' = .table L) → HB tr i j ∨ HB tr j i := by
    intro w w' L h1 h2 h3
    rcases Nat.lt_or_gt_of_ne hne with hlt | hlt
    · exact .inl (J.tabs i j _ _ L hlt h1 h2 h3)
    · refine .inr (J.tabs j i _ _ L hlt h2 h1 ?_)
      rcases h3 with ⟨h3, h4 | h4⟩ | ⟨h3, h4⟩
      · exact .inl ⟨h4, .inl h3⟩
      · exact .inr ⟨h4, h3⟩
      · exact .inl ⟨h4, .inr h3⟩
  cases wa with
  | make o => exact .inl (make hne hi hj hc)
  | free o => exact .inr (free hne hi hj hc)
  | look o =>
    rcases hc with hc | hc <;> cases hc
    · exact .inr (make (Ne.symm hne) hj hi (.inl rfl))
    · exact .inl (free (Ne.symm hne) hj hi (.inl rfl))
  | rmw o ord =>
    rcases hc with hc | hc <;> cases hc
    · exact .inr (make (Ne.symm hne) hj hi (.inl rfl))
    · exact .inl (free (Ne.symm hne) hj hi (.inl rfl))
  | table L => exact table _ _ L hi hj (.inl ⟨rfl, hc⟩)
  | size L => exact table _ _ L hi hj (.inr ⟨rfl, hc⟩)
  | _ => exact absurd hc (by simp [Conflict])

/-- The same for the orderings in the source. -/
theorem C17_no_race [LawfulHashable V] [EquivBEq V] (hv : cfg.Valid)
    (h : Traced cfg Orders.code s obj own tr) {i j : Nat} {a b : Ev} (hne : i ≠ j) (hi : tr[i]? = some a) (hj : tr[j]? = some b)
    (hc : Conflict a.what b.what) : HB tr i j ∨ HB tr j i := C17_no_race_of ⟨rfl, rfl⟩ hv h hne hi hj hc

/-! ### The traces record what happens -/

omit [BEq V] [Hashable V] in
theorem deref_free (hp : List (Addr × Cell V)) (a b : Addr) :
    deref { s with heap := Arc.free hp a } b = if b = a then none else (get hp b).map (·.data) := by
  simp only [deref, get_free]; split <;> rfl

/-- Whenever a step makes a box disappear, the trace of the step has the deallocation of the object in that box. -/
theorem C17_free_traced [LawfulHashable V] [EquivBEq V] {od : Orders} {act : Act V} {ch : Choice} {n : Nat} (hsane : act.Sane)
    (h : step cfg s act = .ok s') {b : Addr} {v : V} (hb : deref s b = some v) (hb' : deref s' b = none) :
    ∃ t, (⟨t, .free (obj b)⟩ : Ev) ∈ events cfg od s obj ch n act := by
  have same : ∀ s'' : State V, (∀ c, deref s'' c = deref s c) → deref s'' b = none → False := by
    intro s'' h1 h2; rw [h1, hb] at h2; cases h2
  have setc : ∀ (c : Addr) (k : Nat), (get (setCount s.heap c k) b).map (·.data) = none → False := by
    intro c k h2; rw [get_data_setCount] at h2; simp only [deref] at hb; rw [hb] at h2; cases h2
  cases step_R h with
  | run t a th s' ht hr =>
    refine ⟨t, ?_⟩
    simp only [events, ht]
    cases hr with
    | unbox c d x hpc hx =>
      simp only [runEvents, hpc]
      by_cases hd : b = d
      · subst hd; exact List.mem_singleton.mpr rfl
      · exfalso
        simp only [deref, State.setThread, get_free, if_neg hd] at hb' hb
        rw [hb] at hb'; cases hb'
    | free d x hpc hx =>
      simp only [runEvents, hpc]
      by_cases hd : b = d
      · subst hd; exact List.mem_append_right _ (List.mem_singleton.mpr rfl)
      · exfalso
        simp only [deref, State.setThread, get_free, if_neg hd] at hb' hb
        rw [hb] at hb'; cases hb'
    | alloc c hpc h0 hk =>
      exfalso
      simp only [deref, State.setThread, get] at hb' hb
      by_cases hd : a = b
      · rw [if_pos hd] at hb'; cases hb'
      · rw [if_neg hd, hb] at hb'; cases hb'
    | hit => exact (setc _ _ hb').elim
    | dying => exact (setc _ _ hb').elim
    | undo => exact (setc _ _ hb').elim
    | sub => exact (setc _ _ hb').elim
    | subLast => exact (setc _ _ hb').elim
    | _ => exact (same _ (fun _ => rfl) hb').elim
  | clone t path th q x ht hid hp hx => exact (setc _ _ hb').elim
  | panicInsert => exact absurd hsane (by simp [Act.Sane])
  | _ => exact (same _ (fun _ => rfl) hb').elim

/-- Two live boxes are different objects, each created and not destroyed according to the trace. -/
theorem C17_live_traced [LawfulHashable V] [EquivBEq V] (hv : cfg.Valid)
    (h : Traced cfg Orders.code s obj own tr) {b : Addr} {v : V} (hb : deref s b = some v) :
    (∃ (m : Nat) (u : Tid), tr[m]? = some ⟨u, .make (obj b)⟩) ∧ (∀ (j : Nat) t, tr[j]? ≠ some ⟨t, .free (obj b)⟩) ∧
    ∀ c w, deref s c = some w → obj b = obj c → b = c := by
  have j := traced_J (od := Orders.code) ⟨rfl, rfl⟩ hv h
  obtain ⟨u, h1⟩ := j.alive b v hb
  exact ⟨⟨_, u, h1⟩, fun k t hk => j.dead k t _ b v hk hb rfl, fun c w hc e => j.inj b c v w hb hc e⟩

/-! ### Concrete executions -/

/-- Executable sufficient condition for `Choice.Ok`. -/
def okChoice (cfg : Cfg V) (s : State V) (own : List (Nat × Addr)) (ch : Choice) : Act V → Bool
  | .new _ v _ => own.isPerm (ch.hs ++ ch.rest) && ch.hs.map (·.2) == cfg.kids v
  | .clone _ path | .read _ path => match path with
    | [] => false
    | p :: _ => own.elem (ch.h, p) && ch.before.all (· == p)
  | .drop _ p => own.elem (ch.h, p)
  | .run t _ => match s.threads[t]? with
    | some th => ch.before.all (fun x => (th.roots cfg).elem x) &&
        ch.under.all (fun x => (th.roots cfg).elem x || s.table.elem x &&
          match deref s x with
          | some v => th.pc.shard cfg s == some (cfg.shardOf v)
          | none => false)
    | none => true
  | .panic _ => false
  | _ => true

omit [BEq V] in
theorem okChoice_ok {ch : Choice} {a : Act V} (h : okChoice cfg s own ch a = true) : ch.Ok cfg s own a := by
  cases a with
  | new t v d =>
    simp only [okChoice, Bool.and_eq_true, beq_iff_eq] at h
    exact ⟨List.isPerm_iff.mp h.1, h.2⟩
  | clone t path =>
    cases path with
    | nil => cases h
    | cons p path =>
      simp only [okChoice, Bool.and_eq_true, List.elem_eq_mem, decide_eq_true_eq, List.all_eq_true, beq_iff_eq] at h
      exact ⟨h.1, fun x hx => by rw [h.2 x hx]; exact .refl _⟩
  | read t path =>
    cases path with
    | nil => cases h
    | cons p path =>
      simp only [okChoice, Bool.and_eq_true, List.elem_eq_mem, decide_eq_true_eq, List.all_eq_true, beq_iff_eq] at h
      exact ⟨h.1, fun x hx => by rw [h.2 x hx]; exact .refl _⟩
  | drop t p =>
    simp only [okChoice, List.elem_eq_mem, decide_eq_true_eq] at h
    exact h
  | run t a =>
    intro th ht
    simp only [okChoice, ht, Bool.and_eq_true, List.elem_eq_mem, decide_eq_true_eq, List.all_eq_true, Bool.or_eq_true] at h
    refine ⟨fun x hx => ⟨x, h.1 x hx, .refl _⟩, fun x hx => ⟨x, .refl _, ?_⟩⟩
    rcases h.2 x hx with h | ⟨h1, h2⟩
    · exact .inl h
    · refine .inr ⟨h1, ?_⟩
      cases hd : deref s x with
      | none => rw [hd] at h2; cases h2
      | some v => rw [hd] at h2; exact ⟨v, rfl, by simpa using h2⟩
  | panic t => cases h
  | _ => exact trivial

/-- Run actions with choices, keeping the trace. -/
def trace (cfg : Cfg V) (od : Orders) : List (Act V × Choice) → State V → (Addr → Nat) → List (Nat × Addr) → List Ev →
    Option (State V × (Addr → Nat) × List (Nat × Addr) × List Ev)
  | [], s, obj, own, tr => some (s, obj, own, tr)
  | (a, ch) :: as, s, obj, own, tr => match step cfg s a with
    | .ok s' => if a.sane && decide ((allHandles cfg s').length < cfg.W) && okChoice cfg s own ch a then
        trace cfg od as s' (newObj s obj tr.length a) (newOwn cfg s own ch tr.length a)
          (tr ++ events cfg od s obj ch tr.length a)
      else none
    | _ => none

theorem trace_traced {od : Orders} (as : List (Act V × Choice)) : ∀ {s obj own tr x},
    Traced cfg od s obj own tr → trace cfg od as s obj own tr = some x → Traced cfg od x.1 x.2.1 x.2.2.1 x.2.2.2 := by
  induction as with
  | nil => intro s obj own tr x h e; simp only [trace, Option.some.injEq] at e; exact e ▸ h
  | cons a as ih =>
    intro s obj own tr x h e
    obtain ⟨a, ch⟩ := a
    simp only [trace] at e
    cases hs : step cfg s a with
    | ok s1 =>
      simp only [hs] at e
      split at e
      · rename_i hc
        simp only [Bool.and_eq_true, decide_eq_true_eq] at hc
        refine ih (h.step ?_ hs (small_of_length hc.1.2) (okChoice_ok hc.2)) e
        cases a <;> simp_all [Act.Sane, Act.sane]
      · cases e
    | blocked => simp [hs] at e
    | ub => simp [hs] at e

abbrev go (t : Tid) (a : Addr := 0) : Act Val × Choice := (.run t a, {})

/-- Thread 0 interns a value and clones the handle (handle numbers are trace positions: 9 and 10). Thread 1 reads the
value through the clone and drops it. Thread 0 then drops the original, which frees the object. Between the two drops
thread 1 looks up an equal value. -/
def dropsTrace : List (Act Val × Choice) :=
  [(.spawn, {}), (.spawn, {}), (.new 0 ⟨5, 1, []⟩ false, {}), go 0, go 0 10, (.run 0 0, { before := [10] }), go 0, go 0, go 0,
   (.clone 0 [10], { h := 9 }), (.read 1 [10], { h := 10, before := [10] }), (.drop 1 10, { h := 10 }), go 1,
   (.drop 0 10, { h := 9 }), go 0, (.run 0 0, { before := [10], under := [10] }), (.run 0 0, { before := [10] })]

def drops (od : Orders) : List Ev :=
  match trace demoCfg od dropsTrace init (fun _ => 0) [] [] with
  | some x => x.2.2.2
  | none => []

def dropsFound (od : Orders) : Prop := ∃ s obj own, Traced demoCfg od s obj own (drops od)

theorem drops_traced {od : Orders} (h : (trace demoCfg od dropsTrace init (fun _ => 0) [] []).isSome = true) : dropsFound od := by
  obtain ⟨x, hx⟩ := Option.isSome_iff_exists.mp h
  have := trace_traced _ .init hx
  have e : drops od = x.2.2.2 := by simp only [drops, hx]
  exact ⟨x.1, x.2.1, x.2.2.1, e ▸ this⟩

/-- In this execution thread 1 reads object 3 (event 15) and thread 0 later frees it (event 27). -/
theorem drops_events (od : Order) (h : od ∈ [Order.relaxed, .acquire, .release, .seqCst]) :
    (drops { Orders.code with drop := od })[15]? = some ⟨1, .look 3⟩ ∧
    (drops { Orders.code with drop := od })[27]? = some ⟨0, .free 3⟩ := by
  revert od; decide

/-- The hypotheses of `C17_access_before_free` are met with the accessing and the freeing thread different. -/
theorem drops_found : dropsFound Orders.code := drops_traced (by decide)
example : HB (drops Orders.code) 15 27 := by
  obtain ⟨s, obj, own, h⟩ := drops_found
  have e := drops_events .seqCst (by decide)
  exact C17_access_before_free demoCfg_valid h e.1 rfl e.2
example : HB (drops Orders.code) 15 27 ∨ HB (drops Orders.code) 27 15 := by
  obtain ⟨s, obj, own, h⟩ := drops_found
  have e := drops_events .seqCst (by decide)
  exact C17_no_race demoCfg_valid h (by decide) e.1 e.2 (.inr rfl)

instance (a b : What) : Decidable (Sync a b) := by cases a <;> cases b <;> unfold Sync <;> infer_instance

/-- A set of positions that no edge leaves contains everything its elements happen before. -/
theorem hb_closed {tr : List Ev} (S : Nat → Bool)
    (h : ∀ i ∈ List.range tr.length, ∀ j ∈ List.range tr.length, i < j → S i = true → S j = false →
      ∀ a ∈ tr[i]?, ∀ b ∈ tr[j]?, ¬ (a.tid = b.tid ∨ Sync a.what b.what)) {i j : Nat} (hij : HB tr i j) :
    S i = true → S j = true := by
  induction hij with
  | @edge i j a b hlt ha hb hs =>
    intro hi
    cases hj : S j with
    | true => rfl
    | false =>
      exact absurd hs (h i (List.mem_range.mpr (tget_lt ha)) j (List.mem_range.mpr (tget_lt hb)) hlt hi hj a ha b hb)
  | trans _ _ h1 h2 => exact fun h => h2 (h1 h)

/-- The claim is about the orderings: exactly `AcqRel` and `SeqCst` are enough for the decrement of `drop`. If it did not both acquire and
release, there would be executions in which a read of an object does not happen before its deallocation. (The model leaves the fence of
arc.rs:314 out; with it, releasing would be enough.) -/
theorem C17_needs_release (od : Order) (h : od ≠ .acqRel ∧ od ≠ .seqCst) :
    ∃ s obj own tr, Traced demoCfg { Orders.code with drop := od } s obj own tr ∧
      ∃ (i j o : Nat), tr[i]? = some ⟨1, .look o⟩ ∧ tr[j]? = some ⟨0, .free o⟩ ∧ ¬ HB tr i j ∧ ¬ HB tr j i := by
  replace h : od ∈ [Order.relaxed, .acquire, .release] := by cases od <;> simp_all
  have e := drops_events od (by revert od; decide)
  have hf : dropsFound { Orders.code with drop := od } := by
    revert od; intro od h _
    refine drops_traced ?_
    revert od; decide
  obtain ⟨s, obj, own, hT⟩ := hf
  refine ⟨s, obj, own, _, hT, 15, 27, 3, e.1, e.2, fun hb => ?_, fun hb => absurd hb.lt (by decide)⟩
  have := hb_closed (fun i => decide (15 ≤ i ∧ i ≤ 18)) (by clear hT hb e; revert od; decide) hb (by decide)
  exact absurd this (by decide)

end Arc
