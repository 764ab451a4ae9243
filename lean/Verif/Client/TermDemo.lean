import Verif.Client.Term
import Verif.Client.Demo
/-! A checked execution of a program that builds terms, used to show that the hypotheses of the theorems of C93 are met. -/
namespace Client.Term
open Arc (Addr Node Tree nodeCfg)

variable {R : Type}

/-- A state of the process. -/
abbrev St : Type := Src.ArcHeld.State (Node Nat)

/-- One step, if no object gets too many handles. -/
def stepN (X : St) (a : Src.ArcHeld.Act (Node Nat)) : Option St :=
  match Src.ArcHeld.step nodeCfg X a with
  | .ok X' => if (Src.ArcNest.mentions nodeCfg X'.base).length < nodeCfg.W then some X' else none
  | _ => none

theorem stepN_ok {X X' : St} {a : Src.ArcHeld.Act (Node Nat)} (h : stepN X a = some X') :
    Src.ArcHeld.step nodeCfg X a = .ok X' ∧ Src.ArcNest.Few nodeCfg X'.base := by
  unfold stepN at h
  split at h
  · rename_i X1 hs
    split at h
    · rename_i hc
      cases h; exact ⟨hs, fun _ => Nat.lt_of_le_of_lt List.count_le_length hc⟩
    · cases h
  · cases h

/-- The result of a call: the newest event. -/
def retN (X : St) (t a : Nat) : Option (Addr × St) := match X.base.threads[t]? with
  | some [c] => match stepN X (.act (.run t a)) with
    | some X' => match X'.base.hist with
      | .ret j (some b) :: _ => if j = c.id ∧ X'.base.hist.length = X.base.hist.length + 1 ∧ empty X'.base.threads[t]? = true then some (b, X') else none
      | _ => none
    | none => none
  | _ => none

theorem retN_ok {X X' : St} {t a : Nat} {b : Addr} (h : retN X t a = some (b, X')) : (arc nodeCfg).Returns X t b X' := by
  unfold retN at h
  split at h
  · rename_i c ht
    split at h
    · rename_i X1 hs
      obtain ⟨h1, h2⟩ := stepN_ok hs
      split at h
      · rename_i j b' l hh
        split at h
        · rename_i hc
          cases h
          obtain ⟨rfl, hlen, he⟩ := hc
          obtain ⟨m, hm⟩ := arc_run_hist h1
          rw [hh] at hm hlen
          exact ⟨c, a, ht, h1, h2, empty_iff.mp he, hh.trans (suffix_one hm hlen)⟩
        · cases h
      · cases h
    · cases h
  · cases h

/-- What a thread does without a call. -/
def lookN (X : St) (th : Thread Nat R Addr) (qs : List (List Addr)) : Option (Thread Nat R Addr × List (List Addr)) :=
  match th.prog with
  | .eq i j k => match th.locals[i]?, th.locals[j]? with
    | some (some p), some (some q) => some ({ th with prog := k (Traits.eq p q) }, qs)
    | _, _ => none
  | .node i k => match th.locals[i]? with
    | some (some p) => match (arc nodeCfg).deref X p with
      | some x => some ({ th with prog := k x.label x.kids.length }, qs)
      | none => none
    | _ => none
  | .give q i k => match th.locals[i]?, qs[q]? with
    | some (some p), some l => some ({ th with prog := k, locals := th.locals.set i none }, qs.set q (l ++ [p]))
    | _, _ => none
  | .take q k => match qs[q]? with
    | some (p :: l) => some ({ th with prog := k, locals := th.locals ++ [some p] }, qs.set q l)
    | _ => none
  | _ => none

theorem lookN_ok {X : St} {th th' : Thread Nat R Addr} {qs qs' : List (List Addr)} (h : lookN X th qs = some (th', qs')) :
    Look (handles nodeCfg X) th qs th' qs' := by
  unfold lookN at h
  split at h
  · rename_i i j k e
    split at h
    · rename_i p q h1 h2
      cases h; exact .eq e h1 h2 rfl
    · cases h
  · rename_i i k e
    split at h
    · rename_i p h1
      split at h
      · rename_i x hx
        cases h; exact .node e h1 ⟨x.kids, hx, rfl⟩
      · cases h
    · cases h
  · rename_i q i k e
    split at h
    · rename_i p l h1 h2
      cases h; exact .give e h1 h2
    · cases h
  · rename_i q k e
    split at h
    · rename_i p l h1
      cases h; exact .take e h1
    · cases h
  · cases h

/-- Events of an execution. -/
inductive Ev
  | inside (l : Src.ArcHeld.Act (Node Nat))
  | look (t : Nat)
  | call (t : Nat)
  | ret (t a : Nat)
  | clone (t : Nat)
  | kid (t : Nat)
  | drop (t : Nat)
  | dropped (t : Nat)

/-- Everything that a program owns. -/
def Conf.all (c : Conf Nat R Addr) : List Addr := (c.threads.flatMap fun th => th.locals.filterMap id) ++ c.queues.flatten

theorem held_all (c : Conf Nat R Addr) (p : Addr) : c.held p = c.all.count p := by
  simp only [Conf.held, Conf.all, List.count_append, List.count_flatMap, List.count_flatten]
  congr 2
  apply List.map_congr_left
  intro th _
  exact (count_filterMap th.locals p).symm

/-- A thread keeps its call, or its own code, unless it is dropping a handle. -/
def keeps (X X' : St) (th : Thread Nat R Addr) (t : Nat) : Bool := match th.phase with
  | .dropping => true
  | _ => empty X.base.threads[t]? == empty X'.base.threads[t]?

/-- One event. -/
def play1 (w : World nodeCfg R) : Ev → Option (World nodeCfg R)
  | .inside l => match stepN w.state l with
    | some s => if (List.range w.conf.threads.length).all (fun t => match w.conf.threads[t]? with
          | some th => keeps w.state s th t
          | none => true) && w.conf.all.all (fun p => decide (w.conf.all.count p ≤ s.base.handles.count p)) then
        some ⟨s, w.conf⟩ else none
    | none => none
  | .look t => match w.conf.threads[t]? with
    | some th => match th.phase with
      | .own => match lookN w.state th w.conf.queues with
        | some (th', qs) => some ⟨w.state, { threads := w.conf.threads.set t th', queues := qs }⟩
        | none => none
      | _ => none
    | none => none
  | .call t => match w.conf.threads[t]? with
    | some th => match th.phase, th.prog with
      | .own, .build l is _ => match move is th.locals with
        | some (ps, ls) => if empty w.state.base.threads[t]? then match stepN w.state (.act (.new t ⟨l, ps⟩ false)) with
            | some s => some ⟨s, { w.conf with threads := w.conf.threads.set t { th with locals := ls, phase := .building ps } }⟩
            | none => none
          else none
        | none => none
      | _, _ => none
    | none => none
  | .ret t a => match w.conf.threads[t]? with
    | some th => match th.phase, th.prog with
      | .building _, .build _ _ k => match retN w.state t a with
        | some (b, s) => some ⟨s, { w.conf with threads := w.conf.threads.set t { prog := k, locals := th.locals ++ [some b], phase := .own } }⟩
        | none => none
      | _, _ => none
    | none => none
  | .clone t => match w.conf.threads[t]? with
    | some th => match th.phase, th.prog with
      | .own, .clone i k => match th.locals[i]? with
        | some (some p) => if empty w.state.base.threads[t]? then match stepN w.state (.act (.clone t [p])) with
            | some s => some ⟨s, { w.conf with threads := w.conf.threads.set t { th with prog := k, locals := th.locals ++ [some p] } }⟩
            | none => none
          else none
        | _ => none
      | _, _ => none
    | none => none
  | .kid t => match w.conf.threads[t]? with
    | some th => match th.phase, th.prog with
      | .own, .kid i n k => match th.locals[i]? with
        | some (some p) => match (arc nodeCfg).deref w.state p with
          | some x => match x.kids[n]? with
            | some q => if empty w.state.base.threads[t]? then match stepN w.state (.act (.clone t [p, q])) with
                | some s => some ⟨s, { w.conf with threads := w.conf.threads.set t { th with prog := k, locals := th.locals ++ [some q] } }⟩
                | none => none
              else none
            | none => none
          | none => none
        | _ => none
      | _, _ => none
    | none => none
  | .drop t => match w.conf.threads[t]? with
    | some th => match th.phase, th.prog with
      | .own, .drop i k => match th.locals[i]? with
        | some (some p) => if empty w.state.base.threads[t]? then match stepN w.state (.act (.drop t p)) with
            | some s => some ⟨s, { w.conf with threads := w.conf.threads.set t { prog := k, locals := th.locals.set i none, phase := .dropping } }⟩
            | none => none
          else none
        | _ => none
      | _, _ => none
    | none => none
  | .dropped t => match w.conf.threads[t]? with
    | some th => match th.phase with
      | .dropping => if empty w.state.base.threads[t]? then
          some ⟨w.state, { w.conf with threads := w.conf.threads.set t { th with phase := .own } }⟩ else none
      | _ => none
    | none => none

theorem play1_ok {w w' : World nodeCfg R} {e : Ev} (h : play1 w e = some w') : WStep w w' := by
  cases e with
  | inside l =>
    simp only [play1] at h
    split at h
    · rename_i s hs
      split at h
      · rename_i hc
        cases h
        obtain ⟨h1, h2⟩ := Bool.and_eq_true_iff.mp hc
        refine .inside ⟨_, stepN_ok hs⟩ (fun t th ht hp => ?_) (fun p => ?_)
        · have := List.all_eq_true.mp h1 t (List.mem_range.mpr (List.getElem?_eq_some_iff.mp ht).1)
          simp only [ht, keeps] at this
          show _ = _ ↔ _ = _
          rw [← empty_iff, ← empty_iff, eq_of_beq this]
        · rw [held_all]
          by_cases hp : p ∈ w.conf.all
          · exact of_decide_eq_true (List.all_eq_true.mp h2 p hp)
          · rw [List.count_eq_zero.mpr hp]; exact Nat.zero_le _
      · cases h
    · cases h
  | look t =>
    simp only [play1] at h
    split at h
    · rename_i th ht
      split at h
      · rename_i hp
        split at h
        · rename_i th' qs hl
          cases h; exact .look ht hp (lookN_ok hl)
        · cases h
      · cases h
    · cases h
  | call t =>
    simp only [play1] at h
    split at h
    · rename_i th ht
      split at h
      · rename_i l is k hp hg
        split at h
        · rename_i ps ls hm
          split at h
          · rename_i he
            split at h
            · rename_i s hs
              cases h; exact .call ht hp hg hm ⟨empty_iff.mp he, false, stepN_ok hs⟩
            · cases h
          · cases h
        · cases h
      · cases h
    · cases h
  | ret t a =>
    simp only [play1] at h
    split at h
    · rename_i th ht
      split at h
      · rename_i ps l is k hp hg
        split at h
        · rename_i b s hs
          cases h; exact .ret ht hp hg (retN_ok hs)
        · cases h
      · cases h
    · cases h
  | clone t =>
    simp only [play1] at h
    split at h
    · rename_i th ht
      split at h
      · rename_i i k hp hg
        split at h
        · rename_i p hi
          split at h
          · rename_i he
            split at h
            · rename_i s hs
              cases h; exact .clone ht hp hg hi ⟨empty_iff.mp he, stepN_ok hs⟩
            · cases h
          · cases h
        · cases h
      · cases h
    · cases h
  | kid t =>
    simp only [play1] at h
    split at h
    · rename_i th ht
      split at h
      · rename_i i n k hp hg
        split at h
        · rename_i p hi
          split at h
          · rename_i x hx
            split at h
            · rename_i q hq
              split at h
              · rename_i he
                split at h
                · rename_i s hs
                  cases h; exact .kid ht hp hg hi ⟨empty_iff.mp he, ⟨x.label, x.kids, hx, hq⟩, stepN_ok hs⟩
                · cases h
              · cases h
            · cases h
          · cases h
        · cases h
      · cases h
    · cases h
  | drop t =>
    simp only [play1] at h
    split at h
    · rename_i th ht
      split at h
      · rename_i i k hp hg
        split at h
        · rename_i p hi
          split at h
          · rename_i he
            split at h
            · rename_i s hs
              cases h; exact .drop ht hp hg hi ⟨empty_iff.mp he, stepN_ok hs⟩
            · cases h
          · cases h
        · cases h
      · cases h
    · cases h
  | dropped t =>
    simp only [play1] at h
    split at h
    · rename_i th ht
      split at h
      · rename_i hp
        split at h
        · rename_i hi
          cases h; exact .dropped ht hp (empty_iff.mp hi)
        · cases h
      · cases h
    · cases h

/-- A list of events. When an event is not possible yet, a step of the process with one of the given labels comes first. -/
def play : Nat → World nodeCfg R → List (List (Src.ArcHeld.Act (Node Nat)) × Ev) → Option (World nodeCfg R)
  | 0, _, _ => none
  | _ + 1, w, [] => some w
  | n + 1, w, (ls, e) :: r => match play1 w e with
    | some w' => play n w' r
    | none => match ls.findSome? fun l => play1 w (.inside l) with
      | some w' => play n w' ((ls, e) :: r)
      | none => none

theorem play_ok {w0 : World nodeCfg R} : ∀ {n : Nat} {l : List (List (Src.ArcHeld.Act (Node Nat)) × Ev)} {w w' : World nodeCfg R}, WRun w0 w →
    play n w l = some w' → WRun w0 w' := by
  intro n
  induction n with
  | zero => intro l w w' _ e; cases e
  | succ n ih =>
    intro l w w' h e
    cases l with
    | nil => cases e; exact h
    | cons x r =>
      obtain ⟨ls, x⟩ := x
      simp only [play] at e
      split at e
      · rename_i w1 h1
        exact ih (.step h (play1_ok h1)) e
      · split at e
        · rename_i w1 h1
          obtain ⟨y, _, hy⟩ := List.exists_of_findSome?_eq_some h1
          exact ih (.step h (play1_ok hy)) e
        · cases e

/-- The end of an execution. -/
def after (w : World nodeCfg R) (l : List (List (Src.ArcHeld.Act (Node Nat)) × Ev)) : World nodeCfg R := (play 600 w l).getD w

theorem after_run (w : World nodeCfg R) (l : List (List (Src.ArcHeld.Act (Node Nat)) × Ev)) : WRun w (after w l) := by
  unfold after
  cases h : play 600 w l with
  | none => exact .refl
  | some w' => exact play_ok .refl h

/-- Steps from the start of the process. -/
def walk : St → List (Src.ArcHeld.Act (Node Nat)) → St
  | X, [] => X
  | X, a :: r => match stepN X a with
    | some X' => walk X' r
    | none => X

theorem walk_reach {l : List (Src.ArcHeld.Act (Node Nat))} : ∀ {X : St}, (arc nodeCfg).Reach X → (arc nodeCfg).Reach (walk X l) := by
  induction l with
  | nil => exact fun h => h
  | cons a r ih =>
    intro X h
    simp only [walk]
    split
    · rename_i X' hs
      obtain ⟨e, hf⟩ := stepN_ok hs
      exact ih (.step h e hf)
    · exact h

end Client.Term
