import Verif.Src.ArcNestOwn
/-
The accounts of C83 hold in every state that can be reached.
-/
namespace Src.ArcNest
open Arc (Addr Tid Cell Cfg Res)
open Src.ArcCode (Var Val Op Glue Mem Stack Thing owns valuesOf boxesOf husksOf Move given stored removed destroyed moves panicMoves NestedFr Own Bal Held worth dataOf Change stackOwns lang newCode dropCode It
  nested_glue)

variable {V : Type}

theorem flatMap_set_perm {α β : Type} (F : α → List β) : ∀ {l : List α} {t : Nat} {x : α}, l[t]? = some x →
    ∃ rest, (l.flatMap F).Perm (F x ++ rest) ∧ ∀ y, ((l.set t y).flatMap F).Perm (F y ++ rest)
  | [], _, _, h => by simp at h
  | z :: l, 0, x, h => by
    simp only [List.getElem?_cons_zero, Option.some.injEq] at h
    subst h
    exact ⟨l.flatMap F, .refl _, fun y => .refl _⟩
  | z :: l, t + 1, x, h => by
    rw [List.getElem?_cons_succ] at h
    obtain ⟨rest, h1, h2⟩ := flatMap_set_perm F h
    refine ⟨F z ++ rest, ?_, fun y => ?_⟩
    · rw [List.flatMap_cons]; exact (List.Perm.append_left _ h1).trans (ArcCode.perm_swap3 _ _ _)
    · rw [List.set_cons_succ, List.flatMap_cons]; exact (List.Perm.append_left _ (h2 y)).trans (ArcCode.perm_swap3 _ _ _)

/-- What the calls of a thread own. -/
def callsOwn (cs : List (Running V)) : List (Thing V) := cs.flatMap fun c => stackOwns c.stack

/-- What some of the calls own. -/
def partOwns (p : Nat → Bool) (N : State V) : List (Thing V) :=
  N.threads.flatMap fun cs => (cs.filter fun c => p c.id).flatMap fun c => stackOwns c.stack

theorem split_part (p : Nat → Bool) (N : State V) : (busy N).Perm (partOwns (fun i => !p i) N ++ partOwns p N) := by
  show (N.threads.flatMap callsOwn).Perm _
  unfold partOwns
  induction N.threads with
  | nil => exact .refl _
  | cons cs css ih =>
    simp only [List.flatMap_cons]
    have h : (callsOwn cs).Perm (((cs.filter fun c => !p c.id).flatMap fun c => stackOwns c.stack) ++
        ((cs.filter fun c => p c.id).flatMap fun c => stackOwns c.stack)) := by
      unfold callsOwn
      clear ih
      induction cs with
      | nil => exact .refl _
      | cons c cs ih =>
        rw [List.flatMap_cons, List.filter_cons, List.filter_cons]
        cases h : p c.id with
        | false => simpa using List.Perm.append_left (stackOwns c.stack) ih
        | true => simpa using (List.Perm.append_left (stackOwns c.stack) ih).trans (ArcCode.perm_swap3 _ _ _)
    refine (h.append ih).trans ?_
    rw [List.append_assoc, List.append_assoc]
    exact List.Perm.append_left _ (ArcCode.perm_swap3 _ _ _)

theorem callOwns_eq (j : Nat) (N : State V) : callOwns j N = partOwns (fun i => i == j) N := rfl

theorem filter_all {α : Type} {p : α → Bool} {l : List α} (h : ∀ x ∈ l, p x = true) : l.filter p = l := List.filter_eq_self.mpr h
theorem filter_none {α : Type} {p : α → Bool} {l : List α} (h : ∀ x ∈ l, p x = false) : l.filter p = [] :=
  List.filter_eq_nil_iff.mpr fun x hx => by simp [h x hx]

/-- Calls that are not concerned. -/
theorem part_same {N N' : State V} {t : Tid} {old new cs : List (Running V)} (ht : N.threads[t]? = some (old ++ cs))
    (e : N'.threads = N.threads.set t (new ++ cs)) {p : Nat → Bool} (h1 : ∀ c ∈ old, p c.id = false) (h2 : ∀ c ∈ new, p c.id = false) :
    (partOwns p N').Perm (partOwns p N) := by
  obtain ⟨rest, h3, h4⟩ := flatMap_set_perm (fun cs : List (Running V) => (cs.filter fun c => p c.id).flatMap fun c => stackOwns c.stack) ht
  rw [List.filter_append, filter_none h1] at h3
  have h5 := h4 (new ++ cs)
  rw [List.filter_append, filter_none h2, ← e] at h5
  exact h5.trans h3.symm

/-- Calls that are. -/
theorem part_change {N N' : State V} {t : Tid} {old new cs : List (Running V)} {mv : List (Move V)} (ht : N.threads[t]? = some (old ++ cs))
    (e : N'.threads = N.threads.set t (new ++ cs)) {p : Nat → Bool} (h1 : ∀ c ∈ old, p c.id = true) (h2 : ∀ c ∈ new, p c.id = true)
    (h : Change N.mem (callsOwn old) N'.mem (callsOwn new) mv) : Change N.mem (partOwns p N) N'.mem (partOwns p N') mv := by
  obtain ⟨rest, h3, h4⟩ := flatMap_set_perm (fun cs : List (Running V) => (cs.filter fun c => p c.id).flatMap fun c => stackOwns c.stack) ht
  rw [List.filter_append, filter_all h1, List.flatMap_append, List.append_assoc] at h3
  have h5 := h4 (new ++ cs)
  rw [List.filter_append, filter_all h2, ← e, List.flatMap_append, List.append_assoc] at h5
  exact (h.more _).perm (h3.trans List.perm_append_comm) (h5.trans List.perm_append_comm)

theorem busy_part (N : State V) : busy N = partOwns (fun _ => true) N := by
  show N.threads.flatMap callsOwn = _
  simp only [partOwns, List.filter_eq_self.mpr (fun _ _ => rfl)]
  rfl

theorem mem_part {p q : Nat → Bool} (h : ∀ i, p i = true → q i = true) {N : State V} {x : Thing V} (hx : x ∈ partOwns p N) : x ∈ partOwns q N := by
  simp only [partOwns, List.mem_flatMap, List.mem_filter] at hx ⊢
  obtain ⟨cs, h1, c, ⟨h2, h3⟩, h4⟩ := hx
  exact ⟨cs, h1, c, ⟨h2, h _ h3⟩, h4⟩

/-- Functions are well nested, and the accounts hold. -/
structure Acct (N : State V) (L : List (Nat × Move V)) : Prop where
  nested : ∀ cs ∈ N.threads, ∀ c ∈ cs, ∀ f ∈ c.stack, NestedFr f
  own : Own N.mem (busy N)
  held : Held N.mem (all L)
  total : Bal N.mem (busy N) (all L)
  call : ∀ j, Bal N.mem (callOwns j N) (ofCall j L)

theorem acct_init : Acct (init : State V) [] :=
  ⟨by simp [init], ⟨.refl _, List.nodup_nil⟩, .refl _, .refl _, fun _ => .refl _⟩

theorem all_log (j : Nat) (mv : List (Move V)) (L : List (Nat × Move V)) : all (mv.map (fun x => (j, x)) ++ L) = mv ++ all L := by
  simp only [all, List.map_append, List.map_map]
  exact congrArg (· ++ _) (List.map_id' mv)

theorem ofCall_log (j : Nat) (mv : List (Move V)) (L : List (Nat × Move V)) : ofCall j (mv.map (fun x => (j, x)) ++ L) = mv ++ ofCall j L := by
  simp only [ofCall, List.filterMap_append, List.filterMap_map]
  congr 1
  induction mv with
  | nil => rfl
  | cons a l ih => simp [ih]

theorem ofCall_log_ne {i j : Nat} (h : j ≠ i) (mv : List (Move V)) (L : List (Nat × Move V)) : ofCall i (mv.map (fun x => (j, x)) ++ L) = ofCall i L := by
  simp only [ofCall, List.filterMap_append, List.filterMap_map]
  have : List.filterMap ((fun x : Nat × Move V => if x.1 = i then some x.2 else none) ∘ fun x => (j, x)) mv = [] := by
    induction mv with
    | nil => rfl
    | cons a l ih => simp [h]
  rw [this]; rfl

/-- Call number `j` changes. -/
theorem Acct.set {N N' : State V} {L : List (Nat × Move V)} {mv : List (Move V)} (h : Acct N L) {t : Tid} (j : Nat) {old new cs : List (Running V)}
    (ht : N.threads[t]? = some (old ++ cs)) (e : N'.threads = N.threads.set t (new ++ cs))
    (h1 : ∀ c ∈ old, c.id = j) (h2 : ∀ c ∈ new, c.id = j)
    (hn : (∀ c ∈ old ++ cs, ∀ f ∈ c.stack, NestedFr f) → ∀ c ∈ new, ∀ f ∈ c.stack, NestedFr f)
    (hc : Change N.mem (callsOwn old) N'.mem (callsOwn new) mv) : Acct N' (mv.map (fun x => (j, x)) ++ L) := by
  have hb : Change N.mem (busy N) N'.mem (busy N') mv := by
    rw [busy_part, busy_part]; exact part_change ht e (fun _ _ => rfl) (fun _ _ => rfl) hc
  refine ⟨fun ds hds => ?_, h.own.change hb, ?_, ?_, fun i => ?_⟩
  · rw [e] at hds
    rcases List.mem_or_eq_of_mem_set hds with hds | rfl
    · exact h.nested ds hds
    · intro c hc
      have h0 := h.nested _ (List.mem_of_getElem? ht)
      rcases List.mem_append.mp hc with hc | hc
      · exact hn h0 c hc
      · exact h0 c (List.mem_append_right _ hc)
  · rw [all_log]; exact h.held.change h.own hb
  · rw [all_log]; exact Bal.change (q := []) h.own h.total hb
  · have hj : Change N.mem (callOwns j N) N'.mem (callOwns j N') mv :=
      part_change (p := fun i => i == j) ht e (fun c hc => by simp [h1 c hc]) (fun c hc => by simp [h2 c hc]) hc
    have ho := h.own.perm (split_part (fun i => i == j) N).symm
    by_cases e' : j = i
    · subst e'
      rw [ofCall_log]
      exact Bal.change ho (h.call j) hj
    · rw [ofCall_log_ne e']
      have hp : (callOwns i N').Perm (callOwns i N) :=
        part_same (p := fun k => k == i) ht e (fun c hc => by simp [h1 c hc, e']) (fun c hc => by simp [h2 c hc, e'])
      refine Bal.perm ((h.call i).others fun x hx => Change.others ho hj ?_) hp
      simp only [boxesOf, List.mem_filterMap] at hx ⊢
      obtain ⟨y, hy, hx⟩ := hx
      refine ⟨y, mem_part (p := fun k => k == i) (fun k hk => ?_) hy, hx⟩
      simp at hk ⊢
      exact fun e => e' (by rw [← hk, e])

/-- No call changes. -/
theorem Acct.same {N N' : State V} {L : List (Nat × Move V)} (h : Acct N L) (e : ∀ (p : Nat → Bool), partOwns p N' = partOwns p N)
    (hn : ∀ cs ∈ N'.threads, ∀ c ∈ cs, ∀ f ∈ c.stack, NestedFr f) (h1 : N'.mem.table = N.mem.table) (h2 : ArcCode.SameData N.mem.heap N'.mem.heap) :
    Acct N' L := by
  have eb : busy N' = busy N := by rw [busy_part, busy_part, e]
  have hd : dataOf N'.mem.heap = dataOf N.mem.heap := funext h2.2
  refine ⟨hn, ⟨by rw [eb, h1, h2.1]; exact h.own.boxes, by rw [h2.1]; exact h.own.nodup⟩, ?_, ?_, fun j => ?_⟩
  · rw [Held, h1, hd]; exact h.held
  · rw [Bal, worth, hd, eb]; exact h.total
  · rw [Bal, worth, hd, callOwns_eq, e]; exact h.call j

theorem things_takeField (p : Addr) : ∀ l : List (It V), (takeField p l).flatMap ArcCode.itemThings = l.flatMap ArcCode.itemThings
  | [] => rfl
  | .glue (.handle b) :: l => by
    simp only [takeField]
    split
    · rfl
    · rw [List.flatMap_cons, List.flatMap_cons, things_takeField p l]
  | .glue (.value v) :: l => rfl
  | .glue (.unlock v) :: l => rfl
  | .glue (.destroy v) :: l => rfl
  | .glue (.dealloc v) :: l => rfl
  | .stmt s :: l => rfl
  | .close :: l => rfl
  | .again s :: l => rfl

theorem nested_cons_glue {n : Nat} {g : Glue V} {l : List (It V)} : ArcCode.Nested n (.glue g :: l) ↔ ArcCode.Nested n l := nested_glue [g] n l

theorem nested_takeField (p : Addr) (n : Nat) : ∀ l : List (It V), ArcCode.Nested n l → ArcCode.Nested n (takeField p l)
  | [], h => h
  | .glue (.handle b) :: l, h => by
    simp only [takeField]
    rw [nested_cons_glue] at h
    split
    · exact h
    · exact nested_cons_glue.mpr (nested_takeField p n l h)
  | .glue (.value v) :: l, h => h
  | .glue (.unlock v) :: l, h => h
  | .glue (.destroy v) :: l, h => h
  | .glue (.dealloc v) :: l, h => h
  | .stmt s :: l, h => h
  | .close :: l, h => h
  | .again s :: l, h => h

section
variable [BEq V] [Hashable V] {cfg : Cfg V} {can : List (Running V) → Bool}

/-- One step keeps the accounts. -/
theorem acct_step [EquivBEq V] [LawfulHashable V] (hv : cfg.Valid) {N N' : State V} {act : Act V} {L : List (Nat × Move V)} (hr : ∃ l S s, Good cfg N l S s)
    (h : Acct N L) (e : step cfg N act can = .ok N') : Acct N' (logged cfg N act ++ L) := by
  cases act with
  | spawn =>
    cases e
    refine h.same (N' := { N with threads := N.threads ++ [[]] }) (fun p => by simp [partOwns]) (fun cs hcs => ?_) rfl (.refl _)
    rcases List.mem_append.mp hcs with hcs | hcs
    · exact h.nested cs hcs
    · simp at hcs; subst hcs; intro c hc; cases hc
  | new t v dst =>
    simp only [step] at e
    split at e
    · rename_i cs ht
      split at e
      · cases e
        have hn : NestedFr ((lang cfg).enter [(.val, some (if dst then .borrowed v else .owned v))] (newCode dst)) := by
          cases dst <;> trivial
        cases dst with
        | false =>
          refine h.set (N' := { N with threads := _, handles := _, next := _, hist := _ }) (mv := [.given v]) N.next (old := []) (new := [_]) ht rfl
            (by simp) (by simp) (fun h0 => ?_) ⟨[], [.value v], [], .refl _, .refl _, .give⟩
          intro c hc
          simp at hc; subst hc
          intro f hf; simp at hf; subst hf; exact hn
        | true =>
          refine h.set (N' := { N with threads := _, handles := _, next := _, hist := _ }) (mv := []) N.next (old := []) (new := [_]) ht rfl
            (by simp) (by simp) (fun h0 => ?_) (.same (.refl _))
          intro c hc
          simp at hc; subst hc
          intro f hf; simp at hf; subst hf; exact hn
      · cases e
    · cases e
  | clone t path =>
    simp only [step] at e
    split at e
    · rename_i cs ht
      split at e
      · split at e
        · rename_i p _
          cases hg : Arc.get N.mem.heap p with
          | none => simp [hg] at e
          | some x =>
            simp only [hg] at e; cases e
            exact h.same (N' := { N with mem := _, handles := _, next := _, hist := _ }) (fun _ => rfl) h.nested rfl (ArcCode.sameData_setCount _ _ _)
        · cases e
        · cases e
      · cases e
    · cases e
  | read t path =>
    simp only [step] at e
    split at e
    · split at e
      · split at e <;> cases e
        exact h
      · cases e
    · cases e
  | drop t p =>
    simp only [step] at e
    split at e
    · rename_i cs ht
      split at e
      · cases e
        refine h.set (N' := { N with threads := _, handles := _, next := _, hist := _ }) (mv := []) N.next (old := []) (new := [_]) ht rfl
          (by simp) (by simp) (fun h0 => ?_) (.same (.refl _))
        intro c hc
        simp at hc; subst hc
        intro f hf; simp at hf; subst hf; trivial
      · cases e
    · cases e
  | take t p =>
    simp only [step] at e
    split at e
    · rename_i id call f fs cs ht
      split at e
      · rename_i v l hi
        split at e
        · cases e
          refine h.set (N' := { N with threads := _, handles := _ }) (mv := []) id (old := [_]) (new := [_]) ht rfl
            (by simp) (by simp) (fun h0 => ?_) (.same (.of_eq ?_))
          · intro c hc
            simp at hc; subst hc
            intro g hg
            rcases List.mem_cons.mp hg with rfl | hg
            · have := h0 _ List.mem_cons_self f List.mem_cons_self
              rw [NestedFr, hi] at this
              exact nested_cons_glue.mpr (nested_takeField p _ _ (nested_cons_glue.mp this))
            · exact h0 _ List.mem_cons_self g (List.mem_cons_of_mem _ hg)
          · simp only [callsOwn, stackOwns, List.flatMap_cons, owns, hi, things_takeField]
        · cases e
      · cases e
    · cases e
  | put t p =>
    simp only [step] at e
    split at e
    · rename_i id call f fs cs ht
      split at e
      · rename_i v l hi
        split at e
        · cases e
          refine h.set (N' := { N with threads := _, handles := _ }) (mv := []) id (old := [_]) (new := [_]) ht rfl
            (by simp) (by simp) (fun h0 => ?_) (.same (.of_eq ?_))
          · intro c hc
            simp at hc; subst hc
            intro g hg
            rcases List.mem_cons.mp hg with rfl | hg
            · have := h0 _ List.mem_cons_self f List.mem_cons_self
              rw [NestedFr, hi] at this
              exact nested_cons_glue.mpr (nested_cons_glue.mpr (nested_cons_glue.mp this))
            · exact h0 _ List.mem_cons_self g (List.mem_cons_of_mem _ hg)
          · simp only [callsOwn, stackOwns, List.flatMap_cons, owns, hi]; rfl
        · cases e
      · cases e
    · cases e
  | run t a =>
    simp only [step] at e
    split at e
    · rename_i c cs ht
      obtain ⟨l, S, s, hG⟩ := hr
      obtain ⟨hget, hne⟩ := hG.flat.head ht
      obtain ⟨th, hth, hR⟩ := hG.sim.thread hget
      cases hst : c.stack with
      | nil => exact absurd hst hne
      | cons f fs =>
        rw [hst] at hR e
        have h0 : ∀ g ∈ f :: fs, NestedFr g := by
          rw [← hst]; exact h.nested _ (List.mem_of_getElem? ht) c List.mem_cons_self
        have hlog : logged cfg N (.run t a) = (moves cfg N.mem f).map fun x => (c.id, x) := by simp [logged, ht, hst]
        rw [hlog]
        cases hrun : (lang cfg).run N.mem c.id a (f :: fs) with
        | blocked => rw [hrun] at e; cases e
        | ub => rw [hrun] at e; cases e
        | ok d =>
          obtain ⟨m', fs', r⟩ := d
          rw [hrun] at e
          obtain ⟨h1, h2⟩ := ArcCode.run_change (cfg := cfg) h0 (fun he s r hi => ArcCode.rel_proper hR he hi) hrun
          cases fs' with
          | nil =>
            cases e
            refine h.set (N' := { N with mem := m', handles := _, threads := _, hist := _ }) c.id (old := [c]) (new := []) ht rfl
              (by simp) (by simp) (by simp) ?_
            simpa [callsOwn, stackOwns, hst] using h2
          | cons g gs =>
            cases e
            refine h.set (N' := { N with mem := m', threads := _ }) c.id (old := [c]) (new := [_]) ht rfl (by simp) (by simp) (fun _ c' hc' => ?_) ?_
            · simp at hc'; subst hc'; exact h1
            · simpa [callsOwn, hst] using h2
    · cases e
  | panic t =>
    simp only [step] at e
    split at e
    · rename_i c cs ht
      obtain ⟨l, S, s, hG⟩ := hr
      obtain ⟨hget, hne⟩ := hG.flat.head ht
      cases hst : c.stack with
      | nil => exact absurd hst hne
      | cons f fs =>
        rw [hst] at e
        have h0 : ∀ g ∈ f :: fs, NestedFr g := by
          rw [← hst]; exact h.nested _ (List.mem_of_getElem? ht) c List.mem_cons_self
        have hlog : logged cfg N (.panic t) = (panicMoves f).map fun x => (c.id, x) := by simp [logged, ht, hst]
        rw [hlog]
        cases hp : (lang cfg).panic N.mem (f :: fs) with
        | blocked => rw [hp] at e; cases e
        | ub => rw [hp] at e; cases e
        | ok fs' =>
          rw [hp] at e; cases e
          obtain ⟨h1, h2⟩ := ArcCode.panic_change (cfg := cfg) h0 hp
          refine h.set (N' := { N with threads := _ }) c.id (old := [c]) (new := [_]) ht rfl (by simp) (by simp) (fun _ c' hc' => ?_) ?_
          · simp at hc'; subst hc'; exact h1
          · simpa [callsOwn, hst] using h2
    · cases e

theorem Ledger.reach {N : State V} {L : List (Nat × Move V)} (h : Ledger cfg N L) : Reach cfg N := by
  induction h with
  | init => exact .init
  | step _ e hf ih => exact .step ih e hf

theorem Ledger.acct [EquivBEq V] [LawfulHashable V] (hv : cfg.Valid) {N : State V} {L : List (Nat × Move V)} (h : Ledger cfg N L) :
    Acct N L := by
  induction h with
  | init => exact acct_init
  | step h e _ ih => exact acct_step hv (good_reach hv h.reach) ih e

end
end Src.ArcNest
