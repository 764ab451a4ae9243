import Verif.Src.ArcNestAcct
import Verif.Props.ArcSourceNested
/-!
C83: what becomes of the values that are given to `ArcIntern`, with the functions as they are written, called by destructors and by `Hash`
inside its own calls. Vocabulary in `Verif/Src/ArcNestLedger.lean`: `Ledger cfg N L` says that the state `N` can be reached with the
happenings `L`, and `Move` says what can happen to a value.
-/
namespace Src.ArcNest
open Arc (Addr Tid Cell Cfg Res demoCfg)
open Src.ArcCode (Thing Move valuesOf boxesOf husksOf given stored removed destroyed)

variable {V : Type} [BEq V] [Hashable V] {cfg : Cfg V}

/-! Checked executions with their happenings. -/

def checkedL (cfg : Cfg V) (N : State V) (L : List (Nat × Move V)) : List (Act V) → Option (State V × List (Nat × Move V))
  | [] => some (N, L)
  | a :: as => match step cfg N a with
    | .ok N' => if decide ((mentions cfg N').length < cfg.W) then checkedL cfg N' (logged cfg N a ++ L) as else none
    | _ => none

theorem checkedL_ledger (as : List (Act V)) :
    ∀ {N N' : State V} {L L' : List (Nat × Move V)}, Ledger cfg N L → checkedL cfg N L as = some (N', L') → Ledger cfg N' L' := by
  induction as with
  | nil => intro N N' L L' h e; cases e; exact h
  | cons a as ih =>
    intro N N' L L' h e
    simp only [checkedL] at e
    cases hs : step cfg N a with
    | ok N1 =>
      simp only [hs] at e
      split at e
      · rename_i hc
        exact ih (.step h hs fun _ => Nat.lt_of_le_of_lt List.count_le_length (of_decide_eq_true hc)) e
      · cases e
    | blocked => simp [hs] at e
    | ub => simp [hs] at e

def demoL (as : List (Act Arc.Val)) : State Arc.Val × List (Nat × Move Arc.Val) := (checkedL demoCfg init [] as).getD (init, [])

/-- So all the examples below are about states that can be reached. -/
theorem demoL_ledger (as : List (Act Arc.Val)) : Ledger demoCfg (demoL as).1 (demoL as).2 := by
  unfold demoL
  cases h : checkedL demoCfg init [] as with
  | none => exact .init
  | some D => exact checkedL_ledger as .init h

theorem checkedL_checked (as : List (Act V)) : ∀ {N N' : State V} (L : List (Nat × Move V)), checked cfg N as = some N' →
    ∃ L', checkedL cfg N L as = some (N', L') := by
  induction as with
  | nil => intro N N' L e; cases e; exact ⟨L, rfl⟩
  | cons a as ih =>
    intro N N' L e
    simp only [checked] at e
    cases hs : step cfg N a with
    | ok N1 =>
      simp only [hs] at e
      split at e
      · rename_i hc
        rw [Bool.and_eq_true] at hc
        obtain ⟨L', h⟩ := ih (logged cfg N a ++ L) e
        exact ⟨L', by simp only [checkedL, hs, hc.2, if_true, h]⟩
      · cases e
    | blocked => simp [hs] at e
    | ub => simp [hs] at e

theorem demoL_reach {as : List (Act Arc.Val)} (h : (checked demoCfg init as).isSome = true) : ReachND demoCfg (demoL as).1 := by
  obtain ⟨N, hs⟩ := Option.isSome_iff_exists.mp h
  obtain ⟨L, hl⟩ := checkedL_checked as [] hs
  have : (demoL as).1 = N := by simp [demoL, hl]
  rw [this]; exact checked_reachND as .init hs

variable [EquivBEq V] [LawfulHashable V]

/-! ### The theorems -/

/-- C83 (a). Every value that was given is, just once, either destroyed, or in a variable (or the drop glue) of a running function, or in a
box that the table or a running function owns. -/
theorem C83_values_conserved (hv : cfg.Valid) {N : State V} {L : List (Nat × Move V)} (h : Ledger cfg N L) :
    (given (all L)).Perm (destroyed (all L) ++ (valuesOf (busy N) ++ (N.mem.table ++ boxesOf (busy N)).filterMap (deref N))) :=
  (h.acct hv).total.values (h.acct hv).held

/-- Of three values, one is in the table, one is being destroyed (20 is its box), and one has been given by the destructor of the second one,
in a call that is running. -/
example : let D := demoL (reviveTrace ++ runs 1 30 3)
    Ledger demoCfg D.1 D.2 ∧ given (all D.2) = [⟨7, 1, [10]⟩, ⟨7, 0, [10]⟩, ⟨5, 1, []⟩] ∧ destroyed (all D.2) = [] ∧
      valuesOf (busy D.1) = [⟨7, 1, [10]⟩, ⟨7, 0, [10]⟩] ∧ husksOf (busy D.1) = [20] ∧ D.1.mem.table = [10] :=
  ⟨demoL_ledger _, by decide +kernel, by decide +kernel, by decide +kernel, by decide +kernel, by decide +kernel⟩

/-- C83 (b). What was stored in the table has been removed or is still there, just once. -/
theorem C83_table_account (hv : cfg.Valid) {N : State V} {L : List (Nat × Move V)} (h : Ledger cfg N L) :
    (stored (all L)).Perm (removed (all L) ++ N.mem.table.filterMap (deref N)) := (h.acct hv).held

example : let D := demoL (reviveTrace ++ runs 1 30 21)
    stored (all D.2) = [⟨7, 1, [10]⟩, ⟨7, 0, [10]⟩, ⟨5, 1, []⟩] ∧ removed (all D.2) = [⟨7, 0, [10]⟩] ∧ D.1.mem.table = [30, 10] := by
  decide +kernel

/-- C83 (c). The account of one call, with the drops of the fields of the values that it destroys, but without the calls that user code makes
inside it: what it was given and what it has removed from the table, it has destroyed or stored, or still owns. -/
theorem C83_call_account (hv : cfg.Valid) {N : State V} {L : List (Nat × Move V)} (h : Ledger cfg N L) (j : Nat) :
    (given (ofCall j L) ++ removed (ofCall j L)).Perm (destroyed (ofCall j L) ++ (stored (ofCall j L) ++
      (valuesOf (callOwns j N) ++ (boxesOf (callOwns j N)).filterMap (deref N)))) := (h.acct hv).call j

omit [BEq V] [Hashable V] [EquivBEq V] [LawfulHashable V] in
theorem callOwns_ended {j : Nat} {N : State V} (h : ∀ cs ∈ N.threads, ∀ c ∈ cs, c.id ≠ j) : callOwns j N = [] := by
  simp only [callOwns, List.flatMap_eq_nil_iff]
  intro cs hcs c hc
  rw [List.mem_filter] at hc
  exact absurd (by simpa using hc.2) (h cs hcs c hc.1)

/-- C83 (d). A call that has ended, also one that has ended with a panic, leaves nothing behind. -/
theorem C83_ended_call (hv : cfg.Valid) {N : State V} {L : List (Nat × Move V)} (h : Ledger cfg N L) {j : Nat}
    (hj : ∀ cs ∈ N.threads, ∀ c ∈ cs, c.id ≠ j) :
    (given (ofCall j L) ++ removed (ofCall j L)).Perm (destroyed (ofCall j L) ++ stored (ofCall j L)) := by
  have := C83_call_account hv h j
  rw [callOwns_ended hj] at this
  simpa [valuesOf, boxesOf] using this

/-- Call 2, a drop, has destroyed what it has removed; call 3, made by the destructor, has stored what it was given. -/
example : let D := demoL (reviveTrace ++ runs 1 30 21)
    (∀ j, ∀ cs ∈ D.1.threads, ∀ c ∈ cs, c.id ≠ j) ∧
      ofCall 2 D.2 = [.destroyed ⟨7, 0, [10]⟩, .removed ⟨7, 0, [10]⟩] ∧ ofCall 3 D.2 = [.stored ⟨7, 1, [10]⟩, .given ⟨7, 1, [10]⟩] := by
  refine ⟨?_, by decide +kernel, by decide +kernel⟩
  have hq : Quiet (demoL (reviveTrace ++ runs 1 30 21)).1 := quiet_of (by decide +kernel)
  intro j cs hcs c hc
  rw [hq cs hcs] at hc
  cases hc

omit [EquivBEq V] [LawfulHashable V] in
theorem Ledger.called {N : State V} {L : List (Nat × Move V)} (h : Ledger cfg N L) {j : Nat} {v : V}
    (hc : .call j (.new v false) ∈ N.hist) : v ∈ given (ofCall j L) := by
  induction h with
  | init => cases hc
  | @step N N' act L _ e _ ih =>
    have hmono : ∀ l : List (Nat × Move V), v ∈ given (ofCall j L) → v ∈ given (ofCall j (l ++ L)) := by
      intro l h
      simp only [ofCall, List.filterMap_append, ArcCode.given_append]
      exact List.mem_append_right _ h
    have key : .call j (.new v false) ∈ N.hist → v ∈ given (ofCall j (logged cfg N act ++ L)) := fun h => hmono _ (ih h)
    cases act with
    | new t w dst =>
      simp only [ArcNest.step] at e
      split at e
      · split at e
        · cases e
          rcases List.mem_cons.mp hc with hc | hc
          · cases hc
            simp [logged, ofCall, given]
          · exact key hc
        · cases e
      · cases e
    | drop t p =>
      simp only [ArcNest.step] at e
      split at e
      · split at e
        · cases e
          rcases List.mem_cons.mp hc with hc | hc
          · cases hc
          · exact key hc
        · cases e
      · cases e
    | clone t path =>
      simp only [ArcNest.step] at e
      split at e
      · split at e
        · split at e
          · split at e
            · cases e
              rcases List.mem_cons.mp hc with hc | hc
              · cases hc
              · exact key hc
            · cases e
          · cases e
          · cases e
        · cases e
      · cases e
    | spawn => cases e; exact key hc
    | read t path =>
      simp only [ArcNest.step] at e
      split at e
      · split at e
        · split at e <;> cases e
          exact key hc
        · cases e
      · cases e
    | take t p =>
      simp only [ArcNest.step] at e
      split at e
      · split at e
        · split at e
          · cases e; exact key hc
          · cases e
        · cases e
      · cases e
    | put t p =>
      simp only [ArcNest.step] at e
      split at e
      · split at e
        · split at e
          · cases e; exact key hc
          · cases e
        · cases e
      · cases e
    | run t a =>
      simp only [ArcNest.step] at e
      split at e
      · rename_i c cs _
        split at e
        · cases e
          rcases List.mem_append.mp hc with hc | hc
          · exfalso
            simp only [ends] at hc
            split at hc
            · cases hc
            · split at hc <;> simp at hc
          · exact key hc
        · cases e; exact key hc
        · cases e
        · cases e
      · cases e
    | panic t =>
      simp only [ArcNest.step] at e
      split at e
      · split at e
        · cases e; exact key hc
        · cases e
        · cases e
      · cases e

/-- C83 (e). When `new(v)` has ended, also with a panic, it has destroyed `v` or stored it in the table. -/
theorem C83_new_argument (hv : cfg.Valid) {N : State V} {L : List (Nat × Move V)} (h : Ledger cfg N L) {j : Nat} {v : V}
    (hc : .call j (.new v false) ∈ N.hist) (hj : ∀ cs ∈ N.threads, ∀ c ∈ cs, c.id ≠ j) :
    v ∈ destroyed (ofCall j L) ∨ v ∈ stored (ofCall j L) :=
  List.mem_append.mp ((C83_ended_call hv h hj).mem_iff.mp (List.mem_append_left _ (h.called hc)))

/-- The second of two calls with equal values destroys its argument; so does a call in which `Hash` panics. -/
example : let D := demoL ([.spawn, .new 0 ⟨5, 1, []⟩ false] ++ runs 0 10 17 ++ [.new 0 ⟨5, 2, []⟩ false] ++ runs 0 20 17)
    Quiet D.1 ∧ ofCall 0 D.2 = [.stored ⟨5, 1, []⟩, .given ⟨5, 1, []⟩] ∧ ofCall 1 D.2 = [.destroyed ⟨5, 2, []⟩, .given ⟨5, 2, []⟩] :=
  ⟨quiet_of (by decide +kernel), by decide +kernel, by decide +kernel⟩

example : let D := demoL ([.spawn, .new 0 ⟨5, 1, []⟩ false] ++ runs 0 10 3 ++ [.panic 0] ++ runs 0 10 6)
    Quiet D.1 ∧ D.1.next = 1 ∧ ofCall 0 D.2 = [.destroyed ⟨5, 1, []⟩, .given ⟨5, 1, []⟩] :=
  ⟨quiet_of (by decide +kernel), by decide +kernel, by decide +kernel⟩

/-- C83 (f). Every box that is allocated has exactly one owner: the table or a running function. -/
theorem C83_one_owner (hv : cfg.Valid) {N : State V} {L : List (Nat × Move V)} (h : Ledger cfg N L) :
    (Arc.keys N.mem.heap).Perm (N.mem.table ++ (boxesOf (busy N) ++ husksOf (busy N))) ∧
      (N.mem.table ++ (boxesOf (busy N) ++ husksOf (busy N))).Nodup :=
  ⟨(h.acct hv).own.boxes, (h.acct hv).own.boxes.nodup_iff.mp (h.acct hv).own.nodup⟩

example : let D := demoL (reviveTrace ++ runs 1 30 15)
    boxesOf (busy D.1) = [] ∧ husksOf (busy D.1) = [20] ∧ D.1.mem.table = [30, 10] := by decide +kernel

omit [BEq V] [Hashable V] [EquivBEq V] [LawfulHashable V] in
theorem busy_quiet {N : State V} (hq : Quiet N) : busy N = [] := by
  simp only [busy, List.flatMap_eq_nil_iff]
  intro cs hcs
  rw [hq cs hcs]; simp

/-- C83 (g). When no call is running, the allocated boxes are those in the table, and the values that were given have been destroyed or are
in the table. -/
theorem C83_quiet (hv : cfg.Valid) {N : State V} {L : List (Nat × Move V)} (h : Ledger cfg N L) (hq : Quiet N) :
    (Arc.keys N.mem.heap).Perm N.mem.table ∧ (given (all L)).Perm (destroyed (all L) ++ N.mem.table.filterMap (deref N)) := by
  have h1 := (C83_one_owner hv h).1
  have h2 := C83_values_conserved hv h
  rw [busy_quiet hq] at h1 h2
  simp only [boxesOf, husksOf, valuesOf, List.filterMap_nil, List.append_nil, List.nil_append] at h1 h2
  exact ⟨h1, h2⟩

example : let D := demoL (reviveTrace ++ runs 1 30 21)
    Quiet D.1 ∧ Arc.keys D.1.mem.heap = [30, 10] ∧ destroyed (all D.2) = [⟨7, 0, [10]⟩] ∧
      D.1.mem.table.filterMap (deref D.1) = [⟨7, 1, [10]⟩, ⟨5, 1, []⟩] :=
  ⟨quiet_of (by decide +kernel), by decide +kernel, by decide +kernel, by decide +kernel⟩

/-- C83 (h). If all values that were given are different objects, no destructor runs twice, and none of the values that the table or a
running function owns has been destroyed. -/
theorem C83_destroyed_once (hv : cfg.Valid) {N : State V} {L : List (Nat × Move V)} (h : Ledger cfg N L) (hd : (given (all L)).Nodup) :
    (destroyed (all L)).Nodup ∧ (∀ v ∈ valuesOf (busy N), v ∉ destroyed (all L)) ∧
      ∀ b ∈ N.mem.table ++ boxesOf (busy N), ∀ x, deref N b = some x → x ∉ destroyed (all L) ∧ x ∉ valuesOf (busy N) := by
  have := (C83_values_conserved hv h).nodup_iff.mp hd
  obtain ⟨h1, h2, h3⟩ := List.nodup_append.mp this
  obtain ⟨_, _, h4⟩ := List.nodup_append.mp h2
  refine ⟨h1, fun v hv hv' => h3 v hv' v (List.mem_append_left _ hv) rfl, fun b hb x hx => ?_⟩
  have hm : x ∈ (N.mem.table ++ boxesOf (busy N)).filterMap (deref N) := List.mem_filterMap.mpr ⟨b, hb, hx⟩
  exact ⟨fun hx' => h3 x hx' x (List.mem_append_right _ hm) rfl, fun hx' => h4 x hx' x hm rfl⟩

example : let D := demoL (reviveTrace ++ runs 1 30 21)
    (given (all D.2)).Nodup ∧ destroyed (all D.2) = [⟨7, 0, [10]⟩] := by decide +kernel

/-- C83 (i). A handle of a client, or in a field of a value in the table, leads to a box in the table, which no running function owns; so, if
all values that were given are different objects, to a value that has not been destroyed and is not being destroyed. -/
theorem C83_handles_safe (hv : cfg.Valid) {N : State V} {L : List (Nat × Move V)} (h : Ledger cfg N L) {p : Addr}
    (hp : p ∈ N.handles ∨ ∃ b ∈ N.mem.table, ∃ y, deref N b = some y ∧ p ∈ cfg.kids y) :
    p ∈ N.mem.table ∧ p ∉ boxesOf (busy N) ∧ p ∉ husksOf (busy N) ∧ ∃ x, deref N p = some x ∧
      ((given (all L)).Nodup → x ∉ destroyed (all L) ∧ x ∉ valuesOf (busy N)) := by
  have hm : p ∈ N.mem.table ∧ ∃ x, deref N p = some x := by
    obtain ⟨l, S, s, hg⟩ := good_reach hv h.reach
    have hm : p ∈ Arc.allHandles cfg s := by
      simp only [Arc.allHandles, List.mem_append]
      rcases hp with hp | ⟨b, hb, y, hy, hp⟩
      · rw [hg.sim.handles, hg.flat.handles]; exact .inl (.inl hp)
      · right
        have hb' : b ∈ s.table := by rw [hg.sim.shared.table, hg.flat.mem]; exact hb
        have hk := hg.inv.mem_keys hb'
        obtain ⟨c, hc⟩ := Arc.exists_get hk
        have := (hg.sim.shared.get hc).1
        rw [hg.flat.mem] at this
        simp only [deref, this, Option.map_some, Option.some.injEq] at hy
        subst hy
        exact List.mem_flatMap.mpr ⟨(b, c), Arc.mem_of_get hc, hp⟩
    obtain ⟨x, _, e1, _, _⟩ := Arc.inv_canonical hg.inv hm hm
    have d1 := hg.sim.deref e1
    simp only [ArcCode.deref, hg.flat.mem] at d1
    exact ⟨by rw [← hg.flat.mem, ← hg.sim.shared.table]; exact hg.inv.in_table hm, x, d1⟩
  obtain ⟨h1, x, h2⟩ := hm
  obtain ⟨_, _, h3⟩ := List.nodup_append.mp (C83_one_owner hv h).2
  refine ⟨h1, fun hb => h3 p h1 p (List.mem_append_left _ hb) rfl, fun hb => h3 p h1 p (List.mem_append_right _ hb) rfl, x, h2, fun hd => ?_⟩
  exact (C83_destroyed_once hv h hd).2.2 p (List.mem_append_left _ h1) x h2

/-- While the destructor of the value at 20 runs, the handle that was its field is used: it leads to 10, which is alive. -/
example : let D := demoL (destroyTrace ++ [.take 1 10])
    D.1.handles = [10] ∧ valuesOf (busy D.1) = [⟨7, 0, [10]⟩] ∧ husksOf (busy D.1) = [20] ∧ D.1.mem.table = [10] := by decide +kernel

/-- C83 (j). When no call is running and no client has a handle, every value that was given has been destroyed, just once: unless user code
panicked in the removal of a `drop` (C20). -/
theorem C83_all_destroyed (hv : cfg.Valid) {N : State V} {L : List (Nat × Move V)} (h : Ledger cfg N L) (hn : ReachND cfg N) (hq : Quiet N)
    (hh : N.handles = []) : (given (all L)).Perm (destroyed (all L)) := by
  have := (C83_quiet hv h hq).2
  rw [(C82_no_leak hv hn hq hh).2] at this
  simpa using this

example : let as : List (Act Arc.Val) := destroyTrace ++ [.take 1 10, .clone 1 [10], .put 1 10, .drop 1 10] ++ runs 1 0 5 ++ [.panic 1] ++ runs 1 0 17
    (demoL as).1.handles = [] ∧ Quiet (demoL as).1 ∧ ReachND demoCfg (demoL as).1 ∧
      destroyed (all (demoL as).2) = [⟨5, 1, []⟩, ⟨7, 0, [10]⟩] :=
  ⟨by decide +kernel, quiet_of (by decide +kernel), demoL_reach (by decide +kernel), by decide +kernel⟩

end Src.ArcNest
