import Verif.Src.ArcNestFlat
import Verif.Arc.ReentrantInv
/-
Executions with calls inside calls are executions of the model, and are atomic.
-/
namespace Src.ArcNest
open Arc (Addr Tid Cell Cfg Res Thread Pc)
open Src.ArcCode (Var Val Op Glue Mem Stack frameMentions lang Sim Rel Winds It handlesOf deallocsOf dying wind result Removing)

variable {V : Type}

/-! ### One call in an explanation -/

/-- What the model knows about a running call, and what belongs to it in an explanation. -/
def Tracks (c : Running V) (th : Thread V) (p : List (Mark V)) : Prop := match c.call with
  | .new v dst => (th.arg = some v ∨ th.arg = none) ∧
    ((∃ b ds, th.done = some b ∧ Drops c.id ds ∧ p = .inl (.call c.id (.new v dst)) :: .inr (.intern c.id v b) :: ds) ∨
     ∃ ds, th.done = none ∧ Drops c.id ds ∧ p = .inl (.call c.id (.new v dst)) :: ds ∧ (th.pc.dropping = false → ds = []) ∧
      (th.pc.dropping = true → c.stack.any (·.panicking) = true))
  | .drop q => th.done = none ∧ th.pc.dropping = true ∧
    (th.pc = .dropSub q ∧ p = [.inl (.call c.id (.drop q))] ∨ ∃ ds, Drops c.id ds ∧ p = .inl (.call c.id (.drop q)) :: .inr (.drop c.id q) :: ds)

/-- What a step of the model does to the thread of a call. -/
inductive Adv (j : Nat) (th th' : Thread V) : Option (Arc.Op V) → Prop
  | still : (th'.arg = th.arg ∨ th'.arg = none) → th'.done = th.done → (∀ q, th.pc = .dropSub q → th'.pc = .dropSub q) →
      (th.pc.dropping = true → th'.pc.dropping = true) → (th'.pc.dropping = true → th.pc.dropping = true ∨ th.done ≠ none) → Adv j th th' none
  | intern (v : V) (b : Addr) : (th'.arg = th.arg ∨ th'.arg = none) → th.done = none → th.pc.dropping = false → th'.done = some b →
      th.arg = some v → Adv j th th' (some (.intern j v b))
  | drop (q : Addr) : (th'.arg = th.arg ∨ th'.arg = none) → th.pc = .dropSub q → th'.done = th.done → th'.pc.dropping = true →
      Adv j th th' (some (.drop j q))

theorem Adv.refl (j : Nat) (th : Thread V) : Adv j th th none := .still (.inl rfl) rfl (fun _ h => h) (fun h => h) (fun h => .inl h)

theorem Drops.append {j : Nat} {l l' : List (Mark V)} (h : Drops j l) (h' : Drops j l') : Drops j (l ++ l') := by
  intro x hx
  rcases List.mem_append.mp hx with hx | hx
  · exact h x hx
  · exact h' x hx

theorem Drops.nil (j : Nat) : Drops j ([] : List (Mark V)) := by intro x hx; cases hx
theorem Drops.one (j : Nat) (q : Addr) : Drops j ([.inr (.drop j q)] : List (Mark V)) := by
  intro x hx; simp at hx; exact ⟨q, hx⟩

theorem Tracks.adv {c c' : Running V} {th th' : Thread V} {p : List (Mark V)} {o : Option (Arc.Op V)} (h : Tracks c th p)
    (ha : Adv c.id th th' o) (e1 : c'.id = c.id) (e2 : c'.call = c.call)
    (e3 : c.stack.any (·.panicking) = true → c'.stack.any (·.panicking) = true) : Tracks c' th' (p ++ (o.map Sum.inr).toList) := by
  have harg : ∀ v, th.arg = some v ∨ th.arg = none → (th'.arg = th.arg ∨ th'.arg = none) → th'.arg = some v ∨ th'.arg = none := by
    rintro v h (e | e)
    · rw [e]; exact h
    · exact .inr e
  unfold Tracks at h ⊢
  rw [e2, e1]
  cases hc : c.call with
  | new v dst =>
    rw [hc] at h
    obtain ⟨h1, h2⟩ := h
    cases ha with
    | still a1 a2 a3 a4 a5 =>
      refine ⟨harg v h1 a1, ?_⟩
      rw [a2]
      rcases h2 with ⟨b, ds, g1, g2, g3⟩ | ⟨ds, g1, g2, g3, g4, g5⟩
      · exact .inl ⟨b, ds, g1, g2, by simpa using g3⟩
      · refine .inr ⟨ds, g1, g2, by simpa using g3, fun hd => g4 ?_, fun hd => ?_⟩
        · cases hp : th.pc.dropping with
          | false => rfl
          | true => rw [a4 hp] at hd; cases hd
        · rcases a5 hd with h | h
          · exact e3 (g5 h)
          · exact absurd g1 h
    | intern w b a1 a2 a3 a4 a5 =>
      have hwv : w = v := by
        rcases h1 with h | h <;> rw [h] at a5 <;> cases a5; rfl
      subst hwv
      refine ⟨harg w h1 a1, ?_⟩
      rcases h2 with ⟨b', ds, g1, _⟩ | ⟨ds, g1, g2, g3, g4, g5⟩
      · rw [a2] at g1; cases g1
      · rw [g4 a3] at g3
        exact .inl ⟨b, [], a4, .nil _, by simp [g3]⟩
    | drop q a1 a2 a3 a4 =>
      refine ⟨harg v h1 a1, ?_⟩
      rw [a3]
      rcases h2 with ⟨b, ds, g1, g2, g3⟩ | ⟨ds, g1, g2, g3, g4, g5⟩
      · exact .inl ⟨b, ds ++ [.inr (.drop c.id q)], g1, g2.append (.one _ _), by simp [g3]⟩
      · refine .inr ⟨ds ++ [.inr (.drop c.id q)], g1, g2.append (.one _ _), by simp [g3], fun hd => (by rw [a4] at hd; cases hd), fun _ => ?_⟩
        exact e3 (g5 (by rw [a2]; rfl))
  | drop q =>
    rw [hc] at h
    obtain ⟨h1, h2, h3⟩ := h
    cases ha with
    | still a1 a2 a3 a4 a5 =>
      refine ⟨by rw [a2]; exact h1, a4 h2, ?_⟩
      rcases h3 with ⟨g1, g2⟩ | ⟨ds, g1, g2⟩
      · exact .inl ⟨a3 q g1, by simpa using g2⟩
      · exact .inr ⟨ds, g1, by simpa using g2⟩
    | intern w b a1 a2 a3 => rw [h2] at a3; cases a3
    | drop q' a1 a2 a3 a4 =>
      refine ⟨by rw [a3]; exact h1, a4, .inr ?_⟩
      rcases h3 with ⟨g1, g2⟩ | ⟨ds, g1, g2⟩
      · rw [g1] at a2; cases a2
        exact ⟨[], .nil _, by simp [g2]⟩
      · exact ⟨ds ++ [.inr (.drop c.id q')], g1.append (.one _ _), by simp [g2]⟩

/-- A call that has ended by a panic, or not at all. -/
theorem Tracks.proper {c : Running V} {th : Thread V} {p : List (Mark V)} (h : Tracks c th p) : Proper c.id p := by
  unfold Tracks at h
  cases hc : c.call with
  | new v dst =>
    rw [hc] at h
    rcases h.2 with ⟨b, ds, _, g2, g3⟩ | ⟨ds, _, g2, g3, _⟩
    · rw [g3]; exact .newDone v dst b g2
    · rw [g3]; exact .newStarted v dst g2
  | drop q =>
    rw [hc] at h
    rcases h.2.2 with ⟨_, g2⟩ | ⟨ds, g1, g2⟩
    · rw [g2]; exact .dropStarted q
    · rw [g2]; exact .dropDone q g1

/-! ### The thread of a call in the model -/

section
variable [BEq V] [Hashable V] {cfg : Cfg V}

omit [BEq V] [Hashable V] in
theorem rel_scan {fs : Stack V} {th : Thread V} (h : Rel cfg fs th) : (∀ i m, th.pc ≠ .shrinkScan i m) ∧ (∀ i m a, th.pc ≠ .lenScan i m a) ∧ ∀ n, th.pc ≠ .lenDone n := by
  cases h with
  | leave => simp
  | destroy => simp
  | unlock => simp
  | drop hA => 
    cases hA with
    | @test b n => by_cases e : n = 1 <;> simp [e]
    | _ => simp
  | new hA =>
    cases hA with
    | @hit3 c sh n b => by_cases e : n = 0 <;> simp [e]
    | @miss1 c => cases c.conv <;> simp
    | @occ2 c => cases c.dst <;> simp
    | _ => simp

/-- One step of the model on behalf of a call. The first case is the last step of a call of `new`. -/
theorem run_adv {s s' : Arc.State V} (hI : Arc.Inv cfg s) {j : Nat} {a : Addr} (h : Arc.step cfg s (.run j a) = .ok s') {th : Thread V}
    (ht : s.threads[j]? = some th) (hs : (∀ i m, th.pc ≠ .shrinkScan i m) ∧ (∀ i m a, th.pc ≠ .lenScan i m a) ∧ ∀ n, th.pc ≠ .lenDone n) :
    (∃ b, th.pc = .idle ∧ th.todo = [] ∧ th.ret = some b ∧ s'.handles = b :: s.handles ∧ Arc.effect cfg s (.run j a) = none) ∨
    ∃ th', s'.threads[j]? = some th' ∧ Adv j th th' (Arc.effect cfg s (.run j a)) := by
  have hR := Arc.step_R h
  have new : ∀ (x : Thread V), (s.threads.set j x)[j]? = some x := by
    intro x; rw [Arc.set_getElem? _ _ _ _ _ ht, if_pos rfl]
  cases hR with
  | run u a th0 _ hu hr =>
    rw [ht] at hu; cases hu
    have hth := hI.th j th ht
    have hpi := hth.pc
    have hemp := hth.empty
    simp only [Arc.effect, ht]
    cases hr with
    | ret b hpc htodo hret => exact .inl ⟨b, hpc, htodo, hret, rfl, by simp [hpc]⟩
    | hitRet c sh b hpc =>
      refine .inr ⟨_, new _, ?_⟩
      simp only [hpc]
      refine .still (.inl rfl) ?_ (by simp [hpc]) (by simp [hpc, Pc.dropping]) (by simp [hpc, Arc.Thread.done])
      simp only [hpc, Arc.Thread.done, Arc.unwindCall]
      cases c.conv <;> rfl
    | inserted c sh b hpc =>
      refine .inr ⟨_, new _, ?_⟩
      simp only [hpc]
      exact .still (.inl rfl) (by simp [hpc, Arc.Thread.done]) (by simp [hpc]) (by simp [hpc, Pc.dropping]) (by simp [hpc, Arc.Thread.done])
    | hit c sh b x hpc hx hc =>
      refine .inr ⟨_, new _, ?_⟩
      rw [hpc] at hpi hemp
      simp only [hpc, hx, if_pos hc]
      exact .intern _ _ (.inl rfl) (by simp only [Arc.Thread.done, hpc, (hemp rfl).2]) (by rw [hpc]; rfl) rfl hpi.1.1
    | dying c sh b x hpc hx hc =>
      refine .inr ⟨_, new _, ?_⟩
      simp only [hpc, hx, hc, ne_eq, not_true_eq_false, if_false]
      exact .still (.inl rfl) (by simp [hpc, Arc.Thread.done]) (by simp [hpc]) (by simp [hpc, Pc.dropping]) (by simp [Pc.dropping])
    | insert c sh b hpc =>
      refine .inr ⟨_, new _, ?_⟩
      rw [hpc] at hpi hemp
      simp only [hpc]
      exact .intern _ _ (.inl rfl) (by simp only [Arc.Thread.done, hpc, (hemp rfl).2]) (by rw [hpc]; rfl) rfl hpi.1.1
    | subLast b x hpc hx hc =>
      refine .inr ⟨_, new _, ?_⟩
      simp only [hpc]
      exact .drop b (.inl rfl) hpc (by simp [hpc, Arc.Thread.done]) rfl
    | sub b x hpc hx hc =>
      refine .inr ⟨_, new _, ?_⟩
      simp only [hpc]
      exact .drop b (.inl rfl) hpc (by simp [hpc, Arc.Thread.done]) rfl
    | shrinkEnd i m hpc _ => exact absurd hpc (hs.1 i m)
    | lenScan i m acc hpc _ _ => exact absurd hpc (hs.2.1 i m acc)
    | lenEnd i m acc hpc _ => exact absurd hpc (hs.2.1 i m acc)
    | lenDone n hpc => exact absurd hpc (hs.2.2 n)
    | _ =>
      rename_i hpc
      first
      | (refine .inr ⟨_, new _, ?_⟩
         simp only [hpc]
         exact .still (.inl rfl) (by simp [hpc, Arc.Thread.done]) (by simp [hpc]) (by simp [hpc, Pc.dropping]) (by simp [hpc, Pc.dropping]))
      | (refine .inr ⟨_, new _, ?_⟩
         simp only [*]
         exact .still (.inl rfl) (by simp [*, Arc.Thread.done]) (by simp [*]) (by simp [*, Pc.dropping]) (by simp [*, Pc.dropping]))

/-- A panic. -/
theorem panic_adv {s s' : Arc.State V} (hI : Arc.Inv cfg s) {j : Nat} (h : Arc.step cfg s (.panic j) = .ok s') {th : Thread V}
    (ht : s.threads[j]? = some th) : ∃ th', s'.threads[j]? = some th' ∧ (th'.arg = th.arg ∨ th'.arg = none) ∧ th'.done = th.done ∧
      (∀ q, th.pc ≠ .dropSub q) ∧ th'.pc.dropping = true := by
  have hR := Arc.step_R h
  have new : ∀ (x : Thread V), (s.threads.set j x)[j]? = some x := by
    intro x; rw [Arc.set_getElem? _ _ _ _ _ ht, if_pos rfl]
  cases hR with
  | panicLoop _ th0 c hu hpc =>
    rw [ht] at hu; cases hu
    have hnr := (hI.th j th ht).empty (by rw [hpc]; rfl)
    refine ⟨_, new _, .inr rfl, ?_, by simp [hpc], ?_⟩
    · simp only [Arc.Thread.done, hpc, hnr.2, Arc.unwindCall]; cases c.conv <;> rfl
    · simp only [Arc.unwindCall]; cases c.conv <;> rfl
  | panicEntry _ th0 c b hu hpc =>
    rw [ht] at hu; cases hu
    have hnr := (hI.th j th ht).empty (by rw [hpc]; rfl)
    exact ⟨_, new _, .inr rfl, by simp [Arc.Thread.done, hpc, hnr.2], by simp [hpc], rfl⟩
  | panicShrink _ th0 i m hu hpc =>
    rw [ht] at hu; cases hu
    exact ⟨_, new _, .inl rfl, by simp [Arc.Thread.done, hpc], by simp [hpc], rfl⟩
  | panicRemove _ th0 b hu hpc =>
    rw [ht] at hu; cases hu
    exact ⟨_, new _, .inl rfl, by simp [Arc.Thread.done, hpc], by simp [hpc], rfl⟩

/-! ### Explanations -/

omit [BEq V] [Hashable V] in
theorem part_append (j : Nat) (l l' : List (Mark V)) : part j (l ++ l') = part j l ++ part j l' := by simp [part]
omit [BEq V] [Hashable V] in
theorem events_append (l l' : List (Mark V)) : events (l ++ l') = events l ++ events l' := by simp [events]
omit [BEq V] [Hashable V] in
theorem ops_append (l l' : List (Mark V)) : ops (l ++ l') = ops l ++ ops l' := by simp [ops]
omit [BEq V] [Hashable V] in
theorem part_own {j : Nat} {l : List (Mark V)} (h : ∀ x ∈ l, who x = j) : part j l = l := by
  simp only [part]
  rw [List.filter_eq_self]
  intro x hx; simp [h x hx]
omit [BEq V] [Hashable V] in
theorem part_other {j k : Nat} {l : List (Mark V)} (h : ∀ x ∈ l, who x = j) (hk : k ≠ j) : part k l = [] := by
  simp only [part]
  rw [List.filter_eq_nil_iff]
  intro x hx; simp [h x hx, Ne.symm hk]

omit [Hashable V] in
theorem specRun_trans {a b c : Arc.Abs V} {os os' : List (Arc.Op V)} (h : Arc.SpecRun a os b) (h' : Arc.SpecRun b os' c) :
    Arc.SpecRun a (os ++ os') c := by
  induction h with
  | done => exact h'
  | stutter h1 _ ih => exact .stutter h1 (ih h')
  | op h1 _ ih => exact .op h1 (ih h')

/-- The empty interner. -/
def empty : Arc.Abs V := ⟨[], fun _ => none⟩

/-- What holds in all states: the state, an explanation of its history, and the states of the code without nesting and of the model. -/
structure Good (cfg : Cfg V) (N : State V) (l : List (Mark V)) (S : ArcCode.State V) (s : Arc.State V) : Prop where
  flat : Flat N S
  sim : Sim cfg S s
  inv : Arc.Inv cfg s
  ev : events l = N.hist.reverse
  spec : Arc.SpecRun empty (ops l) (Arc.abs cfg s)
  old : ∀ j, j ∉ ids N → Proper j (part j l)
  fut : ∀ j, N.next ≤ j → part j l = []
  run : ∀ cs ∈ N.threads, ∀ c ∈ cs, ∃ th, s.threads[c.id]? = some th ∧ Tracks c th (part c.id l)

/-- Call number `j` takes a step, which explains `l2`. -/
theorem Good.go {N : State V} {l : List (Mark V)} {S : ArcCode.State V} {s : Arc.State V} (h : Good cfg N l S s) {N' : State V}
    {S' : ArcCode.State V} {s' : Arc.State V} (l2 : List (Mark V)) (j : Nat) (hflat : Flat N' S') (hsim : Sim cfg S' s')
    (hinv : Arc.Inv cfg s') (hev : N'.hist = (events l2).reverse ++ N.hist) (hspec : Arc.SpecRun (Arc.abs cfg s) (ops l2) (Arc.abs cfg s'))
    (hwho : ∀ x ∈ l2, who x = j) (hn : N.next ≤ N'.next) (hj : j < N'.next)
    (hth : ∀ k th, k ≠ j → s.threads[k]? = some th → s'.threads[k]? = some th)
    (hkeep : ∀ k, k ≠ j → k ∈ ids N → k ∈ ids N')
    (hold : ∀ cs ∈ N'.threads, ∀ c ∈ cs, c.id ≠ j → ∃ cs0 ∈ N.threads, c ∈ cs0)
    (hrun : ∀ cs ∈ N'.threads, ∀ c ∈ cs, c.id = j → ∃ th, s'.threads[j]? = some th ∧ Tracks c th (part j l ++ l2))
    (hend : j ∉ ids N' → Proper j (part j l ++ l2)) : Good cfg N' (l ++ l2) S' s' := by
  refine ⟨hflat, hsim, hinv, ?_, ?_, ?_, ?_, ?_⟩
  · rw [events_append, h.ev, hev]; simp
  · rw [ops_append]; exact specRun_trans h.spec hspec
  · intro k hk
    rw [part_append]
    by_cases e : k = j
    · subst e; rw [part_own hwho]; exact hend hk
    · rw [part_other hwho e, List.append_nil]
      exact h.old k (fun hm => hk (hkeep k e hm))
  · intro k hk
    have e : k ≠ j := by rintro rfl; omega
    rw [part_append, part_other hwho e, List.append_nil]
    exact h.fut k (Nat.le_trans hn hk)
  · intro cs hcs c hc
    by_cases e : c.id = j
    · obtain ⟨th, h1, h2⟩ := hrun cs hcs c hc e
      rw [part_append, e, part_own hwho]
      exact ⟨th, h1, h2⟩
    · obtain ⟨cs0, h0, hc0⟩ := hold cs hcs c hc e
      obtain ⟨th, h1, h2⟩ := h.run cs0 h0 c hc0
      rw [part_append, part_other hwho e, List.append_nil]
      exact ⟨th, hth _ _ e h1, h2⟩

omit [BEq V] [Hashable V] in
theorem abs_perm {s s' : Arc.State V} (h1 : ∀ p, Arc.A cfg s' p = Arc.A cfg s p) (h2 : s'.heap = s.heap) :
    (Arc.abs cfg s).stutters (Arc.abs cfg s') := by
  refine ⟨fun p _ _ => ?_, List.perm_iff_count.mpr h1⟩
  simp [Arc.abs, Arc.deref, h2]

/-- A new thread in the model. -/
theorem spawn_sim {S : ArcCode.State V} {s : Arc.State V} (h : Sim cfg S s) (hI : Arc.Inv cfg s) :
    ∃ s1, s1 = { s with threads := s.threads ++ [{}] } ∧ Sim cfg { S with threads := S.threads ++ [[]] } s1 ∧ Arc.Inv cfg s1 ∧
      (Arc.abs cfg s).stutters (Arc.abs cfg s1) := by
  have hA : ∀ p, Arc.A cfg ({ s with threads := s.threads ++ [{}] } : Arc.State V) p = Arc.A cfg s p := by
    intro p
    rw [Arc.A_eq, Arc.A_eq]
    simp [Thread.owned, Pc.owned]
  refine ⟨_, rfl, ?_, Arc.inv_spawn hI, abs_perm hA rfl⟩
  refine ⟨?_, h.handles, by simp [h.len], ?_, ?_, ?_⟩
  · have : (S.threads ++ [[]]).flatMap dying = S.threads.flatMap dying := by simp [dying]
    rw [this]; exact ⟨h.shared.table, h.shared.locks, h.shared.heap⟩
  · intro t fs th h1 h2
    simp only at h1 h2
    by_cases ht : t < S.threads.length
    · rw [List.getElem?_append_left ht] at h1
      rw [List.getElem?_append_left (by rw [h.len]; exact ht)] at h2
      exact h.th t fs th h1 h2
    · rw [List.getElem?_append_right (Nat.le_of_not_lt ht)] at h1
      rw [List.getElem?_append_right (by rw [h.len]; exact Nat.le_of_not_lt ht), h.len] at h2
      have : t - S.threads.length = 0 := by
        rcases Nat.eq_zero_or_pos (t - S.threads.length) with h | h
        · exact h
        · rw [List.getElem?_eq_none (by simpa using Nat.succ_le_of_lt h)] at h1; cases h1
      rw [this] at h1 h2
      cases h1; cases h2
      exact .leave .nil rfl
  · have : (S.threads ++ [[]]).flatMap dying = S.threads.flatMap dying := by simp [dying]
    rw [this]; exact h.alloc
  · have : (S.threads ++ [[]]).flatMap dying = S.threads.flatMap dying := by simp [dying]
    rw [this]; exact h.nodup

end
end Src.ArcNest
