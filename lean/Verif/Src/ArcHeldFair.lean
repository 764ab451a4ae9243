import Verif.Src.ArcHeldInv
import Verif.Src.ArcNestFair
/-
Infinite executions of the code with calls made by user code also while a lock is held, under a fair scheduler (C89): vocabulary and proof.
-/
namespace Src.ArcHeld
open Arc (Addr Tid Cell Cfg Res Thread Pc)
open Src.ArcCode (Var Val Op Glue Mem Stack lang Rel Winds dataOf work)
open Src.ArcNest (Running Few Good Quiet Shadow Okay Link running)

variable {V : Type} [BEq V] [Hashable V] {cfg : Cfg V}

/-- An infinite execution from the start of the process: at every instant some action happens, or nothing does. Every action but a panic
inside the removal of a drop (C20) may occur. -/
def Execution (cfg : Cfg V) (σ : Nat → State V) (α : Nat → Option (Act V)) : Prop :=
  σ 0 = init ∧ ∀ i, match α i with
    | none => σ (i + 1) = σ i
    | some a => ¬ dropPanic (σ i) a ∧ step cfg (σ i) a = .ok (σ (i + 1)) ∧ Few cfg (σ (i + 1)).base

/-- Thread `t` can go on with the innermost call that it is executing: take the lock that it needs, or do its next step. -/
def Enabled (cfg : Cfg V) (t : Tid) (X : State V) : Prop :=
  (∃ X', step cfg X (.lock t) = .ok X') ∨ ∃ a X', step cfg X (.act (.run t a)) = .ok X'

omit [BEq V] [Hashable V] in
/-- Thread `t` goes on with its innermost call at instant `i`. -/
def StepsAt (α : Nat → Option (Act V)) (t : Tid) (i : Nat) : Prop := α i = some (.lock t) ∨ ∃ a, α i = some (.act (.run t a))

/-- A thread that can step again and again does step again and again: the operating system runs every thread, and no thread loses the
competition for a lock for ever. -/
def StronglyFair (cfg : Cfg V) (σ : Nat → State V) (α : Nat → Option (Act V)) : Prop :=
  ∀ t, (∀ i, ∃ j, i ≤ j ∧ Enabled cfg t (σ j)) → ∀ i, ∃ j, i ≤ j ∧ StepsAt α t j

omit [BEq V] [Hashable V] in
/-- From some instant on, clients and user code start no calls and move no handles, and user code does not panic. -/
def FinitelyManyCalls (α : Nat → Option (Act V)) : Prop := ∃ n, ∀ i, n ≤ i → ∀ a, α i = some a → ∃ t, StepsAt α t i

/-- The last handle to an object has been dropped, and call `c` is going to remove the object from the table, or removing it. -/
def removing (cfg : Cfg V) (c : Running V) : Bool := c.stack.head?.any fun f => match nextOp cfg f with
  | some (.remove _) => true
  | _ => false

/-- Others may have to wait for call number `j` in shard `sh`: it holds the lock, or it is going to remove an object. -/
def Blocks (cfg : Cfg V) (X : State V) (j sh : Nat) : Prop :=
  Holds X j sh ∨ ∃ cs ∈ X.base.threads, ∃ c ∈ cs, c.id = j ∧ removing cfg c = true ∧ lookup cfg X.base.mem c = some sh

/-- A hierarchy of shards: while others may have to wait for a call in a shard, the calls that user code makes inside it look up in shards
of lower rank only. -/
def Ranked (cfg : Cfg V) (rank : Nat → Nat) (X : State V) : Prop :=
  ∀ c cs, (c :: cs) ∈ X.base.threads → ∀ sh, lookup cfg X.base.mem c = some sh →
    ∀ o ∈ cs, ∀ sh', Blocks cfg X o.id sh' → rank sh < rank sh'

/-! ### Suspended calls -/

omit [BEq V] [Hashable V] in
/-- A call inside which user code makes calls is at a place where user code runs. -/
def Susp (N : ArcNest.State V) : Prop := ∀ cs ∈ N.threads, ∀ c ∈ cs.tail, (c.inUser || c.stack.head?.any inInsert) = true

theorem susp_step {N N' : ArcNest.State V} {act : ArcNest.Act V} (h : Susp N) (e : ArcNest.step cfg N act mayCall = .ok N') : Susp N' := by
  have same : N'.threads = N.threads → Susp N' := fun h1 cs hcs => h cs (h1 ▸ hcs)
  have set : ∀ (t : Tid) (new : List (Running V)), N'.threads = N.threads.set t new →
      (∀ c ∈ new.tail, (c.inUser || c.stack.head?.any inInsert) = true) → Susp N' := by
    intro t new h1 h2 cs hcs
    rw [h1] at hcs
    rcases List.mem_or_eq_of_mem_set hcs with hcs | rfl
    · exact h cs hcs
    · exact h2
  have old : ∀ {t : Tid} {c : Running V} {cs : List (Running V)}, N.threads[t]? = some (c :: cs) →
      ∀ o ∈ cs, (o.inUser || o.stack.head?.any inInsert) = true := fun ht => h _ (List.mem_of_getElem? ht)
  have push : ∀ {t : Tid} {cs : List (Running V)}, N.threads[t]? = some cs → mayCall cs = true →
      ∀ o ∈ cs, (o.inUser || o.stack.head?.any inInsert) = true := by
    intro t cs ht hm o ho
    cases cs with
    | nil => cases ho
    | cons c cs =>
      rcases List.mem_cons.mp ho with rfl | ho
      · exact hm
      · exact old ht o ho
  cases act with
  | spawn =>
    cases e
    intro cs hcs
    rcases List.mem_append.mp hcs with hcs | hcs
    · exact h cs hcs
    · rw [List.mem_singleton.mp hcs]; exact fun c hc => by cases hc
  | new t v dst =>
    simp only [ArcNest.step] at e
    split at e
    · rename_i cs ht
      split at e
      · rename_i hc
        simp only [Bool.and_eq_true] at hc
        cases e; exact set t _ rfl (push ht hc.1)
      · cases e
    · cases e
  | drop t p =>
    simp only [ArcNest.step] at e
    split at e
    · rename_i cs ht
      split at e
      · rename_i hc
        simp only [Bool.and_eq_true] at hc
        cases e; exact set t _ rfl (push ht hc.1)
      · cases e
    · cases e
  | clone t path =>
    simp only [ArcNest.step] at e
    (repeat' split at e) <;> first | (cases e; done) | (cases e; exact same rfl)
  | read t path =>
    simp only [ArcNest.step] at e
    (repeat' split at e) <;> first | (cases e; done) | (cases e; exact same rfl)
  | take t p =>
    simp only [ArcNest.step] at e
    (repeat' split at e) <;> first | (cases e; done) | (cases e; exact set t _ rfl (old (by assumption)))
  | put t p =>
    simp only [ArcNest.step] at e
    (repeat' split at e) <;> first | (cases e; done) | (cases e; exact set t _ rfl (old (by assumption)))
  | run t a =>
    simp only [ArcNest.step] at e
    split at e
    · rename_i c cs ht
      split at e
      · cases e; exact set t _ rfl fun o ho => old ht o (List.mem_of_mem_tail ho)
      · cases e; exact set t _ rfl (old ht)
      · cases e
      · cases e
    · cases e
  | panic t =>
    simp only [ArcNest.step] at e
    split at e
    · rename_i c cs ht
      split at e
      · cases e; exact set t _ rfl (old ht)
      · cases e
      · cases e
    · cases e

theorem susp_reach {X : State V} (h : Reach cfg X) : Susp X.base := by
  induction h with
  | init => intro cs hcs; cases hcs
  | step _ e _ ih =>
    rcases step_base e with ⟨_, _, _, _, _, rfl⟩ | ⟨_, _, e, _⟩
    · exact ih
    · exact susp_step ih e

/-- Where the code is when the model is going to remove `b`. -/
theorem rel_remove {f : Frame Var (Val V) Op (Glue V)} {fs : Stack V} {th : Thread V} (h : Rel cfg (f :: fs) th) {b : Addr}
    (hpc : th.pc = .dropRemove b) :
    (nextOp cfg f = some (.remove .self) ∧ ∀ m, frameShard cfg m f = shardAt cfg m b) ∨
      ((∀ m, frameShard cfg m f = none) ∧ ArcNest.inDestructor f = false ∧ ArcNest.inHash f = false ∧ inInsert f = false) := by
  cases h with
  | leave => cases hpc
  | destroy => cases hpc
  | unlock => cases hpc
  | drop hA =>
    cases hA with
    | sub => cases hpc
    | @test b' n =>
      exact .inr ⟨fun _ => rfl, rfl, rfl, rfl⟩
    | remove => cases hpc; exact .inl ⟨rfl, fun _ => rfl⟩
    | _ => exact .inr ⟨fun _ => rfl, rfl, rfl, rfl⟩
  | new hA =>
    exfalso
    cases hA <;> simp at hpc
    all_goals (split at hpc <;> cases hpc)

/-! ### Following the model -/

/-- One instant. -/
inductive HLink (cfg : Cfg V) (X X' : State V) (x y : Shadow V) : Option (Act V) → Prop
  | skip : X' = X → y.act = none → y.model = x.model → HLink cfg X X' x y none
  | lock (t : Tid) : step cfg X (.lock t) = .ok X' → y.act = none → y.model = x.model → HLink cfg X X' x y (some (.lock t))
  | run (t : Tid) (a : Addr) : step cfg X (.act (.run t a)) = .ok X' → Link cfg X.base X'.base x y (some (.run t a)) →
      HLink cfg X X' x y (some (.act (.run t a)))

/-- An execution in which only running calls go on, beside one of the model that has settled. -/
structure Track (cfg : Cfg V) (τ : Nat → State V) (β : Nat → Option (Act V)) (x : Nat → Shadow V) : Prop where
  reach : ∀ i, Reach cfg (τ i)
  okay : ∀ i, Okay cfg (τ i).base (x i)
  link : ∀ i, HLink cfg (τ i) (τ (i + 1)) (x i) (x (i + 1)) (β i)
  fair : StronglyFair cfg τ β
  /-- no call ends. -/
  same : ∀ i, running (τ (i + 1)).base = running (τ i).base
  calm : Arc.Retrying cfg (fun i => (x i).model) (fun i => (x (i + 1)).act) 0

omit [BEq V] [Hashable V] in
theorem uniq_ids : ∀ {l : List (List (Running V))}, (∀ j, (l.flatMap fun cs => cs.map (·.id)).count j ≤ 1) → ∀ {t u : Nat}
    {cs ds : List (Running V)} {c d : Running V}, l[t]? = some cs → l[u]? = some ds → c ∈ cs → d ∈ ds → c.id = d.id → t = u ∧ c = d
  | [], _, t, _, _, _, _, _, ht, _, _, _, _ => by simp at ht
  | a :: l, h, t, u, cs, ds, c, d, ht, hu, hc, hd, e => by
    have pos : ∀ {k : Nat} {es : List (Running V)} {o : Running V}, l[k]? = some es → o ∈ es → 0 < (l.flatMap fun cs => cs.map (·.id)).count o.id := by
      intro k es o hk ho
      exact List.count_pos_iff.mpr (List.mem_flatMap.mpr ⟨es, List.mem_of_getElem? hk, List.mem_map.mpr ⟨o, ho, rfl⟩⟩)
    have pos' : ∀ {o : Running V}, o ∈ a → 0 < (a.map (·.id)).count o.id := fun ho => List.count_pos_iff.mpr (List.mem_map.mpr ⟨_, ho, rfl⟩)
    simp only [List.flatMap_cons, List.count_append] at h
    cases t with
    | zero =>
      simp only [List.getElem?_cons_zero, Option.some.injEq] at ht
      subst ht
      cases u with
      | zero =>
        simp only [List.getElem?_cons_zero, Option.some.injEq] at hu
        subst hu
        refine ⟨rfl, ?_⟩
        have hn : (a.map (·.id)).Nodup := List.nodup_iff_count.mpr fun j => by have := h j; omega
        obtain ⟨p, hp⟩ := List.getElem?_of_mem hc
        obtain ⟨q, hq⟩ := List.getElem?_of_mem hd
        have h1 : (a.map (·.id))[p]? = some c.id := by rw [List.getElem?_map, hp, Option.map_some]
        have h2 : (a.map (·.id))[q]? = some c.id := by rw [List.getElem?_map, hq, Option.map_some, e]
        have hpl := (List.getElem?_eq_some_iff.mp h1).1
        have := (List.getElem?_inj hpl hn).mp (h1.trans h2.symm)
        subst this
        rw [hp] at hq; exact Option.some.inj hq
      | succ u =>
        rw [List.getElem?_cons_succ] at hu
        have h1 := pos' hc
        have h2 := pos hu hd
        rw [← e] at h2
        have := h c.id
        omega
    | succ t =>
      rw [List.getElem?_cons_succ] at ht
      cases u with
      | zero =>
        simp only [List.getElem?_cons_zero, Option.some.injEq] at hu
        subst hu
        have h1 := pos' hd
        have h2 := pos ht hc
        rw [e] at h2
        have := h d.id
        omega
      | succ u =>
        rw [List.getElem?_cons_succ] at hu
        have := uniq_ids (l := l) (fun j => by have := h j; omega) ht hu hc hd e
        exact ⟨by rw [this.1], this.2⟩

omit [BEq V] [Hashable V] in
/-- Different calls have different numbers. -/
theorem other_id {N : ArcNest.State V} {S : ArcCode.State V} (h : ArcNest.Flat N S) {t u : Tid} {cs ds : List (Running V)} {c d : Running V}
    (ht : N.threads[t]? = some cs) (hu : N.threads[u]? = some ds) (hc : c ∈ cs) (hd : d ∈ ds) (e : c.id = d.id) : t = u ∧ c = d :=
  uniq_ids h.nodup ht hu hc hd e

omit [BEq V] [Hashable V] in
/-- A call is not called by itself. -/
theorem inner_id {N : ArcNest.State V} {S : ArcCode.State V} (h : ArcNest.Flat N S) {t : Tid} {cs : List (Running V)} {c o : Running V}
    (ht : N.threads[t]? = some (c :: cs)) (ho : o ∈ cs) : o.id ≠ c.id := by
  intro e
  have hn : ((c :: cs).map (·.id)).count c.id ≤ 1 := by
    refine Nat.le_trans ?_ (h.nodup c.id)
    exact (List.sublist_flatten_of_mem (List.mem_map.mpr ⟨c :: cs, List.mem_of_getElem? ht, rfl⟩)).count_le _
  have h2 : 0 < (cs.map (·.id)).count c.id := List.count_pos_iff.mpr (List.mem_map.mpr ⟨o, ho, e⟩)
  simp only [List.map_cons, List.count_cons_self] at hn
  omega

namespace Track
variable {τ : Nat → State V} {β : Nat → Option (Act V)} {x : Nat → Shadow V}

/-- The action of the model at instant `i`. -/
abbrev acts (x : Nat → Shadow V) (i : Nat) : Option (Arc.Act V) := (x (i + 1)).act

theorem next (T : Track cfg τ β x) {i : Nat} {t : Tid} {c : Running V} {cs : List (Running V)} (ht : (τ i).base.threads[t]? = some (c :: cs)) :
    ∃ fs, (τ (i + 1)).base.threads[t]? = some ({ c with stack := fs } :: cs) ∧
      ((∀ a, β i ≠ some (.act (.run t a))) ∧ fs = c.stack ∨
        (∃ a, β i = some (.act (.run t a))) ∧ (work cfg fs < work cfg c.stack ∨ Arc.RunsAt (acts x) c.id i)) := by
  have hl := T.link i
  have hs := T.same i
  generalize hb : β i = b at hl
  cases hl with
  | skip e _ _ => exact ⟨c.stack, by rw [e]; exact ht, .inl ⟨nofun, rfl⟩⟩
  | lock u e _ _ =>
    refine ⟨c.stack, ?_, .inl ⟨nofun, rfl⟩⟩
    rcases step_base e with ⟨_, _, _, _, _, e⟩ | ⟨_, h, _⟩
    · rw [e]; exact ht
    · cases h
  | run u a _ hl =>
    cases hl with
    | run _ _ c' cs' hu hact hthr =>
      have hpop : ¬ (τ (i + 1)).base.threads = (τ i).base.threads.set u cs' := by
        intro e
        have := ArcNest.sum_length_set hu
        simp only [running, e] at hs
        omega
      rcases hthr with e | ⟨fs, e, hw⟩
      · exact absurd e hpop
      · by_cases hut : u = t
        · subst hut
          rw [ht] at hu; cases hu
          refine ⟨fs, by rw [e, Arc.set_getElem? _ _ _ _ _ ht, if_pos rfl], .inr ⟨⟨a, rfl⟩, ?_⟩⟩
          rcases hact with ⟨h1, _⟩ | ⟨h1, _⟩
          · exact .inl (hw h1)
          · exact .inr ⟨a, h1⟩
        · refine ⟨c.stack, ?_, .inl ⟨?_, rfl⟩⟩
          · rw [e, Arc.set_getElem? _ _ _ _ _ hu, if_neg (fun h => hut h.symm)]; exact ht
          · intro a' ha'
            simp only [Option.some.injEq, Act.act.injEq, ArcNest.Act.run.injEq] at ha'
            exact hut ha'.1

/-- The innermost call of a thread stays the same. -/
theorem stays (T : Track cfg τ β x) {i : Nat} {t : Tid} {c : Running V} {cs : List (Running V)} (ht : (τ i).base.threads[t]? = some (c :: cs)) :
    ∀ j, i ≤ j → ∃ fs, (τ j).base.threads[t]? = some ({ c with stack := fs } :: cs) := by
  intro j hj
  induction hj with
  | refl => exact ⟨c.stack, ht⟩
  | step _ ih =>
    obtain ⟨fs, ih⟩ := ih
    obtain ⟨fs', h, _⟩ := T.next ih
    exact ⟨fs', h⟩

/-- A thread that does not run stays as it is. -/
theorem frozen (T : Track cfg τ β x) {i : Nat} {t : Tid} {c : Running V} {cs : List (Running V)} (ht : (τ i).base.threads[t]? = some (c :: cs)) :
    ∀ j, i ≤ j → (∀ k, i ≤ k → k < j → ∀ a, β k ≠ some (.act (.run t a))) → (τ j).base.threads[t]? = some (c :: cs) := by
  intro j hj
  induction hj with
  | refl => intro _; exact ht
  | @step j hj ih =>
    intro h
    obtain ⟨fs, h1, h2⟩ := T.next (ih fun k h1 h2 => h k h1 (Nat.lt_succ_of_lt h2))
    rcases h2 with ⟨_, rfl⟩ | ⟨⟨a, h2⟩, _⟩
    · exact h1
    · exact absurd h2 (h j hj (Nat.lt_succ_self _) a)

/-- The thread of the model that steps belongs to an innermost call. -/
theorem acts_head (T : Track cfg τ β x) {i : Nat} {u : Tid} (h : Arc.RunsAt (acts x) u i) :
    ∃ t c cs a, (τ i).base.threads[t]? = some (c :: cs) ∧ c.id = u ∧ β i = some (.act (.run t a)) ∧
      step cfg (τ i) (.act (.run t a)) = .ok (τ (i + 1)) := by
  obtain ⟨a, ha⟩ := h
  have hl := T.link i
  generalize hb : β i = b at hl
  cases hl with
  | skip _ e _ => simp only [acts, e] at ha; cases ha
  | lock _ _ e _ => simp only [acts, e] at ha; cases ha
  | run t a' e hl =>
    cases hl with
    | run _ _ c cs hu hact hthr =>
      rcases hact with ⟨e', _⟩ | ⟨e', _⟩
      · simp only [acts, e'] at ha; cases ha
      · simp only [acts, e', Option.some.injEq, Arc.Act.run.injEq] at ha
        exact ⟨t, c, cs, a', hu, ha.1, rfl, e⟩

/-- A lock taken for a lookup is kept until the call goes on. -/
theorem held_keep (T : Track cfg τ β x) {i : Nat} {sh j : Nat} (h : (sh, j) ∈ (τ i).held)
    (hn : ∀ t a c cs, β i = some (.act (.run t a)) → (τ i).base.threads[t]? = some (c :: cs) → c.id ≠ j) : (sh, j) ∈ (τ (i + 1)).held := by
  have hl := T.link i
  generalize hb : β i = b at hl
  cases hl with
  | skip e _ _ => rw [e]; exact h
  | lock t e _ _ =>
    rcases step_base e with ⟨_, _, _, _, _, e⟩ | ⟨_, h, _⟩
    · rw [e]; exact List.mem_cons_of_mem _ h
    · cases h
  | run t a e _ =>
    rcases step_base e with ⟨_, _, h, _⟩ | ⟨_, h1, _, h2⟩
    · cases h
    · cases h1
      rcases h2 with ⟨h2, _⟩ | ⟨u, k, h3, h4, h5⟩
      · rw [h2]; exact h
      · rw [h4]
        have hu : u = t := by
          rcases h5 with h5 | ⟨_, _, h5⟩ <;> cases h5
          rfl
        subst hu
        obtain ⟨c, cs, g1, g2, _⟩ := needs_some h3
        refine (List.mem_erase_of_ne fun e => ?_).mpr h
        rw [← e] at g2
        exact hn u a c cs hb g1 g2

/-- A call that goes on again and again steps again and again in the model. -/
theorem moves [EquivBEq V] [LawfulHashable V] (hv : cfg.Valid) (T : Track cfg τ β x) {i : Nat} {t : Tid} {c : Running V} {cs : List (Running V)} (ht : (τ i).base.threads[t]? = some (c :: cs))
    (hr : ∀ k, ∃ j, k ≤ j ∧ StepsAt β t j) : ∀ k, ∃ j, k ≤ j ∧ Arc.RunsAt (acts x) c.id j := by
  intro k
  refine Classical.byContradiction fun hno => ?_
  have hno' : ∀ j, k ≤ j → ¬ Arc.RunsAt (acts x) c.id j := fun j h1 h2 => hno ⟨j, h1, h2⟩
  have key : ∀ j, max i k ≤ j → (ArcNest.Track.left cfg (τ (j + 1)).base t = ArcNest.Track.left cfg (τ j).base t ∨
      ArcNest.Track.left cfg (τ (j + 1)).base t < ArcNest.Track.left cfg (τ j).base t) ∧
      ((∃ a, β j = some (.act (.run t a))) → ArcNest.Track.left cfg (τ (j + 1)).base t < ArcNest.Track.left cfg (τ j).base t) := by
    intro j hj
    have h1 := Nat.le_max_left i k
    have h2 := Nat.le_max_right i k
    obtain ⟨fs, hfs⟩ := T.stays ht j (by omega)
    obtain ⟨fs', hfs', h⟩ := T.next hfs
    have e1 : ArcNest.Track.left cfg (τ j).base t = work cfg fs := by simp only [ArcNest.Track.left, hfs]
    have e2 : ArcNest.Track.left cfg (τ (j + 1)).base t = work cfg fs' := by simp only [ArcNest.Track.left, hfs']
    rw [e1, e2]
    rcases h with ⟨h3, h4⟩ | ⟨_, h4 | h4⟩
    · exact ⟨.inl (by rw [h4]), fun ⟨a, h⟩ => absurd h (h3 a)⟩
    · exact ⟨.inr h4, fun _ => h4⟩
    · exact absurd h4 (hno' j (by omega))
  obtain ⟨M, hM, hc⟩ := Arc.eventually_const Nat.lt_wfRel.wf (fun j => ArcNest.Track.left cfg (τ j).base t) (max i k) (fun j hj => (key j hj).1)
  have hnr : ∀ j, M ≤ j → ∀ a, β j ≠ some (.act (.run t a)) := fun j h1 a h2 => hc j h1 ((key j (by omega)).2 ⟨a, h2⟩)
  have lock : ∀ j, M ≤ j → StepsAt β t j → β j = some (.lock t) := by
    rintro j hj (h | ⟨a, h⟩)
    · exact h
    · exact absurd h (hnr j hj a)
  obtain ⟨j1, g1, g2⟩ := hr M
  obtain ⟨j2, g3, g4⟩ := hr (j1 + 1)
  replace g2 := lock j1 g1 g2
  replace g4 := lock j2 (by omega) g4
  have h1 := Nat.le_max_left i k
  obtain ⟨fs, hfs⟩ := T.stays ht j1 (by omega)
  have fz : ∀ j, j1 ≤ j → (τ j).base.threads[t]? = some ({ c with stack := fs } :: cs) :=
    fun j hj => T.frozen hfs j hj fun k hk _ => hnr k (by omega)
  have lk : ∀ j, β j = some (.lock t) → ∃ h, needs cfg (τ j).base t = some h ∧ (τ j).taken h.1 = false ∧ (τ (j + 1)).held = h :: (τ j).held := by
    intro j hj
    have hl := T.link j
    rw [hj] at hl
    cases hl with
    | lock _ e _ _ =>
      rcases step_base e with ⟨_, h, e1, e2, e3, e4⟩ | ⟨_, h, _⟩
      · cases e1; exact ⟨h, e2, e3, by rw [e4]⟩
      · cases h
  obtain ⟨h, q1, q2, q3⟩ := lk j1 g2
  obtain ⟨h', q1', q2', _⟩ := lk j2 g4
  obtain ⟨c1, cs1, w1, w2, w3⟩ := needs_some q1
  rw [hfs] at w1; cases w1
  have keep : ∀ j, j1 + 1 ≤ j → h ∈ (τ j).held := by
    intro j hj
    induction hj with
    | refl => rw [q3]; exact List.mem_cons_self
    | @step j hj ih =>
      refine T.held_keep ih fun u a d ds hb hu e => ?_
      have := other_id (T.okay j).flat hu (fz j (by have : j1 + 1 ≤ j := hj; omega)) List.mem_cons_self List.mem_cons_self (e.trans w2.symm)
      rw [this.1] at hb
      exact hnr j (by have : j1 + 1 ≤ j := hj; omega) a hb
  obtain ⟨c2, cs2, w1', w2', w3'⟩ := needs_some q1'
  rw [fz j2 (by omega)] at w1'; cases w1'
  obtain ⟨ds, r1, d, r2, r3, r4⟩ := (good_reach hv (T.reach j2)).2.run h (keep j2 g3)
  obtain ⟨u, hu⟩ := List.getElem?_of_mem r1
  obtain ⟨rfl, rfl⟩ := other_id (T.okay j2).flat hu (fz j2 (by omega)) r2 List.mem_cons_self (r3.trans w2.symm)
  rw [w3'] at r4
  exact (taken_false q2').2 h (keep j2 g3) (Option.some.inj r4).symm

theorem effect (T : Track cfg τ β x) (i : Nat) : ∃ o, Effect (τ i).base.mem (τ (i + 1)).base.mem o := by
  have hl := T.link i
  generalize hb : β i = b at hl
  cases hl with
  | skip e _ _ => rw [e]; exact ⟨none, .keep rfl fun _ => .inl rfl⟩
  | lock t e _ _ =>
    rcases step_base e with ⟨_, _, _, _, _, e⟩ | ⟨_, h, _⟩
    · rw [e]; exact ⟨none, .keep rfl fun _ => .inl rfl⟩
    · cases h
  | run t a e _ =>
    rcases step_base e with ⟨_, _, h, _⟩ | ⟨_, _, e, _⟩
    · cases h
    · rcases step_mem e with h | ⟨_, _, _, _, _, _, h⟩ <;> exact ⟨_, h⟩

variable [EquivBEq V] [LawfulHashable V]

theorem lookup_next (hv : cfg.Valid) (T : Track cfg τ β x) {i : Nat} {cs : List (Running V)} (hcs : cs ∈ (τ (i + 1)).base.threads)
    {c : Running V} (hc : c ∈ cs) {sh : Nat} (h : lookup cfg (τ i).base.mem c = some sh) : lookup cfg (τ (i + 1)).base.mem c = some sh := by
  obtain ⟨⟨_, _, _, hg⟩, _⟩ := good_reach hv (T.reach (i + 1))
  obtain ⟨o, he⟩ := T.effect i
  exact lookup_stay hv hg he hcs hc h

/-- What others may have to wait for stays, if the call is suspended. -/
theorem blocks_next (hv : cfg.Valid) (T : Track cfg τ β x) {i : Nat} {t : Tid} {c : Running V} {cs : List (Running V)}
    (ht : (τ i).base.threads[t]? = some (c :: cs)) {o : Running V} (ho : o ∈ cs) {sh : Nat} (h : Blocks cfg (τ i) o.id sh) :
    Blocks cfg (τ (i + 1)) o.id sh := by
  have hF := (T.okay i).flat
  have noRun : ∀ (u : Tid) (d : Running V) (ds : List (Running V)), (τ i).base.threads[u]? = some (d :: ds) → d.id ≠ o.id := by
    intro u d ds hu e
    obtain ⟨rfl, rfl⟩ := other_id hF hu ht List.mem_cons_self (List.mem_cons_of_mem _ ho) e
    rw [ht] at hu; cases hu
    exact inner_id hF ht ho rfl
  rcases h with (h | h) | ⟨ds, h1, d, h2, h3, h4, h5⟩
  · exact .inl (.inl (T.held_keep h fun u a d ds _ hu => noRun u d ds hu))
  · refine .inl (.inr ?_)
    have hn : ¬ Arc.RunsAt (acts x) o.id i := by
      intro hr
      obtain ⟨u, d, ds, _, h1, h2, _⟩ := T.acts_head hr
      exact noRun u d ds h1 h2
    have lk : ∀ k, (x k).model.locks = (τ k).base.mem.locks := fun k => by rw [(T.okay k).sim.shared.locks, (T.okay k).flat.mem]
    rw [← lk] at h ⊢
    obtain ⟨th, g1, g2⟩ := ((T.okay i).inv.lk sh o.id).mp h
    refine ((T.okay (i + 1)).inv.lk sh o.id).mpr ⟨th, ?_, g2⟩
    rw [show (x (i + 1)).model.threads[o.id]? = (x i).model.threads[o.id]? from T.calm.frame (Nat.zero_le i) hn]; exact g1
  · obtain ⟨u, hu⟩ := List.getElem?_of_mem h1
    obtain ⟨rfl, rfl⟩ := other_id hF hu ht h2 (List.mem_cons_of_mem _ ho) h3
    obtain ⟨fs, g1, _⟩ := T.next ht
    have g2 := List.mem_of_getElem? g1
    exact .inr ⟨_, g2, d, List.mem_cons_of_mem _ ho, rfl, h4, T.lookup_next hv g2 (List.mem_cons_of_mem _ ho) h5⟩

theorem blocks_stays (hv : cfg.Valid) (T : Track cfg τ β x) {i : Nat} {t : Tid} {c : Running V} {cs : List (Running V)}
    (ht : (τ i).base.threads[t]? = some (c :: cs)) {o : Running V} (ho : o ∈ cs) {sh : Nat} (h : Blocks cfg (τ i) o.id sh) :
    ∀ j, i ≤ j → Blocks cfg (τ j) o.id sh := by
  intro j hj
  induction hj with
  | refl => exact h
  | @step j hj ih =>
    obtain ⟨fs, hfs⟩ := T.stays ht j hj
    exact T.blocks_next hv hfs ho ih

theorem lookup_frozen (hv : cfg.Valid) (T : Track cfg τ β x) {i : Nat} {t : Tid} {c : Running V} {cs : List (Running V)} {sh : Nat}
    (hl : lookup cfg (τ i).base.mem c = some sh) : ∀ j, i ≤ j → (∀ k, i ≤ k → k ≤ j → (τ k).base.threads[t]? = some (c :: cs)) →
      lookup cfg (τ j).base.mem c = some sh := by
  intro j hj
  induction hj with
  | refl => intro _; exact hl
  | @step j hj ih =>
    intro h
    have h1 := ih fun k a b => h k a (Nat.le_succ_of_le b)
    exact T.lookup_next hv (List.mem_of_getElem? (h (j + 1) (Nat.le_succ_of_le hj) (Nat.le_refl _))) List.mem_cons_self h1

/-- No suspended call blocks the shard. -/
def Free (cfg : Cfg V) (τ : Nat → State V) (sh : Nat) : Prop :=
  ∀ i (t : Tid) c cs, (τ i).base.threads[t]? = some (c :: cs) → ∀ o ∈ cs, ¬ Blocks cfg (τ i) o.id sh

omit [EquivBEq V] [LawfulHashable V] in
theorem canRun_enabled {X : State V} {t : Tid} (h : CanRun cfg X t) : Enabled cfg t X := by
  rcases h with h | h
  · exact .inl h
  · obtain ⟨a, a1, a2⟩ := Arc.fresh_addr X.base.mem.heap
    obtain ⟨X', h⟩ := h a a1 a2
    exact .inr ⟨a, X', h⟩

theorem first {P : Nat → Prop} {i : Nat} (h : ∃ k, i ≤ k ∧ P k) : ∃ k, i ≤ k ∧ P k ∧ ∀ l, i ≤ l → l < k → ¬ P l := by
  obtain ⟨k, hk, hp⟩ := h
  induction k using Nat.strongRecOn with
  | _ k ih =>
    by_cases hm : ∀ l, i ≤ l → l < k → ¬ P l
    · exact ⟨k, hk, hp, hm⟩
    · simp only [Classical.not_forall, Classical.not_not] at hm
      obtain ⟨l, h1, h2, h3⟩ := hm
      exact ih l h2 h1 h3

/-- The head of a thread that needs no lock, or has it, can go on. -/
theorem head_enabled (hv : cfg.Valid) (T : Track cfg τ β x) {i : Nat} {t : Tid} {c : Running V} {cs : List (Running V)}
    (ht : (τ i).base.threads[t]? = some (c :: cs)) (h : ∀ sh, lookup cfg (τ i).base.mem c = some sh → (sh, c.id) ∈ (τ i).held) :
    Enabled cfg t (τ i) := by
  obtain ⟨⟨_, _, _, hg⟩, hI⟩ := good_reach hv (T.reach i)
  exact canRun_enabled (.inr fun a a1 a2 => head_runs hv hg hI ht h a1 a2)

omit [EquivBEq V] [LawfulHashable V] in
theorem locks_eq (T : Track cfg τ β x) (k : Nat) : (x k).model.locks = (τ k).base.mem.locks := by
  rw [(T.okay k).sim.shared.locks, (T.okay k).flat.mem]

omit [EquivBEq V] [LawfulHashable V] in
/-- The thread of the model of a running call. -/
theorem thread (T : Track cfg τ β x) {i : Nat} {cs : List (Running V)} (hcs : cs ∈ (τ i).base.threads) {c : Running V} (hc : c ∈ cs) :
    ∃ th, (x i).model.threads[c.id]? = some th ∧ Rel cfg c.stack th :=
  (T.okay i).sim.thread ((T.okay i).flat.run cs hcs c hc).1

/-- A lock that a function has taken is released, if the function is not suspended. -/
theorem release (hv : cfg.Valid) (T : Track cfg τ β x) {sh : Nat} (hQ : Free cfg τ sh) : ∀ (n i : Nat) (u : Tid) (th : Thread V),
    (x i).model.threads[u]? = some th → th.pc.holds = some sh → th.pc.holdRank ≤ n → ∃ j, i ≤ j ∧ (τ j).taken sh = false := by
  intro n
  induction n with
  | zero =>
    intro i u th hu hh hn
    cases hpc : th.pc <;> simp [hpc, Pc.holds, Pc.holdRank] at hh hn
  | succ n ih =>
    intro i u th hu hh hn
    have hrun : ∃ k, i ≤ k ∧ Arc.RunsAt (acts x) u k := by
      refine Classical.byContradiction fun hno => ?_
      have hno' : ∀ k, i ≤ k → ¬ Arc.RunsAt (acts x) u k := fun k h1 h2 => hno ⟨k, h1, h2⟩
      have lock : ∀ j, i ≤ j → (τ j).base.mem.locks sh = some u := by
        intro j hj
        rw [← T.locks_eq]
        exact ((T.okay j).inv.lk sh u).mpr ⟨th, T.calm.const (Nat.zero_le i) hu j hj (fun k h1 _ => hno' k h1), hh⟩
      have own : ∀ j, i ≤ j → ∃ (t : Tid) (c : Running V) (cs : List (Running V)), (τ j).base.threads[t]? = some (c :: cs) ∧ c.id = u ∧ lookup cfg (τ j).base.mem c = none := by
        intro j hj
        obtain ⟨⟨_, _, _, hg⟩, _⟩ := good_reach hv (T.reach j)
        obtain ⟨cs, h1, c, h2, h3, h4⟩ := lock_owner hg (lock j hj)
        obtain ⟨t, ht⟩ := List.getElem?_of_mem h1
        cases cs with
        | nil => cases h2
        | cons c0 cs =>
          rcases List.mem_cons.mp h2 with rfl | h2
          · exact ⟨t, c, cs, ht, h3, h4⟩
          · exact absurd (.inl (.inr (by rw [h3]; exact lock j hj))) (hQ j t c0 cs ht c h2)
      obtain ⟨t, c, cs, ht, hid, _⟩ := own i (Nat.le_refl _)
      obtain ⟨j, h1, h2⟩ := T.moves hv ht (T.fair t fun k => ⟨max i k, Nat.le_max_right _ _, by
        obtain ⟨t', c', cs', g1, g2, g3⟩ := own (max i k) (Nat.le_max_left _ _)
        obtain ⟨fs, hfs⟩ := T.stays ht (max i k) (Nat.le_max_left _ _)
        obtain ⟨rfl, _⟩ := other_id (T.okay _).flat g1 hfs List.mem_cons_self List.mem_cons_self (g2.trans hid.symm)
        exact T.head_enabled hv g1 (fun sh h => by rw [g3] at h; cases h)⟩) i
      rw [hid] at h2
      exact hno' j h1 h2
    obtain ⟨k, a, hk, hth, hr, hsp⟩ := T.calm.next_run (Nat.zero_le i) hu hrun
    have nxt : ∀ (th' : Thread V), (x (k + 1)).model.threads = (x k).model.threads.set u th' → th'.pc.holds = some sh →
        th'.pc.holdRank ≤ n → ∃ j, i ≤ j ∧ (τ j).taken sh = false := by
      intro th' h1 h2 h3
      obtain ⟨j, h4, h5⟩ := ih (k + 1) u th' (by rw [h1]; exact Arc.set_self hth) h2 h3
      exact ⟨j, by omega, h5⟩
    have fin : (x (k + 1)).model.locks sh = none → ∃ j, i ≤ j ∧ (τ j).taken sh = false := by
      intro h1
      refine ⟨k + 1, by omega, ?_⟩
      have hI := (good_reach hv (T.reach k)).2
      have hl : (τ k).base.mem.locks sh = some u := by rw [← T.locks_eq]; exact ((T.okay k).inv.lk sh u).mpr ⟨th, hth, hh⟩
      have hno : ∀ h ∈ (τ k).held, h.1 ≠ sh := by
        rintro h hm rfl
        rw [hI.free h hm] at hl; cases hl
      have hsub : ∀ h ∈ (τ (k + 1)).held, h.1 ≠ sh := by
        intro h hm
        have hl' := T.link k
        generalize β k = b at hl'
        cases hl' with
        | skip e _ _ => rw [e] at hm; exact hno h hm
        | lock t e ha hmod => rw [hmod, T.locks_eq, hl] at h1; cases h1
        | run t a e _ =>
          rcases step_base e with ⟨_, _, h, _⟩ | ⟨_, _, _, h2⟩
          · cases h
          · rcases h2 with ⟨h2, _⟩ | ⟨_, _, _, h2, _⟩
            · rw [h2] at hm; exact hno h hm
            · rw [h2] at hm; exact hno h (List.mem_of_mem_erase hm)
      rw [T.locks_eq] at h1
      simp only [State.taken, h1, Option.isSome_none, Bool.false_or, List.any_eq_false, beq_iff_eq]
      exact hsub
    generalize hσ : (x (k + 1)).model = s' at hr nxt fin
    cases hr with
    | dying c sh b y hpc hx hc =>
      rw [hpc] at hh hn
      exact nxt _ rfl hh (by simp only [Pc.holdRank] at hn ⊢; omega)
    | undo c sh b y hpc hx =>
      rw [hpc] at hh hn
      exact nxt _ rfl hh (by simp only [Pc.holdRank] at hn ⊢; omega)
    | release c sh hpc =>
      rw [hpc] at hh
      cases hh
      exact fin (by simp [Arc.State.setThread, Arc.State.unlock])
    | hit c sh b y hpc hx hc =>
      rw [hpc] at hh hn
      exact nxt _ rfl hh (by simp only [Pc.holdRank] at hn ⊢; omega)
    | _ => simp_all [Pc.spinning, Pc.holds]

/-- A lock is free again and again, if no suspended call holds it. -/
theorem lock_free (hv : cfg.Valid) (T : Track cfg τ β x) {sh : Nat} (hQ : Free cfg τ sh) (i : Nat) : ∃ j, i ≤ j ∧ (τ j).taken sh = false := by
  have base : ∀ i u, (τ i).base.mem.locks sh = some u → ∃ j, i ≤ j ∧ (τ j).taken sh = false := by
    intro i u h
    rw [← T.locks_eq] at h
    obtain ⟨th, h1, h2⟩ := ((T.okay i).inv.lk sh u).mp h
    exact T.release hv hQ _ i u th h1 h2 (Nat.le_refl _)
  cases htk : (τ i).taken sh with
  | false => exact ⟨i, Nat.le_refl _, htk⟩
  | true =>
    simp only [State.taken, Bool.or_eq_true, List.any_eq_true, beq_iff_eq] at htk
    rcases htk with htk | ⟨⟨sh', j0⟩, h1, h2⟩
    · obtain ⟨u, hu⟩ := Option.isSome_iff_exists.mp htk
      exact base i u hu
    · simp only at h2; subst h2
      obtain ⟨cs, g1, c, g2, g3, g4⟩ := (good_reach hv (T.reach i)).2.run _ h1
      simp only at g3 g4
      subst g3
      obtain ⟨t, ht⟩ := List.getElem?_of_mem g1
      cases cs with
      | nil => cases g2
      | cons c0 cs =>
        rcases List.mem_cons.mp g2 with rfl | g2
        · have keep : ∀ j, i ≤ j → (∀ k, i ≤ k → k < j → ∀ a, β k ≠ some (.act (.run t a))) →
              (sh', c.id) ∈ (τ j).held ∧ (τ j).base.threads[t]? = some (c :: cs) ∧ lookup cfg (τ j).base.mem c = some sh' := by
            intro j hj hno
            have fz : ∀ k, i ≤ k → k ≤ j → (τ k).base.threads[t]? = some (c :: cs) :=
              fun k h1 h2 => T.frozen ht k h1 fun l h3 h4 => hno l h3 (Nat.lt_of_lt_of_le h4 h2)
            refine ⟨?_, fz j hj (Nat.le_refl _), T.lookup_frozen hv g4 j hj fz⟩
            clear g4
            induction hj with
            | refl => exact h1
            | @step j hj ih =>
              refine T.held_keep (ih (fun k a b => hno k a (Nat.lt_succ_of_lt b)) fun k a b => fz k a (Nat.le_succ_of_le b)) fun u a d ds hb hu e => ?_
              obtain ⟨rfl, _⟩ := other_id (T.okay j).flat hu (fz j hj (Nat.le_succ j)) List.mem_cons_self List.mem_cons_self e
              exact hno j hj (Nat.lt_succ_self _) a hb
          have hrun : ∃ k, i ≤ k ∧ ∃ a, β k = some (.act (.run t a)) := by
            refine Classical.byContradiction fun hno => ?_
            have hno' : ∀ k, i ≤ k → ∀ a, β k ≠ some (.act (.run t a)) := fun k h1 a h2 => hno ⟨k, h1, a, h2⟩
            obtain ⟨j, q1, q2⟩ := T.fair t (fun k => ⟨max i k, Nat.le_max_right _ _, by
              obtain ⟨w1, w2, w3⟩ := keep (max i k) (Nat.le_max_left _ _) fun l h1 _ => hno' l h1
              exact T.head_enabled hv w2 fun sh h => by rw [w3] at h; cases h; exact w1⟩) i
            rcases q2 with q2 | ⟨a, q2⟩
            · obtain ⟨w1, w2, w3⟩ := keep j q1 fun l h1 _ => hno' l h1
              have hl := T.link j
              rw [q2] at hl
              cases hl with
              | lock _ e _ _ =>
                rcases step_base e with ⟨_, h, e1, e2, e3, _⟩ | ⟨_, h, _⟩
                · cases e1
                  rw [needs_head w2, w3] at e2
                  cases e2
                  exact (taken_false e3).2 _ w1 rfl
                · cases h
            · exact hno' j q1 a q2
          obtain ⟨k, hk, ⟨a, hka⟩, hmin⟩ := first hrun
          obtain ⟨w1, w2, w3⟩ := keep k hk fun l h1 h2 a h3 => hmin l h1 h2 ⟨a, h3⟩
          have hl := T.link k
          rw [hka] at hl
          cases hl with
          | run _ _ e _ =>
            have hI := (good_reach hv (T.reach k)).2
            have hno : ∀ h ∈ (τ (k + 1)).held, h.1 ≠ sh' := by
              rcases step_base e with ⟨_, _, h, _⟩ | ⟨_, e0, _, h2⟩
              · cases h
              · cases e0
                rcases h2 with ⟨_, h2⟩ | ⟨u, h, h2, h3, h4⟩
                · have := h2 t (.inr ⟨a, rfl⟩)
                  rw [needs_head w2, w3] at this; cases this
                · have : u = t := by rcases h4 with h4 | ⟨_, _, h4⟩ <;> cases h4; rfl
                  subst this
                  rw [needs_head w2, w3] at h2
                  cases h2
                  rw [h3]
                  rintro h hm rfl
                  have nd : (τ k).held.Nodup := List.Pairwise.of_map _ (fun a b h heq => h (congrArg _ heq)) hI.nodup
                  have := fst_inj hI.nodup (List.mem_of_mem_erase hm) w1 rfl
                  rw [this] at hm
                  exact List.Nodup.not_mem_erase nd hm
            cases hb : (τ (k + 1)).base.mem.locks sh' with
            | none =>
              refine ⟨k + 1, by omega, ?_⟩
              simp only [State.taken, hb, Option.isSome_none, Bool.false_or, List.any_eq_false, beq_iff_eq]
              exact hno
            | some u =>
              obtain ⟨j, q1, q2⟩ := base (k + 1) u hb
              exact ⟨j, by omega, q2⟩
        · exact absurd (.inl (.inl h1)) (hQ i t c0 cs ht c g2)

/-- From instant `i` on, the innermost call of thread `t` looks up in shards only that no suspended call blocks. -/
def Calmly (cfg : Cfg V) (τ : Nat → State V) (t : Tid) (i : Nat) : Prop :=
  ∀ j, i ≤ j → ∀ c cs, (τ j).base.threads[t]? = some (c :: cs) → ∀ sh, lookup cfg (τ j).base.mem c = some sh → Free cfg τ sh

/-- Then it goes on for ever. -/
theorem goes_on (hv : cfg.Valid) (T : Track cfg τ β x) {i : Nat} {t : Tid} {c : Running V} {cs : List (Running V)}
    (ht : (τ i).base.threads[t]? = some (c :: cs)) (hC : Calmly cfg τ t i) : ∀ k, ∃ j, k ≤ j ∧ Arc.RunsAt (acts x) c.id j := by
  refine T.moves hv ht fun k => Classical.byContradiction fun hno => ?_
  have hno' : ∀ j, k ≤ j → ¬ StepsAt β t j := fun j h1 h2 => hno ⟨j, h1, h2⟩
  have h1 : ¬ ∀ i, ∃ j, i ≤ j ∧ Enabled cfg t (τ j) := fun h => hno (T.fair t h k)
  simp only [Classical.not_forall] at h1
  obtain ⟨k1, h1⟩ := h1
  have hne : ∀ j, k1 ≤ j → ¬ Enabled cfg t (τ j) := fun j h2 h3 => h1 ⟨j, h2, h3⟩
  obtain ⟨m, m1, m2, m3⟩ : ∃ m, i ≤ m ∧ k ≤ m ∧ k1 ≤ m := ⟨i + k + k1, by omega, by omega, by omega⟩
  obtain ⟨fs, hfs⟩ := T.stays ht m m1
  have fz : ∀ j, m ≤ j → (τ j).base.threads[t]? = some ({ c with stack := fs } :: cs) :=
    fun j hj => T.frozen hfs j hj fun l h2 _ a h3 => hno' l (by omega) (.inr ⟨a, h3⟩)
  obtain ⟨⟨_, _, _, hg⟩, hI⟩ := good_reach hv (T.reach m)
  rcases head_waits hv hg hI hfs with h | ⟨sh, _, h2, _⟩
  · exact hne m m3 (canRun_enabled h)
  · obtain ⟨j, h3, h4⟩ := T.lock_free hv (hC m m1 _ _ hfs sh h2) m
    have h5 := T.lookup_frozen hv h2 j h3 fun l h6 _ => fz l h6
    refine hne j (by omega) (.inl ⟨{ τ j with held := (sh, c.id) :: (τ j).held }, ?_⟩)
    simp [step, needs_head (fz j h3), h5, h4]

omit [EquivBEq V] [LawfulHashable V] in
theorem Calmly.mono {t : Tid} {i j : Nat} (h : Calmly cfg τ t i) (hij : i ≤ j) : Calmly cfg τ t j := fun k hk => h k (Nat.le_trans hij hk)

/-- And it is in the retry loop. -/
theorem spins (hv : cfg.Valid) (T : Track cfg τ β x) {i : Nat} {t : Tid} {c : Running V} {cs : List (Running V)}
    (ht : (τ i).base.threads[t]? = some (c :: cs)) (hC : Calmly cfg τ t i) {th : Thread V} (hth : (x i).model.threads[c.id]? = some th) :
    th.pc.spinning = true := by
  cases hs : th.pc.spinning with
  | true => rfl
  | false =>
    exfalso
    obtain ⟨j, h1, h2⟩ := T.goes_on hv ht hC i
    exact T.calm.still (Nat.zero_le j) (T.calm.const' (Nat.zero_le i) hth hs j h1) hs h2

omit [EquivBEq V] [LawfulHashable V] in
/-- A `new` that takes its lock looks up in that shard. -/
theorem found_lookup (T : Track cfg τ β x) {k : Nat} {t : Tid} {c : Running V} {cs : List (Running V)}
    (ht : (τ k).base.threads[t]? = some (c :: cs)) (hr : Arc.RunsAt (acts x) c.id k) {sh : Nat} (h0 : (x k).model.locks sh = none) {u : Tid}
    (h1 : (x (k + 1)).model.locks sh = some u) : lookup cfg (τ k).base.mem c = some sh := by
  obtain ⟨t', c', cs', a, g1, g2, g3, g4⟩ := T.acts_head hr
  obtain ⟨rfl, rfl⟩ := other_id (T.okay k).flat g1 ht List.mem_cons_self List.mem_cons_self g2
  rw [T.locks_eq] at h0 h1
  rcases step_base g4 with ⟨_, _, h, _⟩ | ⟨_, e0, e, _⟩
  · cases h
  · cases e0
    rcases step_mem e with h | ⟨t2, _, d, ds, e2, hd, h⟩
    · rcases h.locks sh with h | h | h
      · rw [h, h0] at h1; cases h1
      · rw [h] at h1; cases h1
      · cases h
    · cases e2
      rw [g1] at hd; cases hd
      rcases h.locks sh with h | h | h
      · rw [h, h0] at h1; cases h1
      · rw [h] at h1; cases h1
      · exact h

/-- It does not meet a dying object in a shard that no suspended call blocks. -/
theorem no_undo (hv : cfg.Valid) (T : Track cfg τ β x) {i : Nat} {u : Tid} {th : Thread V} (hu : (x i).model.threads[u]? = some th) {c : Arc.Call V}
    {sh : Nat} {b : Addr} (hpc : th.pc = .newUndo c sh b) (hQ : Free cfg τ sh) : False := by
  have hp := ((T.okay i).inv.th u th hu).pc
  simp only [hpc, Arc.PcInv] at hp
  obtain ⟨_, rfl, hb, y, hy, hye⟩ := hp
  obtain ⟨w, thw, hw, hpw⟩ := T.calm.remover (Nat.zero_le i) hu hpc
  have hns : thw.pc.spinning = false := by rw [hpw]; rfl
  have hconst : ∀ j, i ≤ j → (x j).model.threads[w]? = some thw := T.calm.const' (Nat.zero_le i) hw hns
  have data : ∀ j, i ≤ j → Arc.deref (x j).model b = some y.data := by
    intro j hj
    induction hj with
    | refl => simp [Arc.deref, hy]
    | @step j hj ih =>
      rw [← ih]
      exact T.calm.table_step (Nat.zero_le j) (T.calm.dropRemove_table (Nat.zero_le j) (hconst j hj) hpw)
  have shard : ∀ j, i ≤ j → shardAt cfg (τ j).base.mem b = some (cfg.shardOf c.val) := by
    intro j hj
    have h1 := data j hj
    simp only [Arc.deref, Option.map_eq_some_iff] at h1
    obtain ⟨z, h1, h2⟩ := h1
    have h3 := ((T.okay j).sim.shared.get h1).1
    rw [(T.okay j).flat.mem] at h3
    simp only [shardAt, h3, Option.map_some, h2, Arc.shardOf_congr hye]
  -- the call that removes the object
  have hO := T.okay i
  have hlt : w < (x i).flat.threads.length := by rw [← hO.sim.len]; exact (List.getElem?_eq_some_iff.mp hw).1
  have hget : (x i).flat.threads[w]? = some (x i).flat.threads[w] := List.getElem?_eq_getElem hlt
  have hR := hO.sim.th w _ thw hget hw
  have hne : (x i).flat.threads[w] ≠ [] := by
    intro e
    rw [e] at hR
    obtain ⟨h1, _⟩ := hR.nil_eq
    rw [h1] at hpw; cases hpw
  have hm : w ∈ ArcNest.ids (τ i).base := by
    by_cases hm : w ∈ ArcNest.ids (τ i).base
    · exact hm
    · have := hO.flat.idle w (by rw [← hO.flat.len]; exact hlt) hm
      rw [hget] at this
      exact absurd (Option.some.inj this) hne
  obtain ⟨cs, hcs, d, hd, rfl⟩ := ArcNest.mem_ids.mp hm
  obtain ⟨t, ht⟩ := List.getElem?_of_mem hcs
  have place : ∀ j, i ≤ j → ∀ ds ∈ (τ j).base.threads, ∀ o ∈ ds, o.id = d.id → ∃ f fs, o.stack = f :: fs ∧ Rel cfg (f :: fs) thw := by
    intro j hj ds hds o ho e
    obtain ⟨th', h1, h2⟩ := T.thread hds ho
    rw [e, hconst j hj] at h1; cases h1
    have := ((T.okay j).flat.run ds hds o ho).2
    cases hst : o.stack with
    | nil => exact absurd hst this
    | cons f fs => rw [hst] at h2; exact ⟨f, fs, rfl, h2⟩
  cases cs with
  | nil => cases hd
  | cons c0 cs =>
    rcases List.mem_cons.mp hd with rfl | hd'
    · have hC : Calmly cfg τ t i := by
        intro j hj e es he sh hl
        obtain ⟨fs, hfs⟩ := T.stays ht j hj
        rw [hfs] at he; cases he
        obtain ⟨f, fs', h1, h2⟩ := place j hj _ (List.mem_of_getElem? hfs) _ List.mem_cons_self rfl
        rw [lookup_eq h1] at hl
        rcases rel_remove h2 hpw with ⟨_, h3⟩ | ⟨h3, _⟩
        · rw [h3, shard j hj] at hl; cases hl; exact hQ
        · rw [h3] at hl; cases hl
      have := T.spins hv ht hC hw
      rw [hns] at this; cases this
    · obtain ⟨f, fs, h1, h2⟩ := place i (Nat.le_refl _) _ hcs d hd rfl
      have hS := susp_reach (T.reach i) _ hcs d hd'
      simp only [Running.inUser, h1, List.head?_cons, Option.any_some, Bool.or_eq_true] at hS
      rcases rel_remove h2 hpw with ⟨h3, h4⟩ | ⟨_, h3, h4, h5⟩
      · refine hQ i t c0 cs ht d hd' (.inr ⟨_, hcs, d, hd, rfl, ?_, ?_⟩)
        · simp [removing, h1, h3]
        · rw [lookup_eq h1, h4, shard i (Nat.le_refl _)]
      · rw [h3, h4, h5] at hS
        simp at hS

omit [EquivBEq V] [LawfulHashable V] in
theorem run_found {s s' : Arc.State V} {u : Tid} {th : Thread V} {a : Addr} (hr : Arc.RunR cfg s u th a s') (hth : s.threads[u]? = some th) {d : Arc.Call V}
    {sh : Nat} {b : Addr} (hpc : th.pc = .newFound d sh b) : ∃ th', s'.threads[u]? = some th' ∧ (th'.pc = .newUndo d sh b ∨ th'.pc.spinning = false) := by
  cases hr with
  | dying d' sh' b' y hpc' hx hc => rw [hpc] at hpc'; cases hpc'; exact ⟨_, Arc.set_self hth, .inl rfl⟩
  | hit d' sh' b' y hpc' hx hc => exact ⟨_, Arc.set_self hth, .inr rfl⟩
  | _ => simp_all

omit [EquivBEq V] [LawfulHashable V] in
theorem run_loop {s s' : Arc.State V} {u : Tid} {th : Thread V} {a : Addr} (hr : Arc.RunR cfg s u th a s') (hth : s.threads[u]? = some th) {d : Arc.Call V}
    (hpc : th.pc = .newLoop d) : ∃ th', s'.threads[u]? = some th' ∧
      ((∃ sh b, th'.pc = .newFound d sh b ∧ s.locks sh = none ∧ s'.locks sh = some u) ∨ th'.pc.spinning = false) := by
  cases hr with
  | found d' b' hpc' hl hf =>
    rw [hpc] at hpc'; cases hpc'
    exact ⟨_, Arc.set_self hth, .inl ⟨_, _, rfl, hl, by simp [Arc.State.setThread, Arc.State.lock]⟩⟩
  | cached d' b' hpc' hl hf hc => exact ⟨_, Arc.set_self hth, .inr rfl⟩
  | missing d' hpc' hl hf hc => exact ⟨_, Arc.set_self hth, .inr rfl⟩
  | _ => simp_all

omit [EquivBEq V] [LawfulHashable V] in
theorem run_release {s s' : Arc.State V} {u : Tid} {th : Thread V} {a : Addr} (hr : Arc.RunR cfg s u th a s') (hth : s.threads[u]? = some th) {d : Arc.Call V}
    {sh : Nat} (hpc : th.pc = .newRelease d sh) : ∃ th', s'.threads[u]? = some th' ∧ th'.pc = .newLoop d := by
  cases hr with
  | release d' sh' hpc' => rw [hpc] at hpc'; cases hpc'; exact ⟨_, Arc.set_self hth, rfl⟩
  | _ => simp_all

omit [EquivBEq V] [LawfulHashable V] in
theorem run_undo {s s' : Arc.State V} {u : Tid} {th : Thread V} {a : Addr} (hr : Arc.RunR cfg s u th a s') (hth : s.threads[u]? = some th) {d : Arc.Call V}
    {sh : Nat} {b : Addr} (hpc : th.pc = .newUndo d sh b) : ∃ th', s'.threads[u]? = some th' ∧ th'.pc = .newRelease d sh := by
  cases hr with
  | undo d' sh' b' y hpc' hx => rw [hpc] at hpc'; cases hpc'; exact ⟨_, Arc.set_self hth, rfl⟩
  | _ => simp_all

/-- There is no such thread. -/
theorem not_calmly (hv : cfg.Valid) (T : Track cfg τ β x) {i : Nat} {t : Tid} {c : Running V} {cs : List (Running V)}
    (ht : (τ i).base.threads[t]? = some (c :: cs)) : ¬ Calmly cfg τ t i := by
  intro hC
  have spin : ∀ j, i ≤ j → ∀ th, (x j).model.threads[c.id]? = some th → th.pc.spinning = true := by
    intro j hj th hth
    obtain ⟨fs, hfs⟩ := T.stays ht j hj
    exact T.spins hv hfs (hC.mono hj) hth
  have run : ∀ j, i ≤ j → ∀ th, (x j).model.threads[c.id]? = some th → ∃ k a, j ≤ k ∧ (x k).model.threads[c.id]? = some th ∧
      Arc.RunR cfg (x k).model c.id th a (x (k + 1)).model ∧ Arc.RunsAt (acts x) c.id k := by
    intro j hj th hth
    obtain ⟨k, hk, hr, hmin⟩ := first (T.goes_on hv ht hC j)
    have h1 : (x k).model.threads[c.id]? = some th := T.calm.const (Nat.zero_le j) hth k hk hmin
    obtain ⟨a, ha⟩ := hr
    rcases T.calm.step k (Nat.zero_le k) with ⟨_, h2⟩ | ⟨t', a', th', _, h2, h3, h4, _⟩
    · exact absurd ⟨a, ha⟩ (h2 c.id)
    · rw [show (x (k + 1)).act = some (Arc.Act.run c.id a) from ha] at h2
      simp only [Option.some.injEq, Arc.Act.run.injEq] at h2
      obtain ⟨rfl, rfl⟩ := h2
      have hR := Arc.step_R h3
      generalize hσ : (x (k + 1)).model = s' at hR
      cases hR with
      | run _ _ th' _ ht' hr =>
        rw [show (x k).model.threads[c.id]? = some th from h1] at ht'
        cases ht'
        exact ⟨k, a, hk, h1, by rw [hσ]; exact hr, a, ha⟩
  have found : ∀ j, i ≤ j → ∀ th, (x j).model.threads[c.id]? = some th → ∀ d sh b, th.pc = .newFound d sh b → Free cfg τ sh → False := by
    intro j hj th hu d sh b hpc hQ
    obtain ⟨k, a, hk, hth, hr, _⟩ := run j hj th hu
    obtain ⟨th', h1, h2 | h2⟩ := run_found hr hth hpc
    · exact T.no_undo hv h1 h2 hQ
    · have := spin (k + 1) (by omega) _ h1
      rw [h2] at this; cases this
  have loop : ∀ j, i ≤ j → ∀ th, (x j).model.threads[c.id]? = some th → ∀ d, th.pc = .newLoop d → False := by
    intro j hj th hu d hpc
    obtain ⟨k, a, hk, hth, hr, hra⟩ := run j hj th hu
    obtain ⟨fs, hfs⟩ := T.stays ht k (by omega)
    obtain ⟨th', h1, ⟨sh, b, h2, h3, h4⟩ | h2⟩ := run_loop hr hth hpc
    · exact found (k + 1) (by omega) _ h1 _ _ _ h2 (hC k (by omega) _ _ hfs sh (T.found_lookup hfs hra h3 h4))
    · have := spin (k + 1) (by omega) _ h1
      rw [h2] at this; cases this
  have release : ∀ j, i ≤ j → ∀ th, (x j).model.threads[c.id]? = some th → ∀ d sh, th.pc = .newRelease d sh → False := by
    intro j hj th hu d sh hpc
    obtain ⟨k, a, hk, hth, hr, _⟩ := run j hj th hu
    obtain ⟨th', h1, h2⟩ := run_release hr hth hpc
    exact loop (k + 1) (by omega) _ h1 _ h2
  have undo' : ∀ j, i ≤ j → ∀ th, (x j).model.threads[c.id]? = some th → ∀ d sh b, th.pc = .newUndo d sh b → False := by
    intro j hj th hu d sh b hpc
    obtain ⟨k, a, hk, hth, hr, _⟩ := run j hj th hu
    obtain ⟨th', h1, h2⟩ := run_undo hr hth hpc
    exact release (k + 1) (by omega) _ h1 _ _ h2
  obtain ⟨th, hth, _⟩ := T.thread (List.mem_of_getElem? ht) (List.mem_cons_self (a := c) (l := cs))
  have hs := spin i (Nat.le_refl _) th hth
  cases hpc : th.pc with
  | newLoop d => exact loop i (Nat.le_refl _) th hth d hpc
  | newUndo d sh b => exact undo' i (Nat.le_refl _) th hth d sh b hpc
  | newRelease d sh => exact release i (Nat.le_refl _) th hth d sh hpc
  | newFound d sh b =>
    obtain ⟨k, a, hk, hth', hr, _⟩ := run i (Nat.le_refl _) th hth
    obtain ⟨th', h1, h2 | h2⟩ := run_found hr hth' hpc
    · exact undo' (k + 1) (by omega) _ h1 _ _ _ h2
    · have := spin (k + 1) (by omega) _ h1
      rw [h2] at this; cases this
  | _ => simp [hpc, Pc.spinning] at hs

/-- With a hierarchy, no shard is blocked by a suspended call. -/
theorem all_free (hv : cfg.Valid) (T : Track cfg τ β x) {rank : Nat → Nat} (ho : ∀ i, Ranked cfg rank (τ i)) :
    ∀ n sh, rank sh < n → Free cfg τ sh := by
  intro n
  induction n with
  | zero => intro sh h; omega
  | succ n ih =>
    intro sh hn i t c cs ht o hoc hb
    refine T.not_calmly hv ht fun j hj d ds hd sh' hl => ih sh' ?_
    obtain ⟨fs, hfs⟩ := T.stays ht j hj
    rw [hfs] at hd; cases hd
    have := ho j _ _ (List.mem_of_getElem? hfs) sh' hl o hoc sh (T.blocks_stays hv ht hoc hb j hj)
    omega

/-- No call is running. -/
theorem quiet (hv : cfg.Valid) (T : Track cfg τ β x) {rank : Nat → Nat} (ho : ∀ i, Ranked cfg rank (τ i)) (i : Nat) : Quiet (τ i).base := by
  refine Classical.byContradiction fun hq => ?_
  obtain ⟨t, c, cs, ht⟩ := ArcNest.not_quiet hq
  exact T.not_calmly hv ht fun _ _ _ _ _ sh _ => T.all_free hv ho _ sh (Nat.lt_succ_self _)

end Track

theorem Execution.reachND {σ : Nat → State V} {α : Nat → Option (Act V)} (h : Execution cfg σ α) : ∀ i, ReachND cfg (σ i) := by
  intro i
  induction i with
  | zero => rw [h.1]; exact .init
  | succ i ih =>
    have := h.2 i
    cases ha : α i with
    | none => rw [ha] at this; simp only at this; rw [this]; exact ih
    | some a => rw [ha] at this; exact .step ih this.1 this.2.1 this.2.2

/-- Running calls are not more than before, and as many only if none ended. -/
theorem hlink_running {X X' : State V} {x y : Shadow V} {b : Option (Act V)} (h : HLink cfg X X' x y b) :
    running X'.base = running X.base ∨ running X'.base < running X.base := by
  cases h with
  | skip e _ _ => exact .inl (congrArg (fun X : State V => running X.base) e)
  | lock _ e _ _ =>
    rcases step_base e with ⟨_, _, _, _, _, e⟩ | ⟨_, h, _⟩
    · exact .inl (by rw [e])
    · cases h
  | run t a _ hl =>
    cases hl with
    | run _ _ c cs ht _ hthr =>
      rcases hthr with e | ⟨fs, e, _⟩
      · refine .inr ?_
        have := ArcNest.sum_length_set ht
        simp only [running, e]
        exact this
      · exact .inl (ArcNest.running_set ht e)

theorem fair_quiet [EquivBEq V] [LawfulHashable V] (hv : cfg.Valid) {σ : Nat → State V} {α : Nat → Option (Act V)} (h : Execution cfg σ α)
    {rank : Nat → Nat} (ho : ∀ i, Ranked cfg rank (σ i)) (hf : StronglyFair cfg σ α) (hn : FinitelyManyCalls α) :
    ∃ n, ∀ i, n ≤ i → Quiet (σ i).base := by
  obtain ⟨n, hn⟩ := hn
  obtain ⟨l, S, s, hG, hz⟩ := good_reachND hv (h.reachND n)
  obtain ⟨x, hx⟩ := ArcNest.dep_choice (fun i x => Okay cfg (σ (n + i)).base x)
    (fun i x y => HLink cfg (σ (n + i)) (σ (n + i + 1)) x y (α (n + i)))
    (b := ⟨S, s, none⟩) ⟨hG.flat, hG.sim, hG.inv, hz⟩ (fun i x hx => by
      have h2 := h.2 (n + i)
      cases ha : α (n + i) with
      | none =>
        rw [ha] at h2
        refine ⟨⟨x.flat, x.model, none⟩, ?_, .skip h2 rfl rfl⟩
        have h2' : σ (n + (i + 1)) = σ (n + i) := h2
        rw [h2']
        exact ⟨hx.flat, hx.sim, hx.inv, hx.zom⟩
      | some a =>
        rw [ha] at h2
        obtain ⟨t, h3 | ⟨b, h3⟩⟩ := hn (n + i) (by omega) a ha
        · rw [ha] at h3; cases h3
          refine ⟨⟨x.flat, x.model, none⟩, ?_, .lock t h2.2.1 rfl rfl⟩
          rcases step_base h2.2.1 with ⟨_, _, _, _, _, e⟩ | ⟨_, h, _⟩
          · have e' : (σ (n + (i + 1))).base = (σ (n + i)).base := by rw [show n + (i + 1) = n + i + 1 from rfl, e]
            rw [e']
            exact ⟨hx.flat, hx.sim, hx.inv, hx.zom⟩
          · cases h
        · rw [ha] at h3; cases h3
          rcases step_base h2.2.1 with ⟨_, _, h, _⟩ | ⟨_, e, e2, _⟩
          · cases h
          · cases e
            obtain ⟨y, hy, hl⟩ := ArcNest.link_run hv hx e2 h2.2.2
            exact ⟨y, hy, .run t b h2.2.1 hl⟩)
  obtain ⟨M, hM, hc⟩ := Arc.eventually_const Nat.lt_wfRel.wf (fun i => running (σ (n + i)).base) 0 (fun i _ => hlink_running (hx i).2)
  have hmodel : ∀ i, ((x (i + 1)).model = (x i).model ∧ ∀ t, ¬ Arc.RunsAt (fun i => (x (i + 1)).act) t i) ∨
      ∃ t a, (x (i + 1)).act = some (.run t a) ∧ Arc.step cfg (x i).model (.run t a) = .ok (x (i + 1)).model := by
    intro i
    have hno : (x (i + 1)).act = none → ∀ t, ¬ Arc.RunsAt (fun i => (x (i + 1)).act) t i := by
      rintro h t ⟨a, ha⟩
      simp only [h] at ha; cases ha
    have hl := (hx i).2
    generalize α (n + i) = b at hl
    cases hl with
    | skip _ h1 h2 => exact .inl ⟨h2, hno h1⟩
    | lock _ _ h1 h2 => exact .inl ⟨h2, hno h1⟩
    | run t a _ hl =>
      cases hl with
      | run _ _ c cs _ h _ =>
        rcases h with ⟨h1, h2⟩ | ⟨h1, h2⟩
        · exact .inl ⟨h2, hno h1⟩
        · exact .inr ⟨c.id, a, h1, h2⟩
  obtain ⟨M', _, hM'⟩ := Arc.settles (cfg := cfg) (σ := fun i => (x i).model) (α := fun i => (x (i + 1)).act) (N := 0) (fun i _ => (hx i).1.inv) (fun i _ => hmodel i)
  have hadd : ∀ i, n + (M + M') + i = n + (M + M' + i) := fun i => Nat.add_assoc n (M + M') i
  have T : Track cfg (fun i => σ (n + (M + M') + i)) (fun i => α (n + (M + M') + i)) (fun i => x (M + M' + i)) := by
    refine ⟨fun i => (h.reachND _).reach, fun i => ?_, fun i => ?_, fun t ht k => ?_, fun i => ?_, ⟨fun i _ => (hx _).1.inv, fun i _ => (hx _).1.zom, fun i _ => ?_⟩⟩
    · simp only [hadd]; exact (hx _).1
    · have := (hx (M + M' + i)).2
      simp only [hadd]; exact this
    · obtain ⟨j, h1, h2⟩ := hf t (fun i => by
        obtain ⟨j, h1, h2⟩ := ht i
        exact ⟨n + (M + M') + j, by omega, h2⟩) (n + (M + M') + k)
      refine ⟨j - (n + (M + M')), by omega, ?_⟩
      simp only [StepsAt] at h2 ⊢
      rw [show n + (M + M') + (j - (n + (M + M'))) = j by omega]; exact h2
    · rcases hlink_running (hx (M + M' + i)).2 with h1 | h1
      · simp only [hadd]; exact h1
      · exact absurd h1 (hc (M + M' + i) (by omega))
    · exact hM' (M + M' + i) (by omega)
  refine ⟨n + (M + M'), fun i hi => ?_⟩
  have := T.quiet hv (fun i => ho _) (i - (n + (M + M')))
  rwa [show n + (M + M') + (i - (n + (M + M'))) = i by omega] at this

end Src.ArcHeld
