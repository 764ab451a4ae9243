import Verif.Arc.Stack
import Verif.Arc.Values
import Verif.Props.ArcCalls
import Verif.Arc.Demo
import Verif.Arc.Progress
/-!
C60: the stack depth of `drop`. The vocabulary (`Stacked`, `Levelled`) is in `Verif/Arc/Stack.lean`.
-/
namespace Arc
variable {V : Type} [BEq V] [Hashable V]

/-! ### The frames are a cut of `Thread.todo` -/

omit [BEq V] [Hashable V] in
theorem popDone_flat : ∀ fs : List (Waiting V), (popDone fs).flatMap (·.rest) = fs.flatMap (·.rest)
  | [] => rfl
  | ⟨_, []⟩ :: fs => by rw [popDone, popDone_flat fs]; simp
  | ⟨_, _ :: _⟩ :: _ => rfl

omit [BEq V] [Hashable V] in
theorem popDone_head : ∀ fs : List (Waiting V), ∀ f ∈ (popDone fs).head?, f.rest ≠ []
  | [] => by simp [popDone]
  | ⟨_, []⟩ :: fs => by rw [popDone]; exact popDone_head fs
  | ⟨_, _ :: _⟩ :: _ => by simp [popDone]

omit [BEq V] [Hashable V] in
theorem popDone_suffix : ∀ fs : List (Waiting V), popDone fs <:+ fs
  | [] => by simp [popDone]
  | ⟨_, []⟩ :: fs => by rw [popDone]; exact (popDone_suffix fs).trans (List.suffix_cons _ _)
  | ⟨_, _ :: _⟩ :: _ => List.suffix_refl _

/-- What connects a thread and its stack. -/
structure Cut (th : Thread V) (fs : List (Waiting V)) : Prop where
  flat : fs.flatMap (·.rest) = th.todo
  head : th.pc = .idle → ∀ f ∈ fs.head?, f.rest ≠ []
  none : th.pc.dropping = false → fs = []

omit [BEq V] [Hashable V] in
theorem Cut.nil {th : Thread V} {fs : List (Waiting V)} (c : Cut th fs) (hpc : th.pc = .idle) (ht : th.todo = []) : fs = [] := by
  cases fs with
  | nil => rfl
  | cons f fs =>
    have h1 := c.flat
    rw [ht, List.flatMap_cons, List.append_eq_nil_iff] at h1
    exact absurd h1.1 (c.head hpc f (by simp))

omit [BEq V] [Hashable V] in
theorem cut_pop {th : Thread V} {fs : List (Waiting V)} (hflat : fs.flatMap (·.rest) = th.todo) (hpc : th.pc = .idle) :
    Cut th (popDone fs) :=
  ⟨(popDone_flat fs).trans hflat, fun _ => popDone_head fs, fun h => by rw [hpc] at h; cases h⟩

omit [BEq V] [Hashable V] in
theorem settle_idle {s : State V} {t : Tid} {th : Thread V} (ht : s.threads[t]? = some th) (hpc : th.pc = .idle)
    (fs : List (Waiting V)) : settle s t fs = popDone fs := by
  simp only [settle, ht, hpc]

omit [BEq V] [Hashable V] in
theorem settle_busy {s : State V} {t : Tid} {th : Thread V} (ht : s.threads[t]? = some th) (hpc : th.pc ≠ .idle)
    (fs : List (Waiting V)) : settle s t fs = fs := by
  simp only [settle, ht]

omit [BEq V] [Hashable V] in
theorem settle_nil (s : State V) (t : Tid) : settle s t ([] : List (Waiting V)) = [] := by
  unfold settle
  split
  · split <;> rfl
  · rfl

omit [BEq V] [Hashable V] in
theorem cut_back {s : State V} {t : Tid} {x : Thread V} {fs : List (Waiting V)} (hx : s.threads[t]? = some x) (hpc : x.pc = .idle)
    (hflat : fs.flatMap (·.rest) = x.todo) : Cut x (settle s t fs) := by
  rw [settle_idle hx hpc]; exact cut_pop hflat hpc

omit [BEq V] [Hashable V] in
/-- The stack after the destruction of an unused argument of `new` has begun. -/
theorem cut_unwind {cfg : Cfg V} {s s' : State V} {t : Tid} {c : Call V} {arg : Option V} (hc : callOk cfg s arg c) {r : Option Addr}
    {a : Option V} (ht : s'.threads[t]? = some (unwindCall cfg c r a)) :
    Cut (unwindCall cfg c r a) (settle s' t (if c.dst then [] else [⟨c.val, cfg.kids c.val⟩])) := by
  cases hd : c.dst with
  | true =>
    have hk := hc.2.2.1 hd
    rw [if_pos rfl, settle_nil]
    exact ⟨by simp [unwindCall, hk], fun _ f hf => by simp at hf, fun _ => rfl⟩
  | false =>
    have hcv := hc.2.1 hd
    rw [if_neg (by simp), settle_idle ht (by simp [unwindCall, hcv])]
    exact cut_pop (by simp [unwindCall]) (by simp [unwindCall, hcv])

/-- The stack of a thread that has been updated by its own step. -/
theorem cut_own [EquivBEq V] [LawfulHashable V] {cfg : Cfg V} {s s' : State V} (hI : Inv cfg s) {t : Tid} {th : Thread V}
    (ht : s.threads[t]? = some th) {fs : List (Waiting V)} (c : Cut th fs) {a : Addr} (hr : RunR cfg s t th a s') :
    ∃ th', s'.threads[t]? = some th' ∧ Cut th' (settle s' t (advance cfg s th fs)) := by
  have own : ∀ {s0 : State V} {x : Thread V}, s0.threads = s.threads → (s0.setThread t x).threads[t]? = some x := by
    intro s0 x e
    show (s0.threads.set t x)[t]? = _
    rw [e, set_getElem? _ _ _ _ _ ht, if_pos rfl]
  have hth := hI.th t th ht
  -- program counters without pending drops before and after
  have quiet : ∀ {s1 : State V} {x : Thread V}, s1.threads[t]? = some x → th.pc.dropping = false → x.todo = [] →
      (∀ c sh b, th.pc ≠ .newHit c sh b) → ∃ th', s1.threads[t]? = some th' ∧ Cut th' (settle s1 t (advance cfg s th fs)) := by
    intro s1 x hx hd htd hnh
    have hfs := c.none hd
    have : advance cfg s th fs = [] := by
      subst hfs
      cases hpc : th.pc <;> simp_all [advance, Pc.dropping]
    rw [this, settle_nil]
    exact ⟨x, hx, by simp [htd], fun _ f hf => by simp at hf, fun _ => rfl⟩
  -- steps inside a drop that leave the stack alone
  have stay : ∀ {s1 : State V} {x : Thread V}, s1.threads[t]? = some x → x.pc ≠ .idle → x.pc.dropping = true →
      x.todo = th.todo → advance cfg s th fs = fs → ∃ th', s1.threads[t]? = some th' ∧ Cut th' (settle s1 t (advance cfg s th fs)) := by
    intro s1 x hx hni hd htd ha
    rw [ha, settle_busy hx hni]
    exact ⟨x, hx, by rw [htd]; exact c.flat, fun h => absurd h hni, fun h => by rw [hd] at h; cases h⟩
  have back : ∀ {s1 : State V} {x : Thread V}, s1.threads[t]? = some x → x.pc = .idle → x.todo = th.todo →
      advance cfg s th fs = fs → ∃ th', s1.threads[t]? = some th' ∧ Cut th' (settle s1 t (advance cfg s th fs)) := by
    intro s1 x hx hid htd ha
    rw [ha, settle_idle hx hid]
    exact ⟨x, hx, cut_pop (by rw [htd]; exact c.flat) hid⟩
  have emp : th.pc.dropping = false → th.todo = [] := fun h => (hth.empty h).1
  cases hr with
  | todo p ps hpc htodo =>
    refine ⟨_, own rfl, ?_⟩
    rw [settle_busy (own rfl) (by simp)]
    cases fs with
    | nil => have := c.flat; rw [htodo] at this; simp at this
    | cons f fs =>
      obtain ⟨v, rest⟩ := f
      cases rest with
      | nil => exact absurd rfl (c.head hpc ⟨v, []⟩ (by simp))
      | cons q qs =>
        have h1 := c.flat
        rw [htodo] at h1
        simp only [List.flatMap_cons, List.cons_append, List.cons.injEq] at h1
        simp only [advance, hpc]
        exact ⟨by simpa using h1.2, fun h => by simp at h, fun h => by simp [Pc.dropping] at h⟩
  | ret b hpc htodo hret =>
    have hfs := c.nil hpc htodo
    refine ⟨_, own rfl, ?_⟩
    have : advance cfg s th fs = [] := by rw [hfs]; simp [advance, hpc]
    rw [this, settle_nil]
    exact ⟨rfl, fun _ f hf => by simp at hf, fun _ => rfl⟩
  | hitRet c' sh b hpc =>
    have hp := hth.pc
    rw [hpc] at hp
    refine ⟨_, own rfl, ?_⟩
    have : advance cfg s th fs = (if c'.dst then [] else [⟨c'.val, cfg.kids c'.val⟩]) := by simp [advance, hpc]
    rw [this]
    exact cut_unwind hp.1 (own rfl)
  | subLast b x hpc => exact stay (own rfl) (by simp) rfl rfl (by simp [advance, hpc])
  | sub b x hpc => exact back (own rfl) rfl rfl (by simp [advance, hpc])
  | remove b r x hpc => exact stay (own rfl) (by simp) rfl rfl (by simp [advance, hpc])
  | removeNone b x hpc => exact back (own rfl) rfl rfl (by simp [advance, hpc])
  | free b x hpc hx =>
    refine ⟨_, own rfl, ?_⟩
    refine cut_back (own rfl) rfl ?_
    simp only [advance, hpc, hx, List.flatMap_cons, c.flat]
  | inserted c' sh b hpc => exact quiet (own rfl) (by simp [hpc, Pc.dropping]) rfl (by simp [hpc])
  | _ => exact quiet (own rfl) (by simp_all [Pc.dropping]) (emp (by simp_all [Pc.dropping])) (by simp_all)

/-- Every thread's stack is a cut of its pending drops. -/
def Cuts (s : State V) (F : Stacks V) : Prop :=
  ∀ t, match s.threads[t]? with
    | some th => Cut th (F t)
    | none => F t = []

theorem Stacked.cuts [EquivBEq V] [LawfulHashable V] {cfg : Cfg V} (hv : cfg.Valid) {ok : State V → Act V → Prop} {s : State V}
    {F : Stacks V} (h : Stacked cfg ok s F) : Cuts s F := by
  induction h with
  | init => intro t; simp [Arc.init]
  | @step s s' F a h hs hok hst hsm ih =>
    have hI := reach_inv hv h.reach
    intro u
    cases hu : s.threads[u]? with
    | none =>
      have hF : F u = [] := by have := ih u; rw [hu] at this; exact this
      have : stacksAfter cfg s F a s' u = [] := by
        cases a <;> simp only [stacksAfter, hF] <;>
        · split
          · rename_i e; subst e; simp only [hu]
          · rfl
      rw [this]
      cases hu' : s'.threads[u]? with
      | none => rfl
      | some th' =>
        -- a thread that has just appeared
        have hR := step_R hst
        have old : ∀ {t : Tid} {x y : Thread V}, s.threads[t]? = some x → (s.threads.set t y)[u]? = some th' → Cut th' [] := by
          intro t x y hx h1
          rw [set_getElem? _ _ _ _ _ hx] at h1
          split at h1
          · rename_i e; subst e; rw [hu] at hx; cases hx
          · rw [hu] at h1; cases h1
        cases hR with
        | spawn =>
          simp only at hu'
          rw [List.getElem?_append] at hu'
          split at hu'
          · rw [hu] at hu'; cases hu'
          · rw [List.getElem?_singleton] at hu'
            split at hu'
            · cases hu'; exact ⟨rfl, fun _ f hf => by simp at hf, fun _ => rfl⟩
            · cases hu'
        | run t a th _ ht hr => cases hr <;> exact old ht hu'
        | new _ _ _ _ ht => exact old ht hu'
        | drop _ _ _ ht => exact old ht hu'
        | len _ _ _ _ ht => exact old ht hu'
        | shrink _ _ _ _ ht => exact old ht hu'
        | panicLoop _ _ _ ht => exact old ht hu'
        | panicEntry _ _ _ _ ht => exact old ht hu'
        | panicRemove _ _ _ ht => exact old ht hu'
        | panicShrink _ _ _ _ ht => exact old ht hu'
        | panicInsert _ _ _ _ _ ht => exact old ht hu'
        | clone => simp only at hu'; rw [hu] at hu'; cases hu'
        | read => rw [hu] at hu'; cases hu'
    | some th =>
      have hc : Cut th (F u) := by have := ih u; rw [hu] at this; exact this
      by_cases htid : a.tid = some u
      · have fin : ∀ {th'}, s'.threads[u]? = some th' → Cut th' (stacksAfter cfg s F a s' u) →
            (match s'.threads[u]? with
              | some th => Cut th (stacksAfter cfg s F a s' u)
              | none => stacksAfter cfg s F a s' u = []) := by
          intro th' h1 h2; rw [h1]; exact h2
        have own : ∀ {s0 : State V} {x : Thread V}, s0.threads = s.threads → (s0.setThread u x).threads[u]? = some x := by
          intro s0 x e
          show (s0.threads.set u x)[u]? = _
          rw [e, set_getElem? _ _ _ _ _ hu, if_pos rfl]
        have idle : th.isIdle = true → F u = [] := by
          intro hid
          simp only [Thread.isIdle, Bool.and_eq_true, List.isEmpty_iff] at hid
          refine hc.nil ?_ hid.1.2
          cases hpc : th.pc <;> simp_all
        have call : ∀ {x : Thread V}, th.isIdle = true → x.todo = [] → Cut x (F u) := by
          intro x hid hx
          rw [idle hid]
          exact ⟨by simp [hx], fun _ f hf => by simp at hf, fun _ => rfl⟩
        have hR := step_R hst
        cases hR with
        | spawn => cases htid
        | run t a th0 _ ht hr =>
          cases htid
          rw [hu] at ht; cases ht
          obtain ⟨th', h1, h2⟩ := cut_own hI hu hc hr
          refine fin h1 ?_
          simp only [stacksAfter, if_pos, hu]; exact h2
        | new _ _ _ _ ht hid => cases htid; rw [hu] at ht; cases ht; exact fin (own rfl) (call hid rfl)
        | drop _ _ _ ht hid => cases htid; rw [hu] at ht; cases ht; exact fin (own rfl) (call hid rfl)
        | len _ _ _ _ ht hid => cases htid; rw [hu] at ht; cases ht; exact fin (own rfl) (call hid rfl)
        | shrink _ _ _ _ ht hid => cases htid; rw [hu] at ht; cases ht; exact fin (own rfl) (call hid rfl)
        | clone => exact fin hu hc
        | read => exact fin hu hc
        | panicLoop _ _ c ht hpc =>
          cases htid; rw [hu] at ht; cases ht
          have hp := (hI.th u th hu).pc
          rw [hpc] at hp
          refine fin (own rfl) ?_
          simp only [stacksAfter, if_pos, hu, unwound, hpc]
          exact cut_unwind hp (own rfl)
        | panicEntry _ _ c b ht hpc =>
          cases htid; rw [hu] at ht; cases ht
          refine fin (own rfl) ?_
          simp only [stacksAfter, if_pos, hu, unwound, hpc]
          rw [hc.none (by simp [hpc, Pc.dropping]), settle_nil]
          exact ⟨rfl, fun _ f hf => by simp at hf, fun _ => rfl⟩
        | panicRemove _ _ b ht hpc =>
          cases htid; rw [hu] at ht; cases ht
          refine fin (th' := { th with pc := .idle }) (own rfl) ?_
          simp only [stacksAfter, if_pos, hu, unwound, hpc]
          exact cut_back (own rfl) rfl hc.flat
        | panicShrink _ _ i m ht hpc =>
          cases htid; rw [hu] at ht; cases ht
          refine fin (own rfl) ?_
          simp only [stacksAfter, if_pos, hu, unwound, hpc]
          exact cut_back (own rfl) rfl hc.flat
        | panicInsert => exact hs.elim
      · have h1 := step_other hst htid hu
        rw [h1]
        have : stacksAfter cfg s F a s' u = F u := by
          cases a <;> simp only [stacksAfter] <;>
          · rw [if_neg]; rintro rfl; exact htid rfl
        simp only [this]; exact hc

/-- C60 (a). The stack is faithful to the model of `drop`: the handles that the destructors on a thread's stack still have to
drop, innermost destructor first, are the handles this thread has to drop, in this order. -/
theorem C60_stack_is_todo [EquivBEq V] [LawfulHashable V] {cfg : Cfg V} (hv : cfg.Valid) {ok : State V → Act V → Prop}
    {s : State V} {F : Stacks V} (h : Stacked cfg ok s F) {t : Tid} {th : Thread V} (ht : s.threads[t]? = some th) :
    (F t).flatMap (·.rest) = th.todo ∧ (th.isIdle = true → F t = []) := by
  have hc : Cut th (F t) := by have := h.cuts hv t; rw [ht] at this; exact this
  refine ⟨hc.flat, fun hid => ?_⟩
  simp only [Thread.isIdle, Bool.and_eq_true, List.isEmpty_iff] at hid
  refine hc.nil ?_ hid.1.2
  cases hpc : th.pc <;> simp_all

/-! ### The depth is bounded by the nesting of the values -/

/-- The object a running `drop` is about. -/
def Pc.cur {V : Type} : Pc V → Option Addr
  | .dropSub b | .dropRemove b | .dropFree b => some b
  | _ => none

/-- `v` and the objects of the handles `ps` are within the levels. -/
def Lv (level : V → Nat) (B : Nat) (s : State V) (v : V) (ps : List Addr) : Prop :=
  level v ≤ B ∧ ∀ q ∈ ps, ∀ w, deref s q = some w → level w < level v

omit [BEq V] [Hashable V] in
theorem Lv.stable {level : V → Nat} {B : Nat} {s s' : State V} {v : V} {ps : List Addr} (h : Lv level B s v ps)
    (hst : ∀ q ∈ ps, deref s' q = deref s q) : Lv level B s' v ps :=
  ⟨h.1, fun q hq w hw => h.2 q hq w (hst q hq ▸ hw)⟩

/-- The levels rise along the stack, from the object being dropped outwards. -/
structure Rising (level : V → Nat) (B : Nat) (s : State V) (fs : List (Waiting V)) (cur : Option Addr) : Prop where
  frames : ∀ f ∈ fs, Lv level B s f.val f.rest
  rise : fs.Pairwise fun f g => level f.val < level g.val
  cur : ∀ b ∈ cur, ∀ w, deref s b = some w → ∀ f ∈ fs, level w < level f.val

omit [BEq V] [Hashable V] in
theorem Rising.stable {level : V → Nat} {B : Nat} {s s' : State V} {fs : List (Waiting V)} {cur : Option Addr}
    (h : Rising level B s fs cur) (hst : ∀ q ∈ fs.flatMap (·.rest), deref s' q = deref s q)
    (hc : ∀ b ∈ cur, deref s' b = deref s b) : Rising level B s' fs cur :=
  ⟨fun f hf => (h.frames f hf).stable fun q hq => hst q (List.mem_flatMap.mpr ⟨f, hf, hq⟩), h.rise,
    fun b hb w hw => h.cur b hb w (hc b hb ▸ hw)⟩

omit [BEq V] [Hashable V] in
theorem Rising.pop {level : V → Nat} {B : Nat} {s : State V} {fs : List (Waiting V)} {cur : Option Addr}
    (h : Rising level B s fs cur) : Rising level B s (popDone fs) none :=
  ⟨fun f hf => h.frames f ((popDone_suffix fs).subset hf), h.rise.sublist (popDone_suffix fs).sublist, fun _ hb => by cases hb⟩

omit [BEq V] [Hashable V] in
theorem Rising.nil {level : V → Nat} {B : Nat} {s : State V} {cur : Option Addr} : Rising level B s [] cur :=
  ⟨fun _ h => (nomatch h), .nil, fun _ _ _ _ _ h => (nomatch h)⟩

omit [BEq V] [Hashable V] in
theorem rising_settle {level : V → Nat} {B : Nat} {s : State V} {t : Tid} {x : Thread V} {fs : List (Waiting V)}
    (hx : s.threads[t]? = some x) (h : Rising level B s fs x.pc.cur) : Rising level B s (settle s t fs) x.pc.cur := by
  cases hpc : x.pc with
  | idle => rw [settle_idle hx hpc]; exact h.pop
  | _ => rw [settle_busy hx (by simp [hpc]), ← hpc]; exact h

omit [BEq V] [Hashable V] in
/-- A list whose levels rise strictly between 1 and `B` has at most `B` elements. -/
theorem rising_length {level : V → Nat} {B : Nat} : ∀ (fs : List (Waiting V)) (k : Nat), (∀ f ∈ fs, k < level f.val ∧ level f.val ≤ B) →
    fs.Pairwise (fun f g => level f.val < level g.val) → fs ≠ [] → fs.length + k ≤ B
  | [], _, _, _, h => absurd rfl h
  | [f], k, h, _, _ => by have := h f (by simp); simp; omega
  | f :: g :: fs, k, h, hp, _ => by
    have h1 := h f (by simp)
    rw [List.pairwise_cons] at hp
    have := rising_length (g :: fs) (level f.val) (fun x hx => ⟨hp.1 x hx, (h x (List.mem_cons_of_mem _ hx)).2⟩) hp.2 (by simp)
    simp only [List.length_cons] at *; omega

/-- The objects of pending drops and of the current drop keep their value. -/
theorem cur_stable [EquivBEq V] [LawfulHashable V] {cfg : Cfg V} {s s' : State V} (hI : Inv cfg s) {a : Act V} (hs : a.Sane)
    (hst : step cfg s a = .ok s') {t : Tid} {th : Thread V} (ht : s.threads[t]? = some th) :
    (∀ q ∈ th.todo, deref s' q = deref s q) ∧
    ∀ b ∈ th.pc.cur, ((∀ x, a ≠ .run t x) ∨ th.pc ≠ .dropFree b) → deref s' b = deref s b := by
  refine ⟨fun q hq => step_data hI hs hst (hI.in_table ?_), fun b hb hne => ?_⟩
  · exact List.count_pos_iff.mp (mem_owned_A ht (by simp [Thread.owned, hq]))
  · cases hpc : th.pc <;> simp only [hpc, Pc.cur, Option.mem_def, Option.some.injEq, reduceCtorEq] at hb <;> subst hb
    · exact step_data hI hs hst (hI.in_table (List.count_pos_iff.mp (mem_owned_A ht (by simp [Thread.owned, hpc, Pc.owned]))))
    · rename_i b
      have h1 : 0 < R s b := (count_flatMap_pos _ b s.threads).mpr ⟨t, th, ht, by simp [hpc, Pc.removing]⟩
      have h2 := hI.pend b
      refine step_data hI hs hst (List.count_pos_iff.mp ?_)
      show 0 < T s b
      split at h2
      · rename_i h; exact h.1
      · omega
    · rcases hne with h | h
      · exact step_priv hI hs hst ht (by simp [hpc, Pc.priv]) h
      · exact absurd hpc h

/-- The invariant. -/
structure LInv (cfg : Cfg V) (level : V → Nat) (B : Nat) (s : State V) (F : Stacks V) : Prop where
  heap : ∀ e ∈ s.heap, Lv level B s e.2.data (cfg.kids e.2.data)
  calls : ∀ (t : Tid) (th : Thread V), s.threads[t]? = some th → ∀ v, th.pc.local = some v → Lv level B s v (cfg.kids v)
  stack : ∀ (t : Tid) (th : Thread V), s.threads[t]? = some th → Rising level B s (F t) th.pc.cur

omit [BEq V] [Hashable V] in
theorem unwind_cur (cfg : Cfg V) (c : Call V) (r : Option Addr) (a : Option V) : (unwindCall cfg c r a).pc.cur = none ∨
    c.conv.isSome = true := by
  cases h : c.conv <;> simp [unwindCall, h, Pc.cur]

theorem Stacked.levels [EquivBEq V] [LawfulHashable V] {cfg : Cfg V} (hv : cfg.Valid) {level : V → Nat} {B : Nat} {s : State V}
    {F : Stacks V} (h : Stacked cfg (Levelled cfg level B) s F) : LInv cfg level B s F := by
  induction h with
  | init => exact ⟨fun e he => (nomatch he), by intro t th ht; simp [Arc.init] at ht, by intro t th ht; simp [Arc.init] at ht⟩
  | @step s s' F a h hs hok hst hsm ih =>
    have hI := reach_inv hv h.reach
    have hC := h.cuts hv
    have hC' := (Stacked.step h hs hok hst hsm).cuts hv
    obtain ⟨h1, h2⟩ := values_step hI hst (Q := fun v => Lv level B s v (cfg.kids v)) (Q' := fun v => Lv level B s' v (cfg.kids v))
      (fun v hown hv => hv.stable fun q hq => step_data hI hs hst (hI.in_table (hown q hq)))
      (fun t v d e => by subst e; exact hok) ih.heap ih.calls
    refine ⟨h1, h2, fun u th' hu' => ?_⟩
    have hC1 := hC' u
    rw [hu'] at hC1
    cases hu : s.threads[u]? with
    | none =>
      have hC0 := hC u
      rw [hu] at hC0
      have : stacksAfter cfg s F a s' u = [] := by
        cases a <;> simp only [stacksAfter, show F u = [] from hC0] <;>
        · split
          · rename_i e; subst e; simp only [hu]
          · rfl
      rw [this]; exact .nil
    | some th =>
      have hc : Cut th (F u) := by have := hC u; rw [hu] at this; exact this
      have hr := ih.stack u th hu
      obtain ⟨st, sc⟩ := cur_stable hI hs hst hu
      have st' : ∀ q ∈ (F u).flatMap (·.rest), deref s' q = deref s q := by rw [hc.flat]; exact st
      by_cases htid : a.tid = some u
      · have own : ∀ {s0 : State V} {x : Thread V}, s0.threads = s.threads → (s0.setThread u x).threads[u]? = some th' → x = th' := by
          intro s0 x e h
          have : (s0.setThread u x).threads[u]? = some x := by
            show (s0.threads.set u x)[u]? = _
            rw [e, set_getElem? _ _ _ _ _ hu, if_pos rfl]
          rw [this] at h; cases h; rfl
        -- the frames without the current object
        have base : Rising level B s' (F u) none := Rising.stable ⟨hr.frames, hr.rise, fun _ h => (nomatch h)⟩ st' fun _ h => (nomatch h)
        -- the drop of the same object goes on
        have same : ∀ b, th.pc.cur = some b → th.pc ≠ .dropFree b → Rising level B s' (F u) (some b) := by
          intro b hb hne
          rw [← hb]
          refine hr.stable st' fun c hc => sc c hc (.inr ?_)
          rw [hb] at hc; cases hc; exact hne
        -- the argument of `new` is destroyed
        have unw : ∀ (c : Call V) (r : Option Addr) (x y : Option V), callOk cfg s y c → th.pc.local = some c.val →
            s'.threads[u]? = some (unwindCall cfg c r x) →
            Rising level B s' (settle s' u (if c.dst then [] else [⟨c.val, cfg.kids c.val⟩])) (unwindCall cfg c r x).pc.cur := by
          intro c r x y hcall hl hx
          refine rising_settle hx ?_
          cases hd : c.dst with
          | true => exact .nil
          | false =>
            have hcv := hcall.2.1 hd
            simp only [unwindCall, hcv, Pc.cur]
            refine ⟨fun f hf => ?_, by simp, fun _ h => (nomatch h)⟩
            simp only [Bool.false_eq_true, if_false, List.mem_singleton] at hf
            subst hf
            exact (ih.calls u th hu _ hl).stable fun q hq => step_data hI hs hst (hI.in_table (local_owned hu hl hq))
        have hp := (hI.th u th hu).pc
        have quiet : th'.pc.dropping = false → Rising level B s' (stacksAfter cfg s F a s' u) th'.pc.cur := by
          intro hd; rw [hC1.none hd]; exact .nil
        have hR := step_R hst
        cases hR with
        | spawn => cases htid
        | run t a th0 _ ht hrun =>
          cases htid
          rw [hu] at ht; cases ht
          have e2 : stacksAfter cfg s F (.run u a) s' u = settle s' u (advance cfg s th (F u)) := by
            simp only [stacksAfter, if_pos, hu]
          rw [e2]
          have stay : advance cfg s th (F u) = F u → Rising level B s' (F u) th'.pc.cur →
              Rising level B s' (settle s' u (advance cfg s th (F u))) th'.pc.cur := by
            intro e h; rw [e]; exact rising_settle hu' h
          cases hrun with
          | todo p ps hpc htodo =>
            cases own rfl hu'
            refine rising_settle hu' ?_
            cases hF : F u with
            | nil => have := hc.flat; rw [htodo, hF] at this; simp at this
            | cons f fs =>
              obtain ⟨v, rest⟩ := f
              rw [hF] at base hc
              cases rest with
              | nil => exact absurd rfl (hc.head hpc ⟨v, []⟩ (by simp))
              | cons q qs =>
                have e := hc.flat
                rw [htodo] at e
                simp only [List.flatMap_cons, List.cons_append, List.cons.injEq] at e
                simp only [advance, hpc]
                have hb := base.frames ⟨v, q :: qs⟩ (by simp)
                have hrise := List.pairwise_cons.mp base.rise
                refine ⟨fun f hf => ?_, List.pairwise_cons.mpr ⟨fun g hg => hrise.1 g hg, hrise.2⟩, fun b hb' w hw f hf => ?_⟩
                · rcases List.mem_cons.mp hf with rfl | hf
                  · exact ⟨hb.1, fun x hx => hb.2 x (List.mem_cons_of_mem _ hx)⟩
                  · exact base.frames f (List.mem_cons_of_mem _ hf)
                · simp only [Pc.cur, Option.mem_def, Option.some.injEq] at hb'
                  subst hb'
                  have h0 := hb.2 p (by rw [e.1]; simp) w hw
                  rcases List.mem_cons.mp hf with rfl | hf
                  · exact h0
                  · exact Nat.lt_trans h0 (hrise.1 f hf)
          | ret b hpc => cases own rfl hu'; exact stay (by simp only [advance, hpc]; split <;> simp_all [hc.nil]) base
          | hitRet c sh b hpc =>
            cases own rfl hu'
            rw [hpc] at hp
            have : advance cfg s th (F u) = (if c.dst then [] else [⟨c.val, cfg.kids c.val⟩]) := by simp [advance, hpc]
            rw [this]
            exact unw c _ _ _ hp.1 (by simp [hpc, Pc.local]) hu'
          | subLast b x hpc =>
            cases own rfl hu'
            exact stay (by simp [advance, hpc]) (same b (by simp [hpc, Pc.cur]) (by simp [hpc]))
          | sub b x hpc => cases own rfl hu'; exact stay (by simp [advance, hpc]) base
          | remove b r x hpc hx hl hf =>
            cases own rfl hu'
            obtain ⟨g1, y, g2, g3⟩ := find_some hf
            have h1 : 0 < R s b := (count_flatMap_pos _ b s.threads).mpr ⟨u, th, hu, by simp [hpc, Pc.removing]⟩
            have h2 := hI.pend b
            have hmem : b ∈ s.table := by
              refine List.count_pos_iff.mp (show 0 < T s b from ?_)
              split at h2
              · rename_i h; exact h.1
              · omega
            cases hI.uniq r b y x g1 hmem g2 hx g3
            exact stay (by simp [advance, hpc]) (same b (by simp [hpc, Pc.cur]) (by simp [hpc]))
          | removeNone b x hpc => cases own rfl hu'; exact stay (by simp [advance, hpc]) base
          | free b x hpc hx =>
            cases own rfl hu'
            refine rising_settle hu' ?_
            simp only [advance, hpc, hx]
            have hlt := hr.cur b (by simp [hpc, Pc.cur]) x.data (by simp [deref, hx])
            refine ⟨fun f hf => ?_, List.pairwise_cons.mpr ⟨hlt, base.rise⟩, fun _ h => (nomatch h)⟩
            rcases List.mem_cons.mp hf with rfl | hf
            · exact (ih.heap _ (mem_of_get hx)).stable fun q hq => step_data hI hs hst (hI.in_table (heap_owned (mem_of_get hx) hq))
            · exact base.frames f hf
          | _ =>
            cases own rfl hu'
            first
              | rw [← e2]; exact quiet rfl
              | exact stay (by simp_all [advance]) base
        | new _ _ _ _ ht hid => cases htid; rw [hu] at ht; cases ht; cases own rfl hu'; exact base
        | drop _ _ _ ht hid =>
          cases htid; rw [hu] at ht; cases ht
          simp only [Thread.isIdle, Bool.and_eq_true, List.isEmpty_iff] at hid
          have : F u = [] := by
            refine hc.nil ?_ hid.1.2
            cases hpc : th.pc <;> simp_all
          simp only [stacksAfter, this]; exact .nil
        | len _ _ _ _ ht hid => cases htid; rw [hu] at ht; cases ht; cases own rfl hu'; exact base
        | shrink _ _ _ _ ht hid => cases htid; rw [hu] at ht; cases ht; cases own rfl hu'; exact base
        | clone t path th0 p x ht hid =>
          cases (hu.symm.trans hu')
          exact hr.stable st' fun b _ => get_data_setCount s.heap _ _ b
        | read => cases (hu.symm.trans hu'); exact hr
        | panicLoop _ _ c ht hpc =>
          cases htid; rw [hu] at ht; cases ht; cases own rfl hu'
          rw [hpc] at hp
          simp only [stacksAfter, if_pos, hu, unwound, hpc]
          exact unw c _ _ _ hp (by simp [hpc, Pc.local]) hu'
        | panicEntry _ _ c b ht hpc =>
          cases htid; rw [hu] at ht; cases ht; cases own rfl hu'
          simp only [stacksAfter, if_pos, hu, unwound, hpc]
          rw [hc.none (by simp [hpc, Pc.dropping]), settle_nil]
          exact .nil
        | panicRemove _ _ b ht hpc =>
          cases htid; rw [hu] at ht; cases ht; cases own rfl hu'
          simp only [stacksAfter, if_pos, hu, unwound, hpc]
          exact rising_settle hu' base
        | panicShrink _ _ i m ht hpc =>
          cases htid; rw [hu] at ht; cases ht; cases own rfl hu'
          simp only [stacksAfter, if_pos, hu, unwound, hpc]
          exact rising_settle hu' base
        | panicInsert => exact hs.elim
      · have e1 := step_other hst htid hu
        have e2 : stacksAfter cfg s F a s' u = F u := by
          cases a <;> simp only [stacksAfter] <;>
          · rw [if_neg]; rintro rfl; exact htid rfl
        rw [e1] at hu'; cases hu'
        rw [e2]
        refine hr.stable st' fun b hb => sc b hb (.inl ?_)
        rintro x rfl; exact htid rfl

/-- C60 (b). The depth of `drop`'s recursion is bounded by the nesting of the interned values: if the values passed to `new`
can be given levels up to `B`, such that each value is above the values of the handles in it, then at no time more than `B`
destructors are running inside each other in one thread. This covers every interleaving, handles dropped by several threads at
the same time, destruction of unused arguments, and panics. -/
theorem C60_depth_bound [EquivBEq V] [LawfulHashable V] {cfg : Cfg V} (hv : cfg.Valid) {level : V → Nat} {B : Nat} {s : State V}
    {F : Stacks V} (h : Stacked cfg (Levelled cfg level B) s F) (t : Tid) : (F t).length ≤ B := by
  have hI := reach_inv hv h.reach
  have hC := h.cuts hv t
  cases ht : s.threads[t]? with
  | none => rw [ht] at hC; rw [show F t = [] from hC]; exact Nat.zero_le _
  | some th =>
    rw [ht] at hC
    replace hC : Cut th (F t) := hC
    have hr := (h.levels hv).stack t th ht
    cases hF : F t with
    | nil => exact Nat.zero_le _
    | cons f fs =>
      rw [hF] at hr hC
      suffices hpos : ∃ w, ∀ g ∈ f :: fs, level w < level g.val by
        obtain ⟨w, hw⟩ := hpos
        have := rising_length (f :: fs) (level w) (fun g hg => ⟨hw g hg, (hr.frames g hg).1⟩) hr.rise (by simp)
        omega
      have viaCur : ∀ b w, th.pc.cur = some b → deref s b = some w → ∃ w, ∀ g ∈ f :: fs, level w < level g.val :=
        fun b w hb hw => ⟨w, hr.cur b hb w hw⟩
      have hth := (hI.th t th ht).pc
      cases hpc : th.pc with
      | idle =>
        have hne := hC.head hpc f (by simp)
        obtain ⟨q, hq⟩ := List.exists_mem_of_ne_nil _ hne
        have hq' : q ∈ th.todo := by rw [← hC.flat]; exact List.mem_flatMap.mpr ⟨f, by simp, hq⟩
        obtain ⟨w, hw⟩ := hI.deref_some (List.count_pos_iff.mp (mem_owned_A (cfg := cfg) ht (b := q) (by simp [Thread.owned, hq'])))
        have h0 := (hr.frames f (by simp)).2 q hq w hw
        refine ⟨w, fun g hg => ?_⟩
        rcases List.mem_cons.mp hg with rfl | hg
        · exact h0
        · exact Nat.lt_trans h0 ((List.pairwise_cons.mp hr.rise).1 g hg)
      | dropSub b =>
        obtain ⟨w, hw⟩ := hI.deref_some (List.count_pos_iff.mp (mem_owned_A (cfg := cfg) ht (b := b) (by simp [Thread.owned, hpc, Pc.owned])))
        exact viaCur b w (by simp [hpc, Pc.cur]) hw
      | dropRemove b =>
        have h1 : 0 < R s b := (count_flatMap_pos _ b s.threads).mpr ⟨t, th, ht, by simp [hpc, Pc.removing]⟩
        have h2 := hI.pend b
        have hmem : b ∈ s.table := by
          refine List.count_pos_iff.mp (show 0 < T s b from ?_)
          split at h2
          · rename_i h; exact h.1
          · omega
        obtain ⟨x, hx⟩ := exists_get (hI.mem_keys hmem)
        exact viaCur b x.data (by simp [hpc, Pc.cur]) (by simp [deref, hx])
      | dropFree b =>
        have h1 := mem_priv_P ht (b := b) (by simp [hpc, Pc.priv])
        have h2 := hI.split b
        obtain ⟨x, hx⟩ := exists_get (List.count_pos_iff.mp (by simp only [K] at h2; omega : 0 < (keys s.heap).count b))
        exact viaCur b x.data (by simp [hpc, Pc.cur]) (by simp [deref, hx])
      | _ => have := hC.none (by simp [hpc, Pc.dropping]); cases this

/-- C60 (c). For a type whose values contain no handles, `drop` never recurses. -/
theorem C60_flat [EquivBEq V] [LawfulHashable V] {cfg : Cfg V} (hv : cfg.Valid) (hk : ∀ v, cfg.kids v = []) {s : State V}
    {F : Stacks V} (h : Stacked cfg (fun _ _ => True) s F) (t : Tid) : F t = [] := by
  have : Stacked cfg (Levelled cfg (fun _ => 0) 0) s F := by
    clear t
    induction h with
    | init => exact .init
    | @step s s' F a h h1 _ h2 h3 ih =>
      refine .step ih h1 ?_ h2 h3
      cases a <;> simp [Levelled, hk]
  have := C60_depth_bound hv this t
  exact List.length_eq_zero_iff.mp (by omega)

/-! ### Without such a bound the depth is unbounded -/
namespace Chain

/-- The value of the object at address `k + 1`: it holds a handle to the object at address `k` (`Cons(ArcIntern<List>)`), the
first one holds none (`Nil`). -/
def link (k : Nat) : Val := { key := 0, kids := if k = 0 then [] else [k] }
/-- `n` objects, each holding the only handle to the previous one. -/
def heap : Nat → List (Addr × Cell Val)
  | 0 => []
  | n + 1 => (n + 1, ⟨1, link n⟩) :: heap n
def table : Nat → List Addr
  | 0 => []
  | n + 1 => (n + 1) :: table n
def held (n : Nat) : List Addr := if n = 0 then [] else [n]
def st (h : List (Addr × Cell Val)) (tb : List Addr) (lk : Nat → Option Tid) (hs : List Addr) (th : Thread Val) : State Val :=
  { heap := h, table := tb, locks := lk, handles := hs, threads := [th], zombies := [] }
def free' : Nat → Option Tid := fun _ => none

theorem mem_table {n b : Nat} : b ∈ table n ↔ 1 ≤ b ∧ b ≤ n := by
  induction n with
  | zero => simp [table]; omega
  | succ n ih => simp only [table, List.mem_cons, ih]; omega
theorem get_heap {n b : Nat} : get (heap n) b = if 1 ≤ b ∧ b ≤ n then some ⟨1, link (b - 1)⟩ else none := by
  induction n with
  | zero => rw [if_neg (by omega)]; rfl
  | succ n ih =>
    simp only [heap, get, ih]
    by_cases e : n + 1 = b
    · subst e; simp
    · rw [if_neg e]
      by_cases h : 1 ≤ b ∧ b ≤ n
      · rw [if_pos h, if_pos (by omega)]
      · rw [if_neg h, if_neg (by omega)]
theorem keys_heap (n : Nat) : keys (heap n) = table n := by
  induction n with
  | zero => rfl
  | succ n ih => simp only [heap, table, ← ih]; rfl
theorem stored_heap (n p : Nat) : (storedHandles demoCfg (heap n)).count p ≤ if 1 ≤ p ∧ p + 1 ≤ n then 1 else 0 := by
  induction n with
  | zero => simp [heap, storedHandles]
  | succ n ih =>
    have : storedHandles demoCfg (heap (n + 1)) = (link n).kids ++ storedHandles demoCfg (heap n) := rfl
    rw [this, List.count_append]
    have h1 : (link n).kids.count p ≤ if n ≠ 0 ∧ n = p then 1 else 0 := by
      simp only [link]
      split
      · simp
      · rw [List.count_singleton]
        simp_all
    split at ih <;> split at h1 <;> split <;> omega
theorem link_inj {i j : Nat} (h : keyEq (link i) (link j) = true) : i = j := by
  simp only [keyEq, Bool.and_eq_true, Val.beq_iff] at h
  have := h.2.2
  simp only [link] at this
  split at this <;> split at this <;> simp_all
theorem keyEq_link (i : Nat) : keyEq (link i) (link i) = true := by
  simp [keyEq]

theorem find_none' {n : Nat} {h : List (Addr × Cell Val)} (hg : ∀ b ∈ table n, get h b = get (heap n) b) {lk hs th} :
    find (st h (table n) lk hs th) (link n) = none := by
  simp only [find, st, List.find?_eq_none]
  intro b hb
  rw [hg b hb, get_heap, if_pos (mem_table.mp hb)]
  intro h
  have := link_inj h
  have := mem_table.mp hb
  omega
theorem tableOk' {n : Nat} {h : List (Addr × Cell Val)} (hg : ∀ b ∈ table n, (get h b).isSome) {lk hs th} :
    tableOk (st h (table n) lk hs th) = true := by
  simp only [tableOk, st, List.all_eq_true]; exact hg

theorem small' {h : List (Addr × Cell Val)} {tb lk hs th} (h1 : ∀ p, (storedHandles demoCfg h).count p ≤ 1)
    (h2 : (hs ++ th.owned demoCfg).length ≤ 2) : Small demoCfg (st h tb lk hs th) := by
  intro p
  have e : allHandles demoCfg (st h tb lk hs th) = (hs ++ th.owned demoCfg) ++ storedHandles demoCfg h := by
    simp [allHandles, st]
  rw [e, List.count_append]
  have h3 := List.count_le_length (l := hs ++ th.owned demoCfg) (a := p)
  have h4 := h1 p
  have : demoCfg.W = 2 ^ 64 := rfl
  omega

abbrev Ok : State Val → Act Val → Prop := fun _ a => a.NoPanic

/-- One step of the construction. -/
theorem go {s s' : State Val} {F : Stacks Val} (h : Stacked demoCfg Ok s F) (a : Act Val) (hn : a.NoPanic)
    (hst : step demoCfg s a = .ok s') (hsm : Small demoCfg s') : Stacked demoCfg Ok s' (stacksAfter demoCfg s F a s') := by
  refine .step h ?_ hn hst hsm
  cases a <;> simp_all [Act.Sane, Act.NoPanic]

/-- The stack of the only thread. -/
def At (s : State Val) (fs : List (Waiting Val)) : Prop := ∃ F, Stacked demoCfg Ok s F ∧ F 0 = fs

theorem at_call {h tb lk hs th s' fs} (hat : At (st h tb lk hs th) fs) (a : Act Val) (hn : a.NoPanic)
    (hst : step demoCfg (st h tb lk hs th) a = .ok s') (hsm : Small demoCfg s') (hr : ∀ x, a ≠ .run 0 x) : At s' fs := by
  obtain ⟨F, hF, rfl⟩ := hat
  refine ⟨_, go hF a hn hst hsm, ?_⟩
  cases a with
  | run t x =>
    have : t ≠ 0 := by rintro rfl; exact hr x rfl
    simp only [stacksAfter]; rw [if_neg (Ne.symm this)]
  | panic t => exact hn.elim
  | _ => rfl

theorem at_run {h tb lk hs th s' fs fs'} (hat : At (st h tb lk hs th) fs) (x : Addr)
    (hst : RunR demoCfg (st h tb lk hs th) 0 th x s') (hsm : Small demoCfg s')
    (hfs : settle s' 0 (advance demoCfg (st h tb lk hs th) th fs) = fs') : At s' fs' := by
  obtain ⟨F, hF, rfl⟩ := hat
  subst hfs
  have hI := reach_inv demoCfg_valid hF.reach
  exact ⟨_, go hF (.run 0 x) trivial (R_step' (.inr hI.tableOk) rfl hst) hsm, by simp [stacksAfter, st]⟩

theorem stored_le {n : Nat} (p : Nat) : (storedHandles demoCfg (heap n)).count p ≤ 1 :=
  Nat.le_trans (stored_heap n p) (by split <;> omega)

theorem kids_le (n : Nat) : (link n).kids.length ≤ 1 := by simp only [link]; split <;> simp

theorem relock (i : Nat) : (fun j => if j = i then none else (if j = i then some 0 else free' j) : Nat → Option Tid) = free' := by
  funext j; simp only [free']; split <;> simp

/-- `new(link n)` when `n` objects of the chain exist. -/
theorem build_step {n : Nat} (hat : At (st (heap n) (table n) free' (held n) {}) []) :
    At (st (heap (n + 1)) (table (n + 1)) free' (held (n + 1)) {}) [] := by
  let c : Call Val := ⟨link n, false, none⟩
  have hk : (link n).kids = held n := by simp only [link, held]
  have h1 : At (st (heap n) (table n) free' [] { pc := .newLoop c, arg := some (link n) }) [] := by
    refine at_call hat (.new 0 (link n) false) trivial ?_ (small' stored_le ?_) (by simp)
    · show step demoCfg (st (heap n) (table n) free' (held n) {}) (.new 0 (link n) false) = _
      simp only [step, st, List.getElem?_cons_zero]
      have e1 : demoCfg.kids (link n) = held n := hk
      rw [e1]
      have e2 : ownsAll (held n) (held n) = true := by simp [ownsAll]
      have e3 : eraseAll (held n) (held n) = [] := by
        simp only [held]; split <;> simp [eraseAll]
      simp [Thread.isIdle, e2, e3, State.setThread, c]
    · simp only [Thread.owned, Pc.owned, c, List.nil_append, List.append_nil, Option.toList]
      exact Nat.le_trans (kids_le n) (by omega)
  have hown : (([] : List Addr) ++ demoCfg.kids (link n)).length ≤ 2 := Nat.le_trans (kids_le n) (by omega)
  have h2 : At (st (heap n) (table n) free' [] { pc := .newAlloc c, arg := some (link n) }) [] :=
    at_run h1 0 (.missing c rfl rfl (find_none' fun _ _ => rfl) rfl)
      (small' stored_le (by simpa [Thread.owned, Pc.owned] using hown)) rfl
  have h3 : At (st (heap (n + 1)) (table n) free' [] { pc := .newEntry c (n + 1), arg := some (link n) }) [] :=
    at_run h2 (n + 1) (.alloc c rfl (Nat.succ_ne_zero n) (by show n + 1 ∉ keys (heap n); rw [keys_heap]; exact fun h => absurd (mem_table.mp h).2 (Nat.not_succ_le_self n)))
      (small' stored_le (by simp [Thread.owned, Pc.owned])) rfl
  have hf : find (st (heap (n + 1)) (table n) free' [] { pc := .newEntry c (n + 1), arg := some (link n) }) (link n) = none := by
    refine find_none' fun b hb => ?_
    simp only [heap, get]
    exact if_neg fun e => absurd (mem_table.mp hb).2 (by rw [← e]; exact Nat.not_succ_le_self n)
  have hg : get (heap (n + 1)) (n + 1) = some ⟨1, link n⟩ := by simp [heap, get]
  have h4 := at_run h3 0 (.vacant c (n + 1) ⟨1, link n⟩ rfl hg rfl hf) (small' stored_le (by simp [Thread.owned, Pc.owned, st, State.lock, State.setThread])) rfl
  have h5 : At (st (heap (n + 1)) (table (n + 1)) (fun j => if j = demoCfg.shardOf (link n) then some 0 else free' j) []
      { pc := .newInserted c (demoCfg.shardOf (link n)) (n + 1), arg := some (link n) }) [] :=
    at_run h4 0 (.insert c _ (n + 1) rfl) (small' stored_le (by simp [Thread.owned, Pc.owned, st, State.lock, State.setThread])) rfl
  have h6 : At (st (heap (n + 1)) (table (n + 1)) free' [] { ret := some (n + 1), arg := some (link n) }) [] := by
    rw [← relock (demoCfg.shardOf (link n))]
    exact at_run h5 0 (.inserted c _ (n + 1) rfl) (small' stored_le (by simp [Thread.owned, Pc.owned])) rfl
  exact at_run h6 0 (.ret (n + 1) rfl rfl rfl) (small' stored_le (by simp [Thread.owned, Pc.owned, held])) rfl

theorem build (n : Nat) : At (st (heap n) (table n) free' (held n) {}) [] := by
  induction n with
  | zero =>
    refine ⟨_, go .init .spawn trivial rfl ?_, rfl⟩
    exact small_of_length (by decide)
  | succ n ih => exact build_step ih

/-- Dropping the object at address `n + 2`, whose value holds the only handle to the object at `n + 1`. -/
theorem drop_step {n : Nat} {fs : List (Waiting Val)}
    (hat : At (st (heap (n + 2)) (table (n + 2)) free' [] { pc := .dropSub (n + 2) }) fs) :
    At (st (heap (n + 1)) (table (n + 1)) free' [] { pc := .dropSub (n + 1) }) (⟨link (n + 1), []⟩ :: fs) := by
  have hnot : n + 2 ∉ keys (heap (n + 1)) := by rw [keys_heap, mem_table]; omega
  have hset : setCount (heap (n + 2)) (n + 2) 0 = (n + 2, ⟨0, link (n + 1)⟩) :: heap (n + 1) := by
    show setCount ((n + 2, ⟨1, link (n + 1)⟩) :: heap (n + 1)) (n + 2) 0 = _
    simp only [setCount, List.map_cons, if_pos]
    congr 1
    have : ∀ e ∈ heap (n + 1), e.1 ≠ n + 2 := fun e he h => hnot (h ▸ List.mem_map_of_mem he)
    rw [List.map_congr_left (g := id)]
    · simp
    · intro e he; rw [if_neg (this e he)]; rfl
  have hfree : free ((n + 2, (⟨0, link (n + 1)⟩ : Cell Val)) :: heap (n + 1)) (n + 2) = heap (n + 1) := by
    have := free_eq_self hnot
    simp only [free] at this ⊢
    simpa using this
  have hst : ∀ p, (storedHandles demoCfg ((n + 2, (⟨0, link (n + 1)⟩ : Cell Val)) :: heap (n + 1))).count p ≤ 1 :=
    fun p => stored_le (n := n + 2) p
  have h1 : At (st ((n + 2, ⟨0, link (n + 1)⟩) :: heap (n + 1)) (table (n + 2)) free' [] { pc := .dropRemove (n + 2) }) fs := by
    have hd : demoCfg.dec 1 = 0 := by decide
    rw [← hset, ← hd]
    exact at_run hat 0 (.subLast (n + 2) ⟨1, link (n + 1)⟩ rfl (by simp [st, heap, get]) rfl)
      (small' (by rw [hd, hset]; exact hst) (by simp [Thread.owned, Pc.owned])) rfl
  have h2 : At (st ((n + 2, ⟨0, link (n + 1)⟩) :: heap (n + 1)) (table (n + 1)) free' [] { pc := .dropFree (n + 2) }) fs := by
    have e : (table (n + 2)).erase (n + 2) = table (n + 1) := by simp [table]
    rw [← e]
    refine at_run h1 0 (.remove (n + 2) (n + 2) ⟨0, link (n + 1)⟩ rfl (by simp [st, get]) rfl ?_)
      (small' hst (by simp [Thread.owned, Pc.owned])) rfl
    show List.find? _ (table (n + 2)) = _
    simp [table, st, get, keyEq_link]
  have h3 : At (st (heap (n + 1)) (table (n + 1)) free' [] { todo := [n + 1] }) (⟨link (n + 1), [n + 1]⟩ :: fs) := by
    have e : st (heap (n + 1)) (table (n + 1)) free' [] { todo := [n + 1] } =
        st (free ((n + 2, (⟨0, link (n + 1)⟩ : Cell Val)) :: heap (n + 1)) (n + 2)) (table (n + 1)) free' [] { todo := [n + 1] } := by rw [hfree]
    rw [e]
    refine at_run h2 0 (.free (n + 2) ⟨0, link (n + 1)⟩ rfl (by simp [st, get]))
      (small' (by rw [hfree]; exact stored_le) (by simp [Thread.owned, Pc.owned, demoCfg, link])) ?_
    simp [settle, advance, st, get, State.setThread, popDone, demoCfg, link]
  exact at_run h3 0 (.todo (n + 1) [] rfl rfl) (small' stored_le (by simp [Thread.owned, Pc.owned])) rfl

theorem drops (m : Nat) : ∀ (n : Nat) (fs : List (Waiting Val)),
    At (st (heap (n + m + 1)) (table (n + m + 1)) free' [] { pc := .dropSub (n + m + 1) }) fs →
    ∃ s fs', At s fs' ∧ s.threads.length = 1 ∧ fs'.length = fs.length + m := by
  induction m with
  | zero => intro n fs h; exact ⟨_, fs, h, rfl, rfl⟩
  | succ m ih =>
    intro n fs h
    obtain ⟨s, fs', h1, h2, h3⟩ := ih n _ (drop_step (n := n + m) h)
    exact ⟨s, fs', h1, h2, by rw [h3]; simp; omega⟩

end Chain

/-- C60 (d). Without a bound on the nesting there is no bound on the depth: for every `m` there is a program with one thread and
without panics in which `m` destructors run inside each other. (The program interns a list of `m + 1` cells, each holding the only
handle to the next, and drops the last handle.) A long enough list overflows the stack of the thread. -/
theorem C60_depth_unbounded (m : Nat) : ∃ s F, Stacked demoCfg (fun _ a => a.NoPanic) s F ∧ s.threads.length = 1 ∧ (F 0).length = m := by
  have h0 := Chain.build (m + 1)
  have h1 : Chain.At (Chain.st (Chain.heap (m + 1)) (Chain.table (m + 1)) Chain.free' [] { pc := .dropSub (m + 1) }) [] := by
    refine Chain.at_call h0 (.drop 0 (m + 1)) trivial ?_ (Chain.small' Chain.stored_le (by simp [Thread.owned, Pc.owned])) (by simp)
    simp [step, Chain.st, Chain.held, Thread.isIdle, State.setThread]
  obtain ⟨s, fs, ⟨F, hF, rfl⟩, h2, h3⟩ := Chain.drops m 0 [] (by simpa using h1)
  exact ⟨s, F, hF, h2, by simpa using h3⟩

/-! ### The hypotheses are met -/

/-- Run actions, keeping the stacks and checking `ok`. -/
def stackedRun (cfg : Cfg Val) (ok : State Val → Act Val → Bool) (s : State Val) (F : Stacks Val) :
    List (Act Val) → Option (State Val × Stacks Val)
  | [] => some (s, F)
  | a :: as => match step cfg s a with
    | .ok s' => if a.sane && ok s a && decide ((allHandles cfg s').length < cfg.W)
        then stackedRun cfg ok s' (stacksAfter cfg s F a s') as else none
    | _ => none

theorem stackedRun_ok {cfg : Cfg Val} {ok : State Val → Act Val → Bool} {P : State Val → Act Val → Prop}
    (hP : ∀ s a, ok s a = true → P s a) (as : List (Act Val)) :
    ∀ {s s' : State Val} {F F' : Stacks Val}, Stacked cfg P s F → stackedRun cfg ok s F as = some (s', F') → Stacked cfg P s' F' := by
  induction as with
  | nil => intro s s' F F' h e; simp only [stackedRun, Option.some.injEq, Prod.mk.injEq] at e; exact e.1 ▸ e.2 ▸ h
  | cons a as ih =>
    intro s s' F F' h e
    simp only [stackedRun] at e
    cases hs : step cfg s a with
    | ok s1 =>
      simp only [hs] at e
      split at e
      · rename_i hc
        simp only [Bool.and_eq_true, decide_eq_true_eq] at hc
        refine ih (.step h ?_ (hP _ _ hc.1.2) hs (small_of_length hc.2)) e
        cases a <;> simp_all [Act.Sane, Act.sane]
      · cases e
    | blocked => simp [hs] at e
    | ub => simp [hs] at e

/-- `Levelled`, computed. -/
def levelled (cfg : Cfg Val) (level : Val → Nat) (B : Nat) (s : State Val) : Act Val → Bool
  | .new _ v _ => decide (level v ≤ B) && (cfg.kids v).all fun q => match deref s q with
    | some w => decide (level w < level v)
    | none => true
  | _ => true

theorem levelled_ok {cfg : Cfg Val} {level : Val → Nat} {B : Nat} (s : State Val) (a : Act Val)
    (h : levelled cfg level B s a = true) : Levelled cfg level B s a := by
  cases a with
  | new t v d =>
    simp only [levelled, Bool.and_eq_true, decide_eq_true_eq, List.all_eq_true] at h
    refine ⟨h.1, fun q hq w hw => ?_⟩
    have := h.2 q hq
    rw [hw] at this
    simpa using this
  | _ => trivial

/-- Two objects inside a third: three nested values with levels 0, 1, 2, the level being the key. The outermost is
dropped; the actions stop when the innermost object is being dropped. -/
def nestActs : List (Act Val) :=
  [.spawn, .new 0 { key := 0 } false, .run 0 0, .run 0 1, .run 0 0, .run 0 0, .run 0 0, .run 0 0,
    .clone 0 [1],
    .new 0 { key := 1, kids := [1] } false, .run 0 0, .run 0 2, .run 0 0, .run 0 0, .run 0 0, .run 0 0,
    .new 0 { key := 2, kids := [1, 2] } false, .run 0 0, .run 0 3, .run 0 0, .run 0 0, .run 0 0, .run 0 0,
    .drop 0 3, .run 0 0, .run 0 0, .run 0 0, -- object 3 is freed, handles 1 and 2 are to be dropped
    .run 0 0, .run 0 0, -- handle 1: not the last one
    .run 0 0, .run 0 0, .run 0 0, .run 0 0, -- handle 2: object 2 is freed
    .run 0 0, .run 0 0] -- handle 1: the last one

/-- The bound of `C60_depth_bound` is reached: at the end two destructors are running, the bound is 2. -/
example : ∃ s F, Stacked demoCfg (Levelled demoCfg Val.key 2) s F ∧ (F 0).length = 2 := by
  have h : (stackedRun demoCfg (levelled demoCfg Val.key 2) init (fun _ => []) nestActs).any
      (fun r => decide ((r.2 0).length = 2)) = true := by decide
  obtain ⟨r, hr, h1⟩ := (Option.any_eq_true _ _).mp h
  exact ⟨r.1, r.2, stackedRun_ok levelled_ok nestActs .init hr, by simpa using h1⟩

/-- The frames in that execution: the destructor of object 2 has nothing left to do, nor has that of object 3. -/
example : (stackedRun demoCfg (levelled demoCfg Val.key 2) init (fun _ => []) nestActs).any
    (fun r => decide ((r.2 0).map (fun f => (f.val.key, f.rest)) = [(1, []), (2, [])])) = true := by decide
/-- Seven steps earlier the destructor of object 3 was waiting for the first of its handles and still had to drop the second. -/
example : (stackedRun demoCfg (levelled demoCfg Val.key 2) init (fun _ => []) (nestActs.take 28)).any
    (fun r => decide ((r.2 0).map (fun f => (f.val.key, f.rest)) = [(2, [2])])) = true := by decide

/-- A type without handles in its values, for `C60_flat`: the hypothesis holds and objects are interned. -/
def flatCfg : Cfg Val := { demoCfg with kids := fun _ => [] }
example : ∃ s F, Stacked flatCfg (fun _ _ => True) s F ∧ s.table = [1] := by
  have h : (stackedRun flatCfg (fun _ _ => true) init (fun _ => []) [.spawn, .new 0 { key := 7 } false, .run 0 0, .run 0 1,
      .run 0 0, .run 0 0, .run 0 0, .run 0 0, .drop 0 1, .run 0 0]).any (fun r => decide (r.1.table = [1])) = true := by decide
  obtain ⟨r, hr, h1⟩ := (Option.any_eq_true _ _).mp h
  exact ⟨r.1, r.2, stackedRun_ok (fun _ _ _ => trivial) _ .init hr, by simpa using h1⟩
example : ∀ v, flatCfg.kids v = [] := fun _ => rfl

end Arc
