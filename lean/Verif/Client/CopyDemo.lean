import Verif.Client.Demo
import Verif.Client.Copy
/-! Checked executions of programs that build terms from handles that are `Copy`, used to show that the hypotheses of the theorems of C96 are
met. Pools 0 and 1 are `Intern` pools behind the same lock, 2 and up are arenas. -/
namespace Client.Copy
open Pool (Ptr)
open Client (Machine okOf okOf_some if_some empty empty_iff suffix_one pool_run_hist new_run_hist)

/-! ### Running a program -/

section
variable {L R P : Type} [DecidableEq P] {I : Interner (Node L P) P}

/-- What a thread does without a call. -/
def lookF (d : P → Option (Node L P)) (th : Thread L R P) (qs : List (List P)) : Option (Thread L R P × List (List P)) :=
  match th.prog with
  | .eq i j k => match th.locals[i]?, th.locals[j]? with
    | some p, some q => some ({ th with prog := k (Traits.eq p q) }, qs)
    | _, _ => none
  | .node i k => match th.locals[i]? with
    | some p => match d p with
      | some x => some ({ th with prog := k x.label x.kids.length }, qs)
      | none => none
    | none => none
  | .kid i n k => match th.locals[i]? with
    | some p => match d p with
      | some x => match x.kids[n]? with
        | some q => some ({ th with prog := k, locals := th.locals ++ [q] }, qs)
        | none => none
      | none => none
    | none => none
  | .give q i k => match th.locals[i]?, qs[q]? with
    | some p, some l => some ({ th with prog := k }, qs.set q (l ++ [p]))
    | _, _ => none
  | .take q k => match qs[q]? with
    | some (p :: l) => some ({ th with prog := k, locals := th.locals ++ [p] }, qs.set q l)
    | _ => none
  | _ => none

theorem lookF_ok {s : I.State} {th th' : Thread L R P} {qs qs' : List (List P)} (h : lookF (I.deref s) th qs = some (th', qs')) :
    Look (handles I s) th qs th' qs' := by
  unfold lookF at h
  split at h
  · rename_i i j k e
    split at h
    · rename_i p q h1 h2
      cases h; exact .eq e h1 h2 rfl
    · cases h
  · rename_i i k e
    split at h
    · rename_i p h1
      split at h
      · rename_i x hx
        cases h; exact .node e h1 ⟨x.kids, hx, rfl⟩
      · cases h
    · cases h
  · rename_i i n k e
    split at h
    · rename_i p h1
      split at h
      · rename_i x hx
        split at h
        · rename_i q hq
          cases h; exact .kid e h1 ⟨x.label, x.kids, hx, hq⟩
        · cases h
      · cases h
    · cases h
  · rename_i q i k e
    split at h
    · rename_i p l h1 h2
      cases h; exact .give e h1 h2
    · cases h
  · rename_i q k e
    split at h
    · rename_i p l h1
      cases h; exact .take e h1
    · cases h
  · cases h

/-- Events of an execution. -/
inductive Ev (Lbl : Type)
  | inside (l : Lbl)
  | look (t : Nat)
  | call (t : Nat)
  | ret (t a : Nat)

/-- One event. -/
def play1 (K : Machine I) (w : World I R) : Ev K.Lbl → Option (World I R)
  | .inside l => match K.step w.state l with
    | some s => if (List.range w.conf.threads.length).all (fun t => K.idle w.state t == K.idle s t) && K.owns s w.conf.all then
        some ⟨s, w.conf⟩ else none
    | none => none
  | .look t => match w.conf.threads[t]? with
    | some th => if th.busy = false then match lookF (I.deref w.state) th w.conf.queues with
        | some (th', qs) => some ⟨w.state, { threads := w.conf.threads.set t th', queues := qs }⟩
        | none => none
      else none
    | none => none
  | .call t => match w.conf.threads[t]? with
    | some th => if th.busy = false then match th.prog with
        | .build l is _ => match pick is th.locals with
          | some ps => match K.call w.state t ⟨l, ps⟩ with
            | some s => if K.owns s w.conf.all then
                some ⟨s, { w.conf with threads := w.conf.threads.set t { th with busy := true } }⟩ else none
            | none => none
          | none => none
        | _ => none
      else none
    | none => none
  | .ret t a => match w.conf.threads[t]? with
    | some th => if th.busy = true then match th.prog with
        | .build _ _ k => match K.ret w.state t a with
          | some (b, s) =>
            some ⟨s, { w.conf with threads := w.conf.threads.set t { prog := k, locals := th.locals ++ [b], busy := false } }⟩
          | none => none
        | _ => none
      else none
    | none => none

theorem play1_ok {K : Machine I} {w w' : World I R} {e : Ev K.Lbl} (h : play1 K w e = some w') : WStep w w' := by
  cases e with
  | inside l =>
    simp only [play1] at h
    split at h
    · rename_i s hs
      split at h
      · rename_i hc
        cases h
        obtain ⟨h1, h2⟩ := Bool.and_eq_true_iff.mp hc
        refine .inside (K.step_ok hs) (fun t ht => ?_) (K.owns_ok h2)
        have := List.all_eq_true.mp h1 t (List.mem_range.mpr ht)
        rw [← K.idle_ok, ← K.idle_ok, eq_of_beq this]
      · cases h
    · cases h
  | look t =>
    simp only [play1] at h
    split at h
    · rename_i th ht
      split at h
      · rename_i hp
        split at h
        · rename_i th' qs hl
          cases h; exact .look ht hp (lookF_ok hl)
        · cases h
      · cases h
    · cases h
  | call t =>
    simp only [play1] at h
    split at h
    · rename_i th ht
      split at h
      · rename_i hp
        split at h
        · rename_i l is k hg
          split at h
          · rename_i ps hps
            split at h
            · rename_i s hs
              split at h
              · rename_i ho
                cases h; exact .call ht hp hg hps (K.call_ok hs) (K.owns_ok ho)
              · cases h
            · cases h
          · cases h
        · cases h
      · cases h
    · cases h
  | ret t a =>
    simp only [play1] at h
    split at h
    · rename_i th ht
      split at h
      · rename_i hp
        split at h
        · rename_i l is k hg
          split at h
          · rename_i b s hs
            cases h; exact .ret ht hp hg (K.ret_ok hs)
          · cases h
        · cases h
      · cases h
    · cases h

/-- A list of events. When an event is not possible yet, a step of the interner with one of the given labels comes first. -/
def play (K : Machine I) : Nat → World I R → List (List K.Lbl × Ev K.Lbl) → Option (World I R)
  | 0, _, _ => none
  | _ + 1, w, [] => some w
  | n + 1, w, (ls, e) :: r => match play1 K w e with
    | some w' => play K n w' r
    | none => match ls.findSome? fun l => play1 K w (.inside l) with
      | some w' => play K n w' ((ls, e) :: r)
      | none => none

theorem play_ok {K : Machine I} {w0 : World I R} : ∀ {n : Nat} {l : List (List K.Lbl × Ev K.Lbl)} {w w' : World I R}, WRun w0 w →
    play K n w l = some w' → WRun w0 w' := by
  intro n
  induction n with
  | zero => intro l w w' _ e; cases e
  | succ n ih =>
    intro l w w' h e
    cases l with
    | nil => cases e; exact h
    | cons x r =>
      obtain ⟨ls, x⟩ := x
      simp only [play] at e
      split at e
      · rename_i w1 h1
        exact ih (.step h (play1_ok h1)) e
      · split at e
        · rename_i w1 h1
          obtain ⟨y, _, hy⟩ := List.exists_of_findSome?_eq_some h1
          exact ih (.step h (play1_ok hy)) e
        · cases e

/-- The end of an execution. -/
def after (K : Machine I) (w : World I R) (l : List (List K.Lbl × Ev K.Lbl)) : World I R := (play K 400 w l).getD w

theorem after_run (K : Machine I) (w : World I R) (l : List (List K.Lbl × Ev K.Lbl)) : WRun w (after K w l) := by
  unfold after
  cases h : play K 400 w l with
  | none => exact .refl
  | some w' => exact play_ok .refl h

end

/-! ### `Intern`, `ArenaIntern` -/

/-- Nodes with a number. -/
abbrev Term := Node Nat Ptr

/-- A hash function that often collides. -/
instance : Hashable Term := ⟨fun x => UInt64.ofNat (x.label % 2)⟩

def pcfg : Pool.Cfg Nat Term where
  lockOf k := if k < 2 then 7 else 100 + k
  owns k := decide (2 ≤ k)
  zst _ _ := false
  info _ _ := 0
  dangle _ _ := 8

theorem playout : pcfg.Layout where
  size _ _ _ _ := rfl
  unique _ _ _ h := by cases h

/-- Lawful actions. -/
inductive Cmd where
  | spawn
  | new (t k : Nat) (v : Term)
  | run (t a : Nat)

def Cmd.act : Cmd → Src.PoolCode.Act Nat Term
  | .spawn => .spawn
  | .new t k v => .call t (.intern k (.ofVal v) v) false
  | .run t a => .run t a

theorem Cmd.lawful (c : Cmd) : c.act.Lawful := by
  cases c with
  | new t k v => exact Pool.lawful_new k v
  | _ => exact True.intro

def poolRet (k : Nat) (S : Src.PoolCode.State Nat Term) (t a : Nat) : Option (Ptr × Src.PoolCode.State Nat Term) :=
  match S.threads[t]? with
  | some [c] => match okOf (Src.PoolCode.step pcfg S (.run t a)) with
    | some S' => match S'.hist with
      | .ret ⟨j, .intern k' _ _, .ptr p⟩ :: _ =>
        if j = c.id ∧ k' = k ∧ S'.hist.length = S.hist.length + 1 ∧ empty S'.threads[t]? = true then some (p, S') else none
      | _ => none
    | none => none
  | _ => none

theorem poolRet_ok {k : Nat} {S S' : Src.PoolCode.State Nat Term} {t a : Nat} {p : Ptr} (h : poolRet k S t a = some (p, S')) :
    (pool pcfg k).Returns S t p S' := by
  unfold poolRet at h
  split at h
  · rename_i c ht
    split at h
    · rename_i X1 hs
      have h1 := okOf_some hs
      split at h
      · rename_i j k' q v p' l hh
        split at h
        · rename_i hc
          cases h
          obtain ⟨rfl, rfl, hlen, he⟩ := hc
          obtain ⟨m, hm⟩ := pool_run_hist h1
          rw [hh] at hm hlen
          exact ⟨c, a, q, v, ht, h1, empty_iff.mp he, hh.trans (suffix_one hm hlen)⟩
        · cases h
      · cases h
    · cases h
  · cases h

/-- The handles that calls have returned. -/
def poolHandles (k : Nat) (S : Src.PoolCode.State Nat Term) : List Ptr := S.hist.filterMap fun
  | .ret ⟨_, .intern k' _ _, .ptr p⟩ => if k' = k then some p else none
  | _ => none

theorem poolHandles_ok {k : Nat} {S : Src.PoolCode.State Nat Term} {p : Ptr} (h : p ∈ poolHandles k S) :
    ∃ j q v, Src.PoolCode.Returned S ⟨j, .intern k q v, .ptr p⟩ := by
  obtain ⟨e, he, hp⟩ := List.mem_filterMap.mp h
  split at hp
  · rename_i j k' q v p'
    split at hp
    · rename_i hk
      cases hp; subst hk
      exact ⟨j, q, v, he⟩
    · cases hp
  · cases hp

def poolMachine (k : Nat) : Machine (pool pcfg k) where
  Lbl := Cmd
  step S c := okOf (Src.PoolCode.step pcfg S c.act)
  idle S t := empty S.threads[t]?
  owns S l := !decide (k ∈ S.gone) && l.all fun p => decide (p ∈ poolHandles k S)
  call S t v := if empty S.threads[t]? then okOf (Src.PoolCode.step pcfg S (.call t (.intern k (.ofVal v) v) false)) else none
  ret := poolRet k
  clone S t _ := if empty S.threads[t]? then some S else none
  drop S t _ := if empty S.threads[t]? then some S else none
  step_ok := by
    intro S c S' h
    exact ⟨c.act, c.lawful, okOf_some h⟩
  idle_ok := empty_iff
  owns_ok := by
    intro S l h
    obtain ⟨h1, h2⟩ := Bool.and_eq_true_iff.mp h
    refine ⟨by simpa using h1, fun p hp => poolHandles_ok ?_⟩
    exact of_decide_eq_true (List.all_eq_true.mp h2 p (List.count_pos_iff.mp hp))
  call_ok := by
    intro S t v S' h
    obtain ⟨hi, h⟩ := if_some h
    exact ⟨empty_iff.mp hi, _, false, Pool.lawful_new k v, okOf_some h⟩
  ret_ok := poolRet_ok
  clone_ok := by
    intro S t p S' h
    obtain ⟨hi, h⟩ := if_some h
    cases h; exact ⟨empty_iff.mp hi, rfl⟩
  drop_ok := by
    intro S t p S' h
    obtain ⟨hi, h⟩ := if_some h
    cases h; exact ⟨empty_iff.mp hi, rfl⟩

/-! ### typearena.rs -/

def ncfg : Src.NewCode.Cfg Nat Term where
  typeId k := 50 + k
  shard k := if k < 2 then 7 else 3
  zst _ _ := false
  info _ _ := 0
  dangle _ _ := 8

theorem nlayout : ncfg.Layout where
  types k k' h := by simp only [ncfg] at h; omega
  memory := ⟨fun _ _ _ _ => rfl, fun _ _ _ h => by cases h⟩

/-- The same actions. -/
def Cmd.act' : Cmd → Src.NewCode.Act Nat Term
  | .spawn => .spawn
  | .new t k v => .call t (.intern k (.ofVal v) v) false false
  | .run t a => .run t a

theorem Cmd.lawful' (c : Cmd) : c.act'.Lawful := by
  cases c with
  | new t k v => exact Pool.lawful_new k v
  | _ => exact True.intro

def newRet (k : Nat) (S : Src.NewCode.State Nat Term) (t a : Nat) : Option (Ptr × Src.NewCode.State Nat Term) :=
  match S.threads[t]? with
  | some [c] => match okOf (Src.NewCode.step ncfg S (.run t a)) with
    | some S' => match S'.hist with
      | .ret ⟨j, .intern k' _ _, .ptr p⟩ :: _ =>
        if j = c.id ∧ k' = k ∧ S'.hist.length = S.hist.length + 1 ∧ empty S'.threads[t]? = true then some (p, S') else none
      | _ => none
    | none => none
  | _ => none

theorem newRet_ok {k : Nat} {S S' : Src.NewCode.State Nat Term} {t a : Nat} {p : Ptr} (h : newRet k S t a = some (p, S')) :
    (newIntern ncfg k).Returns S t p S' := by
  unfold newRet at h
  split at h
  · rename_i c ht
    split at h
    · rename_i X1 hs
      have h1 := okOf_some hs
      split at h
      · rename_i j k' q v p' l hh
        split at h
        · rename_i hc
          cases h
          obtain ⟨rfl, rfl, hlen, he⟩ := hc
          obtain ⟨m, hm⟩ := new_run_hist h1
          rw [hh] at hm hlen
          exact ⟨c, a, q, v, ht, h1, empty_iff.mp he, hh.trans (suffix_one hm hlen)⟩
        · cases h
      · cases h
    · cases h
  · cases h

/-- The handles that calls have returned. -/
def newHandles (k : Nat) (S : Src.NewCode.State Nat Term) : List Ptr := S.hist.filterMap fun
  | .ret ⟨_, .intern k' _ _, .ptr p⟩ => if k' = k then some p else none
  | _ => none

theorem newHandles_ok {k : Nat} {S : Src.NewCode.State Nat Term} {p : Ptr} (h : p ∈ newHandles k S) :
    ∃ j q v, Src.NewCode.Returned S ⟨j, .intern k q v, .ptr p⟩ := by
  obtain ⟨e, he, hp⟩ := List.mem_filterMap.mp h
  split at hp
  · rename_i j k' q v p'
    split at hp
    · rename_i hk
      cases hp; subst hk
      exact ⟨j, q, v, he⟩
    · cases hp
  · cases hp

def newMachine (k : Nat) : Machine (newIntern ncfg k) where
  Lbl := Cmd
  step S c := okOf (Src.NewCode.step ncfg S c.act')
  idle S t := empty S.threads[t]?
  owns S l := l.all fun p => decide (p ∈ newHandles k S)
  call S t v := if empty S.threads[t]? then okOf (Src.NewCode.step ncfg S (.call t (.intern k (.ofVal v) v) false false)) else none
  ret := newRet k
  clone S t _ := if empty S.threads[t]? then some S else none
  drop S t _ := if empty S.threads[t]? then some S else none
  step_ok := by
    intro S c S' h
    exact ⟨c.act', c.lawful', okOf_some h⟩
  idle_ok := empty_iff
  owns_ok := by
    intro S l h p hp
    exact newHandles_ok (of_decide_eq_true (List.all_eq_true.mp h p (List.count_pos_iff.mp hp)))
  call_ok := by
    intro S t v S' h
    obtain ⟨hi, h⟩ := if_some h
    exact ⟨empty_iff.mp hi, _, false, false, Pool.lawful_new k v, okOf_some h⟩
  ret_ok := newRet_ok
  clone_ok := by
    intro S t p S' h
    obtain ⟨hi, h⟩ := if_some h
    cases h; exact ⟨empty_iff.mp hi, rfl⟩
  drop_ok := by
    intro S t p S' h
    obtain ⟨hi, h⟩ := if_some h
    cases h; exact ⟨empty_iff.mp hi, rfl⟩


/-! ### Threads at the start -/

/-- Four threads, and the fourth has no part in the program. -/
def fourPool : Src.PoolCode.State Nat Term := match Src.PoolCode.step pcfg Src.PoolCode.init .spawn with
  | .ok a => match Src.PoolCode.step pcfg a .spawn with
    | .ok b => match Src.PoolCode.step pcfg b .spawn with
      | .ok c => match Src.PoolCode.step pcfg c .spawn with
        | .ok d => d
        | _ => c
      | _ => b
    | _ => a
  | _ => Src.PoolCode.init

theorem fourPool_reach : Src.PoolCode.Reach pcfg fourPool := by
  unfold fourPool
  split
  · rename_i a ha
    have h1 := Src.PoolCode.Reach.step .init (act := .spawn) True.intro ha
    split
    · rename_i b hb
      have h2 := h1.step (act := .spawn) True.intro hb
      split
      · rename_i c hc
        have h3 := h2.step (act := .spawn) True.intro hc
        split
        · rename_i d hd
          exact h3.step (act := .spawn) True.intro hd
        · exact h3
      · exact h2
    · exact h1
  · exact .init

def fourNew : Src.NewCode.State Nat Term := match Src.NewCode.step ncfg Src.NewCode.init .spawn with
  | .ok a => match Src.NewCode.step ncfg a .spawn with
    | .ok b => match Src.NewCode.step ncfg b .spawn with
      | .ok c => match Src.NewCode.step ncfg c .spawn with
        | .ok d => d
        | _ => c
      | _ => b
    | _ => a
  | _ => Src.NewCode.init

theorem fourNew_reach : Src.NewCode.Reach ncfg fourNew := by
  unfold fourNew
  split
  · rename_i a ha
    have h1 := Src.NewCode.Reach.step .init (act := .spawn) True.intro ha
    split
    · rename_i b hb
      have h2 := h1.step (act := .spawn) True.intro hb
      split
      · rename_i c hc
        have h3 := h2.step (act := .spawn) True.intro hc
        split
        · rename_i d hd
          exact h3.step (act := .spawn) True.intro hd
        · exact h3
      · exact h2
    · exact h1
  · exact .init

end Client.Copy
