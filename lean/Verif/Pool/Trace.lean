import Verif.Pool.Order
/-
Happens-before for the lock-protected pools: the events of an execution, program order, and the synchronisation edge from
releasing a mutex to every later acquisition of it (the guarantee of `std::sync::Mutex` and `spin::Mutex`).
-/
namespace Pool
variable {K V : Type} [DecidableEq K]

/-- What an event does.
* `acq i`, `rel i`: lock and unlock mutex `i`.
* `make k p`: the value behind handle `p` of pool `k` is written into its new box (intern.rs:215, 233; arena.rs:126, 148).
* `table k`: the hash set of pool `k` is read or changed (intern.rs:212, 216; arena.rs:120, 128).
* `use k p`: client code uses the value behind handle `p` of pool `k` through `Deref` (intern.rs:387-393).
* `send k p`, `recv n k p`: client code passes handle `p` of pool `k` to another thread, by anything that synchronises (a channel, a
  mutex, spawning or joining a thread); `n` is the position of the `send`. Handles can be copied (intern.rs:109, arena.rs:98), so
  the sender keeps its own. -/
inductive What (K : Type) where
  | acq (i : Nat)
  | rel (i : Nat)
  | make (k : K) (p : Ptr)
  | table (k : K)
  | use (k : K) (p : Ptr)
  | send (k : K) (p : Ptr)
  | recv (n : Nat) (k : K) (p : Ptr)
  deriving DecidableEq

/-- The handle that client code touches. -/
def What.handle : What K → Option (K × Ptr)
  | .use k p | .send k p | .recv _ k p => some (k, p)
  | _ => none

structure Ev (K : Type) where
  tid : Tid
  what : What K
  deriving DecidableEq

/-- Happens-before between positions of a trace (oldest event first). -/
inductive HB (tr : List (Ev K)) : Nat → Nat → Prop where
  | po {i j a b} : i < j → tr[i]? = some a → tr[j]? = some b → a.tid = b.tid → HB tr i j
  | sync {i j t u m} : i < j → tr[i]? = some ⟨t, .rel m⟩ → tr[j]? = some ⟨u, .acq m⟩ → HB tr i j
  | msg {i j t u k p} : i < j → tr[i]? = some ⟨t, .send k p⟩ → tr[j]? = some ⟨u, .recv i k p⟩ → HB tr i j
  | trans {i j k} : HB tr i j → HB tr j k → HB tr i k

/-- Two events conflict unordered: different threads and neither happens before the other. -/
def Unordered (tr : List (Ev K)) (i j : Nat) : Prop :=
  ∃ a b, tr[i]? = some a ∧ tr[j]? = some b ∧ a.tid ≠ b.tid ∧ ¬ HB tr i j ∧ ¬ HB tr j i

/-- The events of one action. -/
def events (cfg : Cfg K V) (s : State K V) : Act K V → List (Ev K)
  | .run t a => match s.threads[t]? with
    | some (.want o) => [⟨t, .acq (cfg.lockOf o.pool)⟩]
    | some (.inside o) => [⟨t, .table o.pool⟩]
    | some (.build k _ v) => match allocAt cfg s k v a with
      | some x => [⟨t, .make k ⟨x, cfg.info k v⟩⟩]
      | none => []
    | some (.insert k _ _ _) => [⟨t, .table k⟩]
    | some (.leave o _) => [⟨t, .rel (cfg.lockOf o.pool)⟩]
    | _ => []
  -- unwinding drops the guard
  | .panic t => match s.threads[t]? with
    | some (.inside o) => [⟨t, .rel (cfg.lockOf o.pool)⟩]
    | some (.build k _ _) | some (.insert k _ _ _) | some (.dropArg k _ _ _) => [⟨t, .rel (cfg.lockOf k)⟩]
    | _ => []
  | _ => []

/-- Thread `t` has handle `p` of pool `k`: one of its calls returned it, or it received it from another thread. -/
def Has (s : State K V) (tr : List (Ev K)) (t : Tid) (k : K) (p : Ptr) : Prop :=
  (∃ q v, ⟨t, .intern k q v, .ptr p⟩ ∈ s.done) ∨ ∃ (j : Nat) (n : Nat), tr[j]? = some ⟨t, .recv n k p⟩

/-- Executions with their traces. A client may use a handle that one of its own calls returned, or that it received from another
thread, as long as the pool has not been dropped. -/
inductive Run [BEq V] [Hashable V] (cfg : Cfg K V) : State K V → List (Ev K) → Prop where
  | init : Run cfg init []
  | act {s s' a tr} : Run cfg s tr → Act.Lawful a → step cfg s a = .ok s' → Run cfg s' (tr ++ events cfg s a)
  | use {s tr t k p} : Run cfg s tr → Has s tr t k p → k ∉ s.gone → Run cfg s (tr ++ [⟨t, .use k p⟩])
  | send {s tr t k p} : Run cfg s tr → Has s tr t k p → Run cfg s (tr ++ [⟨t, .send k p⟩])
  | recv {s tr t u n k p} : Run cfg s tr → tr[n]? = some ⟨u, .send k p⟩ → Run cfg s (tr ++ [⟨t, .recv n k p⟩])

/-! ### Auxiliary facts -/

theorem HB.lt {tr : List (Ev K)} {i j : Nat} (h : HB tr i j) : i < j := by
  induction h with
  | po h _ _ _ => exact h
  | sync h _ _ => exact h
  | msg h _ _ => exact h
  | trans _ _ h1 h2 => exact Nat.lt_trans h1 h2

theorem get_append {α : Type} {l m : List α} {i : Nat} {a : α} (h : l[i]? = some a) : (l ++ m)[i]? = some a := by
  rw [List.getElem?_append_left (List.getElem?_eq_some_iff.mp h).1]; exact h

theorem HB.append {tr : List (Ev K)} (m : List (Ev K)) {i j : Nat} (h : HB tr i j) : HB (tr ++ m) i j := by
  induction h with
  | po h a b c => exact .po h (get_append a) (get_append b) c
  | sync h a b => exact .sync h (get_append a) (get_append b)
  | msg h a b => exact .msg h (get_append a) (get_append b)
  | trans _ _ h1 h2 => exact h1.trans h2

/-- `i` is seen by thread `t`: some event of `t` is `i` or comes after it. -/
def Seen (tr : List (Ev K)) (t : Tid) (i : Nat) : Prop := ∃ e w, tr[e]? = some ⟨t, w⟩ ∧ (i = e ∨ HB tr i e)

theorem Seen.append {tr : List (Ev K)} (m : List (Ev K)) {t : Tid} {i : Nat} (h : Seen tr t i) : Seen (tr ++ m) t i := by
  obtain ⟨e, w, h1, h2⟩ := h
  exact ⟨e, w, get_append h1, h2.imp id (HB.append m)⟩

/-- Seen events come before later events of the thread. -/
theorem Seen.hb {tr : List (Ev K)} {t : Tid} {i j : Nat} {w : What K} (h : Seen tr t i) (hj : tr.length = j) :
    HB (tr ++ [⟨t, w⟩]) i j := by
  obtain ⟨e, w', h1, h2⟩ := h
  have hlt : e < j := hj ▸ (List.getElem?_eq_some_iff.mp h1).1
  have h3 : HB (tr ++ [⟨t, w⟩]) e j := .po hlt (get_append h1) (b := ⟨t, w⟩)
    (by rw [← hj, List.getElem?_append_right (Nat.le_refl _)]; simp) rfl
  rcases h2 with rfl | h2
  · exact h3
  · exact (h2.append _).trans h3

/-- Is the event inside the critical section of mutex `L`? -/
def Crit (cfg : Cfg K V) (L : Nat) : What K → Prop
  | .acq i | .rel i => i = L
  | .make k _ | .table k => cfg.lockOf k = L
  | .use _ _ | .send _ _ | .recv _ _ _ => False

/-- Effects of a step on locks, results and trace. -/
inductive TKind [BEq V] [Hashable V] (cfg : Cfg K V) (s s' : State K V) : List (Ev K) → Prop where
  | quiet : s'.lock = s.lock → s'.done = s.done → TKind cfg s s' []
  | acq (t i) : s.lock i = none → s'.lock = (fun j => if j = i then some t else s.lock j) → s'.done = s.done →
      TKind cfg s s' [⟨t, .acq i⟩]
  | crit (t w k) : s.lock (cfg.lockOf k) = some t → s'.lock = s.lock → s'.done = s.done →
      (w = .table k ∨ ∃ p, w = .make k p ∧ ∀ u q v, ⟨u, .intern k q v, .ptr p⟩ ∉ s.done) → TKind cfg s s' [⟨t, w⟩]
  | rel (t i) : s.lock i = some t → s'.lock = (fun j => if j = i then none else s.lock j) →
      (s'.done = s.done ∨ ∃ o r, s'.done = ⟨t, o, r⟩ :: s.done ∧ cfg.lockOf o.pool = i) →
      TKind cfg s s' [⟨t, .rel i⟩]

variable [BEq V] [Hashable V]

theorem run_tkind [EquivBEq V] [LawfulHashable V] {cfg : Cfg K V} (lay : cfg.Layout) {s s' : State K V} (r : Reach cfg s)
    {t : Tid} {a : Nat} (hs : step cfg s (.run t a) = .ok s') : TKind cfg s s' (events cfg s (.run t a)) := by
  have I := r.inv lay
  simp only [step] at hs
  simp only [events]
  cases ht : s.threads[t]? with
  | none => rw [ht] at hs; cases hs
  | some pc =>
    rw [ht] at hs
    simp only at hs ⊢
    cases pc with
    | idle => cases hs
    | want o =>
      simp only [run] at hs
      split at hs
      · cases hs
      · rename_i hl
        cases hs
        exact .acq t _ (by simpa using hl) rfl rfl
    | inside o =>
      have hl := I.holder t _ _ ht rfl
      have key : s'.lock = s.lock ∧ s'.done = s.done := by
        simp only [run, I.tableOk, if_true] at hs
        cases o with
        | intern k q mk =>
          simp only at hs
          cases hf : find s k q <;> rw [hf] at hs <;> cases hs <;> exact ⟨rfl, rfl⟩
        | query k q => cases hs; exact ⟨rfl, rfl⟩
        | len k => cases hs; exact ⟨rfl, rfl⟩
        | clear k => exact absurd (I.pcs t _ ht) (by simp [PcOk, Op.Lawful])
      exact .crit t _ o.pool hl key.1 key.2 (.inl rfl)
    | build k q v =>
      have hl := I.holder t _ _ ht rfl
      simp only [run] at hs
      cases hal : allocAt cfg s k v a with
      | none => rw [hal] at hs; cases hs
      | some x =>
        rw [hal] at hs
        cases hs
        simp only [hal]
        refine .crit t _ k hl rfl rfl (.inr ⟨_, rfl, fun u q' w hd => ?_⟩)
        have hk := I.alive t _ k ht rfl
        obtain ⟨p, y, e, hp, hd, _⟩ := r.handle lay hk (r.done_sub hd)
        cases e
        have hmem := deref_mem hd
        have htab : (⟨x, cfg.info k v⟩ : Ptr) ∈ s.table k := by
          rw [I.tab k hk]
          exact List.mem_map_of_mem (f := (·.1)) hp
        have hne := (I.pcs t _ ht).2 _ htab y hmem
        have hsh := I.shape _ hmem
        simp only at hsh
        have hz := lay.size k v y hsh.1
        unfold allocAt at hal
        split at hal
        · rename_i hzv
          have := lay.unique k v y hzv (hz ▸ hzv) hsh.1
          rw [this] at hne
          simp at hne
        · rename_i hzv
          split at hal
          · rename_i hfr
            cases hal
            have := (List.all_eq_true.mp hfr.2) _ hmem
            simp only [← hz, hzv, Bool.false_or, bne_self_eq_false] at this
            cases this
          · cases hal
    | insert k q v p =>
      have hl := I.holder t _ _ ht rfl
      have key : s'.lock = s.lock ∧ s'.done = s.done := by
        simp only [run, I.tableOk, if_true] at hs
        cases hf : find s k (.ofVal v) <;> rw [hf] at hs <;> simp only at hs
        · cases hs; exact ⟨rfl, rfl⟩
        · cases hs
          constructor <;> (simp only [State.commit]; split <;> rfl)
      exact .crit t _ k hl key.1 key.2 (.inl rfl)
    | dropArg k q v p => cases hs; exact .quiet rfl rfl
    | leave o r' =>
      cases hs
      exact .rel t _ (I.holder t _ _ ht rfl) rfl (.inr ⟨o, r', rfl, rfl⟩)

theorem step_tkind [EquivBEq V] [LawfulHashable V] {cfg : Cfg K V} (lay : cfg.Layout) {s s' : State K V} (r : Reach cfg s)
    {a : Act K V} (hl : a.Lawful) (hs : step cfg s a = .ok s') : TKind cfg s s' (events cfg s a) := by
  have I := r.inv lay
  cases a with
  | spawn => cases hs; exact .quiet rfl rfl
  | call t o =>
    simp only [step] at hs
    cases ht : s.threads[t]? with
    | none => rw [ht] at hs; cases hs
    | some pc =>
      rw [ht] at hs
      cases pc with
      | idle =>
        simp only at hs
        split at hs
        · cases hs
        · cases hs; exact .quiet rfl rfl
      | _ => cases hs
  | run t a => exact run_tkind lay r hs
  | panic t =>
    simp only [step] at hs
    simp only [events]
    cases ht : s.threads[t]? with
    | none => rw [ht] at hs; cases hs
    | some pc =>
      rw [ht] at hs
      simp only at hs ⊢
      cases pc with
      | idle => cases hs
      | want o => cases hs
      | leave o r => cases hs
      | inside o => cases hs; exact .rel t _ (I.holder t _ _ ht rfl) rfl (.inl rfl)
      | build k q v => cases hs; exact .rel t _ (I.holder t _ _ ht rfl) rfl (.inl rfl)
      | insert k q v p => cases hs; exact .rel t _ (I.holder t _ _ ht rfl) rfl (.inl rfl)
      | dropArg k q v p => cases hs; exact .rel t _ (I.holder t _ _ ht rfl) rfl (.inl rfl)
  | dropArena k =>
    simp only [step] at hs
    split at hs
    · cases hs; exact .quiet rfl rfl
    · cases hs
  | read k p => exact absurd hl id

/-- The ordering invariant. -/
structure Ordered (cfg : Cfg K V) (s : State K V) (tr : List (Ev K)) : Prop where
  /-- critical events are released, or belong to the present holder. -/
  out : ∀ L i t w, tr[i]? = some ⟨t, w⟩ → Crit cfg L w →
    (∃ r u, tr[r]? = some ⟨u, .rel L⟩ ∧ (i = r ∨ HB tr i r)) ∨ s.lock L = some t
  /-- the holder of a mutex has seen all its critical events. -/
  seen : ∀ L t, s.lock L = some t → ∀ i u w, tr[i]? = some ⟨u, w⟩ → Crit cfg L w → Seen tr t i
  /-- critical events of one mutex are totally ordered. -/
  total : ∀ L i j t u w w', i < j → tr[i]? = some ⟨t, w⟩ → tr[j]? = some ⟨u, w'⟩ → Crit cfg L w → Crit cfg L w' →
    HB tr i j
  /-- a thread with a handle has seen the creation of the value. -/
  made : ∀ t k q v p, ⟨t, .intern k q v, .ptr p⟩ ∈ s.done → ∀ i u, tr[i]? = some ⟨u, .make k p⟩ → Seen tr t i
  /-- uses come after creation. -/
  used : ∀ i j t u k p w, tr[i]? = some ⟨t, .make k p⟩ → tr[j]? = some ⟨u, w⟩ → w.handle = some (k, p) → HB tr i j
  /-- only handles that some call returned are used. -/
  had : ∀ (j : Nat) u k p w, tr[j]? = some ⟨u, w⟩ → w.handle = some (k, p) → ∃ u' q v, ⟨u', .intern k q v, .ptr p⟩ ∈ s.done

theorem get_snoc {α : Type} {l : List α} {x a : α} {i : Nat} (h : (l ++ [x])[i]? = some a) :
    l[i]? = some a ∨ (i = l.length ∧ a = x) := by
  by_cases hi : i < l.length
  · rw [List.getElem?_append_left hi] at h; exact .inl h
  · have hle : l.length ≤ i := Nat.le_of_not_lt hi
    rw [List.getElem?_append_right hle] at h
    cases hd : i - l.length with
    | zero =>
      rw [hd] at h
      cases h
      exact .inr ⟨Nat.le_antisymm (Nat.sub_eq_zero_iff_le.mp hd) hle, rfl⟩
    | succ n => rw [hd] at h; simp at h

theorem get_last {α : Type} (l : List α) (x : α) : (l ++ [x])[l.length]? = some x := by simp

omit [BEq V] [Hashable V] in
theorem get_lt {α : Type} {l : List α} {i : Nat} {a : α} (h : l[i]? = some a) : i < l.length :=
  (List.getElem?_eq_some_iff.mp h).1

theorem Ordered.tkind {cfg : Cfg K V} {s s' : State K V} {tr es : List (Ev K)} (O : Ordered cfg s tr) (k : TKind cfg s s' es) : Ordered cfg s' (tr ++ es) := by
  cases k with
  | quiet h1 h2 =>
    rw [List.append_nil]
    exact ⟨by rw [h1]; exact O.out, by rw [h1]; exact O.seen, O.total, by rw [h2]; exact O.made, O.used, by rw [h2]; exact O.had⟩
  | acq t i hn h1 h2 =>
    have key : ∀ j u w, tr[j]? = some ⟨u, w⟩ → Crit cfg i w → HB (tr ++ [⟨t, .acq i⟩]) j tr.length := by
      intro j u w hj hc
      rcases O.out i j u w hj hc with ⟨r, u', hr, hh⟩ | hh
      · have h3 : HB (tr ++ [⟨t, .acq i⟩]) r tr.length :=
          .sync (get_lt hr) (get_append hr) (u := t) (m := i) (get_last _ _)
        rcases hh with rfl | hh
        · exact h3
        · exact (hh.append _).trans h3
      · rw [hn] at hh; cases hh
    refine ⟨?_, ?_, ?_, ?_, ?_, ?_⟩
    · intro L j u w hj hc
      rw [h1]
      by_cases hL : L = i
      · subst hL
        rcases get_snoc hj with hj | ⟨rfl, e⟩
        · rcases O.out L j u w hj hc with ⟨r, u', hr, hh⟩ | hh
          · exact .inl ⟨r, u', get_append hr, hh.imp id (HB.append _)⟩
          · rw [hn] at hh; cases hh
        · cases e
          exact .inr (if_pos rfl)
      · simp only [if_neg hL]
        rcases get_snoc hj with hj | ⟨rfl, e⟩
        · rcases O.out L j u w hj hc with ⟨r, u', hr, hh⟩ | hh
          · exact .inl ⟨r, u', get_append hr, hh.imp id (HB.append _)⟩
          · exact .inr hh
        · cases e
          exact absurd hc (fun e => hL e.symm)
    · intro L u hl j u' w hj hc
      rw [h1] at hl
      by_cases hL : L = i
      · subst hL
        simp only [if_true] at hl
        cases hl
        rcases get_snoc hj with hj | ⟨rfl, e⟩
        · exact ⟨_, _, get_last _ _, .inr (key j u' w hj hc)⟩
        · exact ⟨_, _, get_last _ _, .inl rfl⟩
      · simp only [if_neg hL] at hl
        rcases get_snoc hj with hj | ⟨rfl, e⟩
        · exact (O.seen L u hl j u' w hj hc).append _
        · cases e
          exact absurd hc (fun e => hL e.symm)
    · intro L j j' u u' w w' hlt hj hj' hc hc'
      rcases get_snoc hj' with hj' | ⟨rfl, e⟩
      · rcases get_snoc hj with hj | ⟨rfl, e⟩
        · exact (O.total L j j' u u' w w' hlt hj hj' hc hc').append _
        · exact absurd (get_lt hj') (Nat.not_lt.mpr (Nat.le_of_lt hlt))
      · cases e
        cases (show i = L from hc')
        rcases get_snoc hj with hj | ⟨rfl, e⟩
        · exact key j u w hj hc
        · exact absurd hlt (Nat.lt_irrefl _)
    · intro u k q v p hd j u' hj
      rw [h2] at hd
      rcases get_snoc hj with hj | ⟨rfl, e⟩
      · exact (O.made u k q v p hd j u' hj).append _
      · cases e
    · intro j j' u u' k p w hj hj' hw'
      rcases get_snoc hj with hj | ⟨rfl, e⟩
      · rcases get_snoc hj' with hj' | ⟨rfl, e⟩
        · exact (O.used j j' u u' k p w hj hj' hw').append _
        · cases e; cases hw'
      · cases e
    · intro j u k p w hj hw'
      rcases get_snoc hj with hj | ⟨rfl, e⟩
      · obtain ⟨u', q, v, hd⟩ := O.had j u k p w hj hw'
        exact ⟨u', q, v, by rw [h2]; exact hd⟩
      · cases e; cases hw'
  | crit t w k hl h1 h2 hw =>
    have hcw : ∀ L, Crit cfg L w ↔ cfg.lockOf k = L := by
      intro L
      rcases hw with rfl | ⟨p, rfl, _⟩ <;> exact Iff.rfl
    refine ⟨?_, ?_, ?_, ?_, ?_, ?_⟩
    · intro L j u w' hj hc
      rw [h1]
      rcases get_snoc hj with hj | ⟨rfl, e⟩
      · rcases O.out L j u w' hj hc with ⟨r, u', hr, hh⟩ | hh
        · exact .inl ⟨r, u', get_append hr, hh.imp id (HB.append _)⟩
        · exact .inr hh
      · cases e
        exact .inr ((hcw L).mp hc ▸ hl)
    · intro L u hl' j u' w' hj hc
      rw [h1] at hl'
      rcases get_snoc hj with hj | ⟨rfl, e⟩
      · exact (O.seen L u hl' j u' w' hj hc).append _
      · cases e
        rw [← (hcw L).mp hc, hl] at hl'
        cases hl'
        exact ⟨_, _, get_last _ _, .inl rfl⟩
    · intro L j j' u u' w1 w2 hlt hj hj' hc hc'
      rcases get_snoc hj' with hj' | ⟨rfl, e⟩
      · rcases get_snoc hj with hj | ⟨rfl, e⟩
        · exact (O.total L j j' u u' w1 w2 hlt hj hj' hc hc').append _
        · exact absurd (get_lt hj') (Nat.not_lt.mpr (Nat.le_of_lt hlt))
      · cases e
        rcases get_snoc hj with hj | ⟨rfl, e⟩
        · have := (hcw L).mp hc'
          exact (O.seen L t (this ▸ hl) j u w1 hj hc).hb rfl
        · exact absurd hlt (Nat.lt_irrefl _)
    · intro u k' q v p hd j u' hj
      rw [h2] at hd
      rcases get_snoc hj with hj | ⟨rfl, e⟩
      · exact (O.made u k' q v p hd j u' hj).append _
      · cases e
        rcases hw with hw | ⟨p', hw, hfr⟩
        · cases hw
        · cases hw
          exact absurd hd (hfr u q v)
    · intro j j' u u' k' p w' hj hj' hw'
      rcases get_snoc hj' with hx | ⟨rfl, e⟩
      · rcases get_snoc hj with hj | ⟨rfl, e⟩
        · exact (O.used j j' u u' k' p w' hj hx hw').append _
        · cases e
          rcases hw with hw | ⟨p', hw, hfr⟩
          · cases hw
          · cases hw
            obtain ⟨u'', q, v, hd⟩ := O.had j' u' k p w' hx hw'
            exact absurd hd (hfr u'' q v)
      · cases e
        rcases hw with hw | ⟨p', hw, hfr⟩ <;> (rw [hw] at hw'; cases hw')
    · intro j u k' p w' hj hw'
      rcases get_snoc hj with hj | ⟨rfl, e⟩
      · obtain ⟨u', q, v, hd⟩ := O.had j u k' p w' hj hw'
        exact ⟨u', q, v, by rw [h2]; exact hd⟩
      · cases e
        rcases hw with hw | ⟨p', hw, hfr⟩ <;> (rw [hw] at hw'; cases hw')
  | rel t i hl h1 h2 =>
    have key : ∀ j u w, tr[j]? = some ⟨u, w⟩ → Crit cfg i w → HB (tr ++ [⟨t, .rel i⟩]) j tr.length := by
      intro j u w hj hc
      exact (O.seen i t hl j u w hj hc).hb rfl
    refine ⟨?_, ?_, ?_, ?_, ?_, ?_⟩
    · intro L j u w hj hc
      by_cases hL : L = i
      · subst hL
        rcases get_snoc hj with hj | ⟨rfl, e⟩
        · exact .inl ⟨_, _, get_last _ _, .inr (key j u w hj hc)⟩
        · exact .inl ⟨_, _, get_last _ _, .inl rfl⟩
      · rw [h1]
        simp only [if_neg hL]
        rcases get_snoc hj with hj | ⟨rfl, e⟩
        · rcases O.out L j u w hj hc with ⟨r, u', hr, hh⟩ | hh
          · exact .inl ⟨r, u', get_append hr, hh.imp id (HB.append _)⟩
          · exact .inr hh
        · cases e
          exact absurd hc (fun e => hL e.symm)
    · intro L u hl' j u' w hj hc
      rw [h1] at hl'
      by_cases hL : L = i
      · simp [hL] at hl'
      · simp only [if_neg hL] at hl'
        rcases get_snoc hj with hj | ⟨rfl, e⟩
        · exact (O.seen L u hl' j u' w hj hc).append _
        · cases e
          exact absurd hc (fun e => hL e.symm)
    · intro L j j' u u' w w' hlt hj hj' hc hc'
      rcases get_snoc hj' with hj' | ⟨rfl, e⟩
      · rcases get_snoc hj with hj | ⟨rfl, e⟩
        · exact (O.total L j j' u u' w w' hlt hj hj' hc hc').append _
        · exact absurd (get_lt hj') (Nat.not_lt.mpr (Nat.le_of_lt hlt))
      · cases e
        cases (show i = L from hc')
        rcases get_snoc hj with hj | ⟨rfl, e⟩
        · exact key j u w hj hc
        · exact absurd hlt (Nat.lt_irrefl _)
    · intro u k q v p hd j u' hj
      rcases get_snoc hj with hj | ⟨rfl, e⟩
      · rcases h2 with h2 | ⟨o, r', h2, h3⟩
        · rw [h2] at hd
          exact (O.made u k q v p hd j u' hj).append _
        · rw [h2] at hd
          rcases List.mem_cons.mp hd with e | hd
          · cases e
            exact (O.seen i _ hl j _ _ hj h3).append _
          · exact (O.made u k q v p hd j u' hj).append _
      · cases e
    · intro j j' u u' k p w hj hj' hw'
      rcases get_snoc hj with hj | ⟨rfl, e⟩
      · rcases get_snoc hj' with hj' | ⟨rfl, e⟩
        · exact (O.used j j' u u' k p w hj hj' hw').append _
        · cases e; cases hw'
      · cases e
    · intro j u k p w hj hw'
      rcases get_snoc hj with hj | ⟨rfl, e⟩
      · obtain ⟨u', q, v, hd⟩ := O.had j u k p w hj hw'
        exact ⟨u', q, v, by
          rcases h2 with h2 | ⟨o, r', h2, h3⟩
          · rw [h2]; exact hd
          · rw [h2]; exact List.mem_cons_of_mem _ hd⟩
      · cases e; cases hw'

/-- A thread that has a handle has seen the creation of the value. -/
theorem Ordered.has_seen {cfg : Cfg K V} {s : State K V} {tr : List (Ev K)} (O : Ordered cfg s tr) {t : Tid} {k : K} {p : Ptr}
    (h : Has s tr t k p) {i : Nat} {u : Tid} (hi : tr[i]? = some ⟨u, .make k p⟩) : Seen tr t i := by
  rcases h with ⟨q, v, h⟩ | ⟨j, n, h⟩
  · exact O.made t k q v p h i u hi
  · exact ⟨j, _, h, .inr (O.used i j u t k p _ hi h rfl)⟩

theorem Ordered.has_done {cfg : Cfg K V} {s : State K V} {tr : List (Ev K)} (O : Ordered cfg s tr) {t : Tid} {k : K} {p : Ptr}
    (h : Has s tr t k p) : ∃ u q v, ⟨u, .intern k q v, .ptr p⟩ ∈ s.done := by
  rcases h with ⟨q, v, h⟩ | ⟨j, n, h⟩
  · exact ⟨t, q, v, h⟩
  · exact O.had j t k p _ h rfl

/-- Client code touches a handle. -/
theorem Ordered.client {cfg : Cfg K V} {s : State K V} {tr : List (Ev K)} (O : Ordered cfg s tr) {t : Tid} {w : What K} {k : K} {p : Ptr}
    (hw : w.handle = some (k, p)) (hm : ∀ (i : Nat) u, tr[i]? = some ⟨u, .make k p⟩ → HB (tr ++ [⟨t, w⟩]) i tr.length)
    (hd : ∃ u q v, ⟨u, .intern k q v, .ptr p⟩ ∈ s.done) : Ordered cfg s (tr ++ [⟨t, w⟩]) := by
  have nc : ∀ L, ¬ Crit cfg L w := by
    intro L hc
    cases w <;> simp [Crit, What.handle] at hc hw
  refine ⟨?_, ?_, ?_, ?_, ?_, ?_⟩
  · intro L j u w' hj hc
    rcases get_snoc hj with hj | ⟨rfl, e⟩
    · rcases O.out L j u w' hj hc with ⟨r, u', hr, hh⟩ | hh
      · exact .inl ⟨r, u', get_append hr, hh.imp id (HB.append _)⟩
      · exact .inr hh
    · cases e; exact absurd hc (nc L)
  · intro L u hl j u' w' hj hc
    rcases get_snoc hj with hj | ⟨rfl, e⟩
    · exact (O.seen L u hl j u' w' hj hc).append _
    · cases e; exact absurd hc (nc L)
  · intro L j j' u u' w1 w2 hlt hj hj' hc hc'
    rcases get_snoc hj' with hj' | ⟨rfl, e⟩
    · rcases get_snoc hj with hj | ⟨rfl, e⟩
      · exact (O.total L j j' u u' w1 w2 hlt hj hj' hc hc').append _
      · cases e; exact absurd hc (nc L)
    · cases e; exact absurd hc' (nc L)
  · intro u k' q v p' hd' j u' hj
    rcases get_snoc hj with hj | ⟨rfl, e⟩
    · exact (O.made u k' q v p' hd' j u' hj).append _
    · cases e; cases hw
  · intro j j' u u' k' p' w' hj hj' hw'
    rcases get_snoc hj with hj | ⟨rfl, e⟩
    · rcases get_snoc hj' with hj' | ⟨rfl, e⟩
      · exact (O.used j j' u u' k' p' w' hj hj' hw').append _
      · cases e
        rw [hw] at hw'; cases hw'
        exact hm j u hj
    · cases e; cases hw
  · intro j u k' p' w' hj hw'
    rcases get_snoc hj with hj | ⟨rfl, e⟩
    · exact O.had j u k' p' w' hj hw'
    · cases e
      rw [hw] at hw'; cases hw'
      exact hd

theorem Run.reach {cfg : Cfg K V} {s : State K V} {tr : List (Ev K)} (h : Run cfg s tr) : Reach cfg s := by
  induction h with
  | init => exact .init
  | act _ hl hs ih => exact ih.step hl hs
  | use _ _ _ ih => exact ih
  | send _ _ ih => exact ih
  | recv _ _ ih => exact ih

theorem Run.ordered [EquivBEq V] [LawfulHashable V] {cfg : Cfg K V} (lay : cfg.Layout) {s : State K V} {tr : List (Ev K)}
    (h : Run cfg s tr) : Ordered cfg s tr := by
  induction h with
  | init =>
    constructor
    · intro L i t w h; simp at h
    · intro L t h; cases h
    · intro L i j t u w w' _ h; simp at h
    · intro t k q v p h; cases h
    · intro i j t u k p w h; simp at h
    · intro j u k p w h; simp at h
  | act hr hl hs ih => exact ih.tkind (step_tkind lay hr.reach hl hs)
  | use hr hd hk O => exact O.client rfl (fun i u hi => (O.has_seen hd hi).hb rfl) (O.has_done hd)
  | send hr hd O => exact O.client rfl (fun i u hi => (O.has_seen hd hi).hb rfl) (O.has_done hd)
  | recv hr hn O =>
    refine O.client rfl (fun i u hi => ?_) (O.had _ _ _ _ _ hn rfl)
    exact ((O.used i _ u _ _ _ _ hi hn rfl).append _).trans (.msg (get_lt hn) (get_append hn) (get_last _ _))

end Pool
