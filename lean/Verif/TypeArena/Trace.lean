import Verif.Props.TypeArena
import Verif.Pool.Trace
/-!
Happens-before for the type table of `NewIntern` (typearena.rs:23-84): the events of an execution, and what orders them. The vectors
are lock-free, so the mutexes and hash sets in them reach other threads only through the length counter of `AppendOnlyVec`.
-/
namespace TypeArena.Trace
open TypeMap (Cfg Code Entry Tid Res Replay set_cases set_self set_other snoc_cases snoc_left shardIndex_lt)
open Pool (get_append get_snoc get_last get_lt)
variable (cfg : Cfg)

/-- What an event does.
* `push i pos`: a new mutex with an empty set is boxed, written to element `pos` of vector `i`, and published by increasing the length
  (typearena.rs:70-71).
* `load i n`: `iter()` reads the length of vector `i` and gets `n` (64, 77).
* `look i pos`: the loop reads element `pos` of vector `i` and the type of the box behind it (`downcast_ref`, 65, 78).
* `acq t pos`, `rel t pos`: lock and unlock the mutex for type `t` in element `pos` of its vector (66, 79).
* `data t pos`: the closure reads or changes the hash set in that mutex, and the values it owns.
* `done t r`: a call for type `t` returns `r`.
* `use t r`: client code uses that result; for a handle, it reads the value behind it.
* `send t r`, `recv n t r`: client code passes the result to another thread, by anything that synchronises; `n` is the position of the
  `send`. -/
inductive What where
  | push (i pos : Nat)
  | load (i n : Nat)
  | look (i pos : Nat)
  | acq (t : cfg.Ty) (pos : Nat)
  | rel (t : cfg.Ty) (pos : Nat)
  | data (t : cfg.Ty) (pos : Nat)
  | done (t : cfg.Ty) (r : cfg.R t)
  | use (t : cfg.Ty) (r : cfg.R t)
  | send (t : cfg.Ty) (r : cfg.R t)
  | recv (n : Nat) (t : cfg.Ty) (r : cfg.R t)

structure Ev where
  tid : Tid
  what : What cfg

variable {cfg}

/-- Happens-before between positions of a trace (oldest event first): the order within a thread; releasing a mutex before acquiring it;
pushing an element before reading a length that counts it (the length is increased by a release operation in a chain of
read-modify-writes, and read by an acquire load, in `append_only_vec`); sending before receiving. -/
inductive HB (tr : List (Ev cfg)) : Nat → Nat → Prop where
  | po {i j a b} : i < j → tr[i]? = some a → tr[j]? = some b → a.tid = b.tid → HB tr i j
  | sync {i j u u' t pos} : i < j → tr[i]? = some ⟨u, .rel t pos⟩ → tr[j]? = some ⟨u', .acq t pos⟩ → HB tr i j
  | pub {i j u u' v pos n} : i < j → tr[i]? = some ⟨u, .push v pos⟩ → tr[j]? = some ⟨u', .load v n⟩ → pos < n → HB tr i j
  | msg {i j u u' t r} : i < j → tr[i]? = some ⟨u, .send t r⟩ → tr[j]? = some ⟨u', .recv i t r⟩ → HB tr i j
  | trans {i j k} : HB tr i j → HB tr j k → HB tr i k

/-- The events of one action. -/
def events (s : State cfg) : Act cfg → List (Ev cfg)
  | .run u n => match s.threads[u]? with
    -- the loop may stop at the first match; that it looks at everything visible makes more accesses to order
    | some (.search t _) | some (.again t _ _) =>
      ⟨u, .load (cfg.shard t) n⟩ :: (List.range n).map fun p => ⟨u, .look (cfg.shard t) p⟩
    | some (.push t _) => [⟨u, .push (cfg.shard t) ((s.vecs[cfg.shard t]?).elim 0 (·.length))⟩]
    | some (.lock t _ pos) =>
      if (getCell s.vecs t pos).any (·.poisoned) then [⟨u, .acq t pos⟩, ⟨u, .rel t pos⟩] else [⟨u, .acq t pos⟩]
    | some (.inside t _ _ k pos) => match k with
      | .ret r => [⟨u, .rel t pos⟩, ⟨u, .done t r⟩]
      | .next _ _ => [⟨u, .data t pos⟩]
    | _ => []
  | .panic u => match s.threads[u]? with
    | some (.inside t _ _ _ pos) => [⟨u, .data t pos⟩, ⟨u, .rel t pos⟩]
    | _ => []
  | _ => []

/-- Thread `u` has result `r` of type `t`: one of its calls returned it, or it received it from another thread. -/
def Has (tr : List (Ev cfg)) (u : Tid) (t : cfg.Ty) (r : cfg.R t) : Prop :=
  ∃ j : Nat, tr[j]? = some ⟨u, .done t r⟩ ∨ ∃ n, tr[j]? = some ⟨u, .recv n t r⟩

/-- Executions with their traces. -/
inductive Run : State cfg → List (Ev cfg) → Prop where
  | init : Run (init cfg) []
  | act {s s' a tr} : Run s tr → step s a = .ok s' → Run s' (tr ++ events s a)
  | use {s tr u t r} : Run s tr → Has tr u t r → Run s (tr ++ [⟨u, .use t r⟩])
  | send {s tr u t r} : Run s tr → Has tr u t r → Run s (tr ++ [⟨u, .send t r⟩])
  | recv {s tr u u' n t r} : Run s tr → tr[n]? = some ⟨u', .send t r⟩ → Run s (tr ++ [⟨u, .recv n t r⟩])

/-! ### Auxiliary facts -/

theorem HB.lt {tr : List (Ev cfg)} {i j : Nat} (h : HB tr i j) : i < j := by
  induction h with
  | po h _ _ _ => exact h
  | sync h _ _ => exact h
  | pub h _ _ _ => exact h
  | msg h _ _ => exact h
  | trans _ _ h1 h2 => exact Nat.lt_trans h1 h2

theorem HB.append {tr : List (Ev cfg)} (m : List (Ev cfg)) {i j : Nat} (h : HB tr i j) : HB (tr ++ m) i j := by
  induction h with
  | po h a b c => exact .po h (get_append a) (get_append b) c
  | sync h a b => exact .sync h (get_append a) (get_append b)
  | pub h a b c => exact .pub h (get_append a) (get_append b) c
  | msg h a b => exact .msg h (get_append a) (get_append b)
  | trans _ _ h1 h2 => exact h1.trans h2

/-- `i` is seen by thread `u`: some event of `u` is `i` or comes after it. -/
def Seen (tr : List (Ev cfg)) (u : Tid) (i : Nat) : Prop := ∃ e w, tr[e]? = some ⟨u, w⟩ ∧ (i = e ∨ HB tr i e)

theorem Seen.append {tr : List (Ev cfg)} (m : List (Ev cfg)) {u : Tid} {i : Nat} (h : Seen tr u i) : Seen (tr ++ m) u i := by
  obtain ⟨e, w, h1, h2⟩ := h
  exact ⟨e, w, get_append h1, h2.imp id (HB.append m)⟩

theorem Seen.hb {tr : List (Ev cfg)} {u : Tid} {i : Nat} {w : What cfg} (h : Seen tr u i) :
    HB (tr ++ [⟨u, w⟩]) i tr.length := by
  obtain ⟨e, w', h1, h2⟩ := h
  have h3 : HB (tr ++ [⟨u, w⟩]) e tr.length := .po (get_lt h1) (get_append h1) (b := ⟨u, w⟩) (get_last _ _) rfl
  rcases h2 with rfl | h2
  · exact h3
  · exact (h2.append _).trans h3

theorem seen_last (tr : List (Ev cfg)) (u : Tid) (w : What cfg) : Seen (tr ++ [⟨u, w⟩]) u tr.length :=
  ⟨_, _, get_last _ _, .inl rfl⟩

/-- Events inside the critical sections of the mutex for `t` at `pos`. -/
def Crit (t : cfg.Ty) (pos : Nat) : What cfg → Prop
  | .acq t' p | .rel t' p | .data t' p => t' = t ∧ p = pos
  | _ => False

/-- Events that access element `pos` of vector `i`, or what is behind it, after it was pushed. -/
def Touch (i pos : Nat) : What cfg → Prop
  | .look j p => j = i ∧ p = pos
  | .acq t p | .rel t p | .data t p => cfg.shard t = i ∧ p = pos
  | _ => False

/-- The ordering invariant, for the holders `L` of the mutexes and the lengths `len` of the vectors. -/
structure Ord (L : cfg.Ty → Nat → Option Tid) (len : Nat → Nat) (tr : List (Ev cfg)) : Prop where
  /-- critical events are released, or belong to the present holder. -/
  out : ∀ {t pos i u w}, tr[i]? = some ⟨u, w⟩ → Crit t pos w →
    (∃ r v, tr[r]? = some ⟨v, .rel t pos⟩ ∧ (i = r ∨ HB tr i r)) ∨ L t pos = some u
  /-- the holder of a mutex has seen all its critical events. -/
  seen : ∀ {t pos u i v w}, L t pos = some u → tr[i]? = some ⟨v, w⟩ → Crit t pos w → Seen tr u i
  /-- critical events of one mutex are totally ordered. -/
  total : ∀ {t pos i j u v w w'}, i < j → tr[i]? = some ⟨u, w⟩ → tr[j]? = some ⟨v, w'⟩ → Crit t pos w → Crit t pos w' → HB tr i j
  /-- every element of a vector was pushed, once. -/
  pushed : ∀ {i p}, p < len i → ∃ (j : Nat) (u : Tid), tr[j]? = some ⟨u, .push i p⟩
  bound : ∀ {j : Nat} {u : Tid} {i p}, tr[j]? = some ⟨u, .push i p⟩ → p < len i
  once : ∀ {j k : Nat} {u v : Tid} {i p}, tr[j]? = some ⟨u, .push i p⟩ → tr[k]? = some ⟨v, .push i p⟩ → j = k
  reached : ∀ {k : Nat} {v : Tid} {i p w}, tr[k]? = some ⟨v, w⟩ → Touch i p w → p < len i
  /-- accesses come after the push. -/
  touch : ∀ {j k : Nat} {u v : Tid} {i p w}, tr[j]? = some ⟨u, .push i p⟩ → tr[k]? = some ⟨v, w⟩ → Touch i p w → HB tr j k

theorem Ord.init : Ord (cfg := cfg) (fun _ _ => none) (fun _ => 0) [] := by
  constructor <;> intros <;> simp_all

variable {L : cfg.Ty → Nat → Option Tid} {len : Nat → Nat} {tr : List (Ev cfg)}

/-- `u` has seen the push of element `p` of vector `i`. -/
def Knows (tr : List (Ev cfg)) (u : Tid) (i p : Nat) : Prop := ∃ (j : Nat) (v : Tid), tr[j]? = some ⟨v, .push i p⟩ ∧ Seen tr u j

theorem Knows.append {u : Tid} {i p : Nat} (h : Knows tr u i p) (m : List (Ev cfg)) : Knows (tr ++ m) u i p := by
  obtain ⟨j, v, h1, h2⟩ := h
  exact ⟨j, v, get_append h1, h2.append m⟩

/-- Reading a length makes the elements it counts known. -/
theorem Ord.know (O : Ord L len tr) {u : Tid} {i n p : Nat} (hp : p < n) (hn : n ≤ len i) : Knows (tr ++ [⟨u, .load i n⟩]) u i p := by
  obtain ⟨j, v, hj⟩ := O.pushed (Nat.lt_of_lt_of_le hp hn)
  exact ⟨j, v, get_append hj, _, _, get_last _ _, .inr (.pub (get_lt hj) (get_append hj) (get_last _ _) hp)⟩

/-- The effect of one event on the holders and lengths, and what makes it possible. -/
inductive GStep (L : cfg.Ty → Nat → Option Tid) (len : Nat → Nat) (tr : List (Ev cfg)) (u : Tid) :
    What cfg → (cfg.Ty → Nat → Option Tid) → (Nat → Nat) → Prop where
  | push (i) (len' : Nat → Nat) : (∀ j, len' j = if j = i then len i + 1 else len j) → GStep L len tr u (.push i (len i)) L len'
  | plain (w) : (∀ t pos, ¬ Crit t pos w) → (∀ i p, w ≠ .push i p) → (∀ i p, Touch i p w → Knows tr u i p) → GStep L len tr u w L len
  | acq (t pos) (L') : Knows tr u (cfg.shard t) pos → L t pos = none →
      (∀ t' p, L' t' p = if t' = t ∧ p = pos then some u else L t' p) → GStep L len tr u (.acq t pos) L' len
  | data (t pos) : Knows tr u (cfg.shard t) pos → L t pos = some u → GStep L len tr u (.data t pos) L len
  | rel (t pos) (L') : Knows tr u (cfg.shard t) pos → L t pos = some u →
      (∀ t' p, L' t' p = if t' = t ∧ p = pos then none else L t' p) → GStep L len tr u (.rel t pos) L' len

theorem Ord.keepOut (O : Ord L len tr) {e : Ev cfg} {t : cfg.Ty} {pos i : Nat} {u : Tid} {w : What cfg}
    (h : tr[i]? = some ⟨u, w⟩) (hc : Crit t pos w) :
    (∃ r v, (tr ++ [e])[r]? = some ⟨v, .rel t pos⟩ ∧ (i = r ∨ HB (tr ++ [e]) i r)) ∨ L t pos = some u := by
  rcases O.out h hc with ⟨r, v, hr, hh⟩ | h
  · exact .inl ⟨r, v, get_append hr, hh.imp id (HB.append _)⟩
  · exact .inr h

theorem Ord.gstep (O : Ord L len tr) {u : Tid} {w : What cfg} {L' : cfg.Ty → Nat → Option Tid} {len' : Nat → Nat}
    (g : GStep L len tr u w L' len') : Ord L' len' (tr ++ [⟨u, w⟩]) := by
  -- the facts about pushes and accesses
  have touch' : (∀ i p, Touch i p w → Knows tr u i p) → (∀ i p, w ≠ .push i p) → ∀ {j k : Nat} {u1 v : Tid} {i p w'},
      (tr ++ [⟨u, w⟩])[j]? = some ⟨u1, .push i p⟩ → (tr ++ [⟨u, w⟩])[k]? = some ⟨v, w'⟩ → Touch i p w' → HB (tr ++ [⟨u, w⟩]) j k := by
    intro hk hw j k u1 v i p w' hj hk' ht
    rcases get_snoc hj with hj | ⟨rfl, e⟩
    · rcases get_snoc hk' with hk' | ⟨rfl, e⟩
      · exact (O.touch hj hk' ht).append _
      · cases e
        obtain ⟨j', v', hj', hs⟩ := hk i p ht
        rw [O.once hj hj']
        exact hs.hb
    · cases e; exact absurd rfl (hw i p)
  have reached' : (∀ i p, Touch i p w → Knows tr u i p) → ∀ {k : Nat} {v : Tid} {i p w'}, (tr ++ [⟨u, w⟩])[k]? = some ⟨v, w'⟩ →
      Touch i p w' → p < len i := by
    intro hk k v i p w' hk' ht
    rcases get_snoc hk' with hk' | ⟨rfl, e⟩
    · exact O.reached hk' ht
    · cases e
      obtain ⟨j', v', hj', _⟩ := hk i p ht
      exact O.bound hj'
  have bound' : (∀ i p, w ≠ .push i p) → ∀ {j : Nat} {v : Tid} {i p}, (tr ++ [⟨u, w⟩])[j]? = some ⟨v, .push i p⟩ → p < len i := by
    intro hw j v i p hj
    rcases get_snoc hj with hj | ⟨rfl, e⟩
    · exact O.bound hj
    · cases e; exact absurd rfl (hw i p)
  have once' : (∀ i p, w ≠ .push i p) → ∀ {j k : Nat} {v v' : Tid} {i p}, (tr ++ [⟨u, w⟩])[j]? = some ⟨v, .push i p⟩ →
      (tr ++ [⟨u, w⟩])[k]? = some ⟨v', .push i p⟩ → j = k := by
    intro hw j k v v' i p hj hk
    rcases get_snoc hj with hj | ⟨rfl, e⟩
    · rcases get_snoc hk with hk | ⟨rfl, e⟩
      · exact O.once hj hk
      · cases e; exact absurd rfl (hw i p)
    · cases e; exact absurd rfl (hw i p)
  have pushed' : ∀ {i p}, p < len i → ∃ (j : Nat) (v : Tid), (tr ++ [⟨u, w⟩])[j]? = some ⟨v, .push i p⟩ := by
    intro i p h
    obtain ⟨j, v, hj⟩ := O.pushed h
    exact ⟨j, v, get_append hj⟩
  -- the facts about critical events, when the new event is not one
  have total' : (∀ t pos, Crit t pos w → ∀ (i : Nat) v w', tr[i]? = some ⟨v, w'⟩ → Crit t pos w' → HB (tr ++ [⟨u, w⟩]) i tr.length) →
      ∀ {t pos i j v v' w1 w2}, i < j → (tr ++ [⟨u, w⟩])[i]? = some ⟨v, w1⟩ → (tr ++ [⟨u, w⟩])[j]? = some ⟨v', w2⟩ → Crit t pos w1 →
        Crit t pos w2 → HB (tr ++ [⟨u, w⟩]) i j := by
    intro hk t pos i j v v' w1 w2 hlt hi hj h1 h2
    rcases get_snoc hj with hj | ⟨rfl, e⟩
    · rcases get_snoc hi with hi | ⟨rfl, e⟩
      · exact (O.total hlt hi hj h1 h2).append _
      · exact absurd (get_lt hj) (Nat.not_lt.mpr (Nat.le_of_lt hlt))
    · cases e
      rcases get_snoc hi with hi | ⟨rfl, e⟩
      · exact hk t pos h2 i v w1 hi h1
      · exact absurd hlt (Nat.lt_irrefl _)
  cases g with
  | push i _ hlen =>
    have hn : ∀ t pos, ¬ Crit t pos (What.push (cfg := cfg) i (len i)) := fun _ _ h => h
    refine ⟨?_, ?_, total' (fun t pos h => absurd h (hn t pos)), ?_, ?_, ?_, ?_, ?_⟩
    · intro t pos j v w hj hc
      rcases get_snoc hj with hj | ⟨rfl, e⟩
      · exact O.keepOut hj hc
      · cases e; exact hc.elim
    · intro t pos v j v' w hl hj hc
      rcases get_snoc hj with hj | ⟨rfl, e⟩
      · exact (O.seen hl hj hc).append _
      · cases e; exact hc.elim
    · intro j p hp
      rw [hlen] at hp
      split at hp
      · rename_i e
        subst e
        rcases Nat.lt_succ_iff_lt_or_eq.mp hp with hp | rfl
        · exact pushed' hp
        · exact ⟨_, u, get_last _ _⟩
      · exact pushed' hp
    · intro j v k p hj
      rw [hlen]
      rcases get_snoc hj with hj | ⟨rfl, e⟩
      · have := O.bound hj
        split
        · rename_i e; subst e; exact Nat.lt_succ_of_lt this
        · exact this
      · cases e
        rw [if_pos rfl]; exact Nat.lt_succ_self _
    · intro j k v v' a p hj hk
      rcases get_snoc hj with hj | ⟨rfl, e⟩
      · rcases get_snoc hk with hk | ⟨rfl, e⟩
        · exact O.once hj hk
        · cases e; exact absurd (O.bound hj) (Nat.lt_irrefl _)
      · cases e
        rcases get_snoc hk with hk | ⟨rfl, e⟩
        · exact absurd (O.bound hk) (Nat.lt_irrefl _)
        · rfl
    · intro k v a p w hk ht
      rw [hlen]
      rcases get_snoc hk with hk | ⟨rfl, e⟩
      · have := O.reached hk ht
        split
        · rename_i e; subst e; exact Nat.lt_succ_of_lt this
        · exact this
      · cases e; exact ht.elim
    · intro j k v v' a p w hj hk ht
      rcases get_snoc hk with hk | ⟨rfl, e⟩
      · rcases get_snoc hj with hj | ⟨rfl, e⟩
        · exact (O.touch hj hk ht).append _
        · cases e
          exact absurd (O.reached hk ht) (Nat.lt_irrefl _)
      · cases e; exact ht.elim
  | plain _ hn hw hk =>
    refine ⟨?_, ?_, total' (fun t pos h => absurd h (hn t pos)), pushed', bound' hw, once' hw, reached' hk, touch' hk hw⟩
    · intro t pos j v w hj hc
      rcases get_snoc hj with hj | ⟨rfl, e⟩
      · exact O.keepOut hj hc
      · cases e; exact absurd hc (hn t pos)
    · intro t pos v j v' w hl hj hc
      rcases get_snoc hj with hj | ⟨rfl, e⟩
      · exact (O.seen hl hj hc).append _
      · cases e; exact absurd hc (hn t pos)
  | acq t pos _ hk hn hL =>
    have hk' : ∀ i p, Touch i p (What.acq t pos) → Knows tr u i p := by rintro i p ⟨rfl, rfl⟩; exact hk
    have hw : ∀ i p, What.acq t pos ≠ .push i p := fun _ _ h => by cases h
    have key : ∀ (i : Nat) v w', tr[i]? = some ⟨v, w'⟩ → Crit t pos w' → HB (tr ++ [⟨u, .acq t pos⟩]) i tr.length := by
      intro i v w' hi hc
      rcases O.out hi hc with ⟨r, v', hr, hh⟩ | hh
      · have h3 : HB (tr ++ [⟨u, .acq t pos⟩]) r tr.length := .sync (get_lt hr) (get_append hr) (get_last _ _)
        rcases hh with rfl | hh
        · exact h3
        · exact (hh.append _).trans h3
      · rw [hn] at hh; cases hh
    refine ⟨?_, ?_, total' ?_, pushed', bound' hw, once' hw, reached' hk', touch' hk' hw⟩
    · intro t' p j v w hj hc
      rw [hL]
      split
      · rename_i e
        obtain ⟨rfl, rfl⟩ := e
        rcases get_snoc hj with hj | ⟨rfl, e⟩
        · rcases O.keepOut hj hc with h | h
          · exact .inl h
          · rw [hn] at h; cases h
        · cases e; exact .inr rfl
      · rename_i hne
        rcases get_snoc hj with hj | ⟨rfl, e⟩
        · exact O.keepOut hj hc
        · cases e; exact absurd ⟨hc.1.symm, hc.2.symm⟩ hne
    · intro t' p v j v' w hl hj hc
      rw [hL] at hl
      split at hl
      · rename_i e
        obtain ⟨rfl, rfl⟩ := e
        cases hl
        rcases get_snoc hj with hj | ⟨rfl, e⟩
        · exact ⟨_, _, get_last _ _, .inr (key j v' w hj hc)⟩
        · exact seen_last _ _ _
      · rename_i hne
        rcases get_snoc hj with hj | ⟨rfl, e⟩
        · exact (O.seen hl hj hc).append _
        · cases e; exact absurd ⟨hc.1.symm, hc.2.symm⟩ hne
    · rintro t' p ⟨rfl, rfl⟩
      exact key
  | data t pos hk hl =>
    have hk' : ∀ i p, Touch i p (What.data t pos) → Knows tr u i p := by rintro i p ⟨rfl, rfl⟩; exact hk
    have hw : ∀ i p, What.data t pos ≠ .push i p := fun _ _ h => by cases h
    refine ⟨?_, ?_, total' ?_, pushed', bound' hw, once' hw, reached' hk', touch' hk' hw⟩
    · intro t' p j v w hj hc
      rcases get_snoc hj with hj | ⟨rfl, e⟩
      · exact O.keepOut hj hc
      · cases e; obtain ⟨rfl, rfl⟩ := hc; exact .inr hl
    · intro t' p v j v' w hl' hj hc
      rcases get_snoc hj with hj | ⟨rfl, e⟩
      · exact (O.seen hl' hj hc).append _
      · cases e
        obtain ⟨rfl, rfl⟩ := hc
        rw [hl] at hl'
        cases hl'
        exact seen_last _ _ _
    · rintro t' p ⟨rfl, rfl⟩ i v w' hi hc
      exact (O.seen hl hi hc).hb
  | rel t pos _ hk hl hL =>
    have hk' : ∀ i p, Touch i p (What.rel t pos) → Knows tr u i p := by rintro i p ⟨rfl, rfl⟩; exact hk
    have hw : ∀ i p, What.rel t pos ≠ .push i p := fun _ _ h => by cases h
    refine ⟨?_, ?_, total' ?_, pushed', bound' hw, once' hw, reached' hk', touch' hk' hw⟩
    · intro t' p j v w hj hc
      rw [hL]
      split
      · rename_i e
        obtain ⟨rfl, rfl⟩ := e
        rcases get_snoc hj with hj | ⟨rfl, e⟩
        · exact .inl ⟨_, u, get_last _ _, .inr (O.seen hl hj hc).hb⟩
        · exact .inl ⟨_, u, get_last _ _, .inl rfl⟩
      · rename_i hne
        rcases get_snoc hj with hj | ⟨rfl, e⟩
        · exact O.keepOut hj hc
        · cases e; exact absurd ⟨hc.1.symm, hc.2.symm⟩ hne
    · intro t' p v j v' w hl' hj hc
      rw [hL] at hl'
      split at hl'
      · cases hl'
      · rename_i hne
        rcases get_snoc hj with hj | ⟨rfl, e⟩
        · exact (O.seen hl' hj hc).append _
        · cases e; exact absurd ⟨hc.1.symm, hc.2.symm⟩ hne
    · rintro t' p ⟨rfl, rfl⟩ i v w' hi hc
      exact (O.seen hl hi hc).hb

/-! ### Steps of the model -/

/-- Who holds the mutex for `t` at `pos`. -/
def holder (s : State cfg) (t : cfg.Ty) (pos : Nat) : Option Tid := (getCell s.vecs t pos).bind (·.owner)

/-- The length of vector `i`. -/
def size (s : State cfg) (i : Nat) : Nat := (s.vecs[i]?).elim 0 (·.length)

theorem getCell_some {V : List (List (Cell cfg))} {t : cfg.Ty} {pos : Nat} {c : Lock (cfg.C t)} (h : getCell V t pos = some c) :
    ∃ v, V[cfg.shard t]? = some v ∧ v[pos]? = some ⟨t, c⟩ := by
  unfold getCell at h
  cases hv : V[cfg.shard t]? with
  | none => rw [hv] at h; cases h
  | some v =>
    rw [hv] at h
    simp only [Option.bind_some] at h
    cases hx : v[pos]? with
    | none => rw [hx] at h; cases h
    | some x =>
      rw [hx] at h
      exact ⟨v, rfl, by rw [hx, downcast_some h]⟩

theorem getCell_set_same {V : List (List (Cell cfg))} {t : cfg.Ty} {pos : Nat} {c c' : Lock (cfg.C t)} (h : getCell V t pos = some c) :
    getCell (setCell V t pos c') t pos = some c' := by
  obtain ⟨v, hv, hp⟩ := getCell_some h
  unfold getCell setCell
  rw [getElem?_modify_self hv, Option.bind_some, set_self hp, Option.bind_some, downcast_mk]

theorem getCell_set_other {V : List (List (Cell cfg))} {t t' : cfg.Ty} {pos p : Nat} {c c' : Lock (cfg.C t)}
    (h : getCell V t pos = some c) (hne : ¬ (t' = t ∧ p = pos)) : getCell (setCell V t pos c') t' p = getCell V t' p := by
  obtain ⟨v, hv, hp⟩ := getCell_some h
  unfold getCell setCell
  by_cases hs : cfg.shard t' = cfg.shard t
  · rw [hs, getElem?_modify_self hv, hv, Option.bind_some, Option.bind_some]
    by_cases e : p = pos
    · subst e
      have hne' : ¬ t = t' := fun e => hne ⟨e.symm, rfl⟩
      rw [set_self hp, hp]
      simp [downcast, hne']
    · rw [set_other e]
  · have hs' : ¬ cfg.shard t = cfg.shard t' := fun e => hs e.symm
    simp only [List.getElem?_modify, hs', if_false]
    simp

theorem getCell_push {V : List (List (Cell cfg))} {t : cfg.Ty} {v : List (Cell cfg)} (hv : V[cfg.shard t]? = some v)
    {c : Lock (cfg.C t)} (t' : cfg.Ty) (p : Nat) :
    (getCell (V.set (cfg.shard t) (v ++ [⟨t, c⟩])) t' p = getCell V t' p) ∨
      (t' = t ∧ p = v.length ∧ getCell V t' p = none ∧ ∀ h : t' = t, getCell (V.set (cfg.shard t) (v ++ [⟨t, c⟩])) t' p = some (h ▸ c)) := by
  unfold getCell
  by_cases hs : cfg.shard t' = cfg.shard t
  · rw [hs, set_self hv, hv, Option.bind_some, Option.bind_some]
    by_cases e : p < v.length
    · rw [List.getElem?_append_left e]; exact .inl rfl
    · by_cases e' : p = v.length
      · subst e'
        rw [get_last, List.getElem?_eq_none (Nat.le_refl _), Option.bind_some]
        by_cases ht : t' = t
        · subst ht
          exact .inr ⟨rfl, rfl, rfl, fun _ => downcast_mk _ _⟩
        · refine .inl ?_
          have ht' : ¬ t = t' := fun e => ht e.symm
          simp [downcast, ht']
      · refine .inl ?_
        rw [List.getElem?_eq_none (by simp; omega), List.getElem?_eq_none (by omega)]
  · rw [set_other hs]; exact .inl rfl

theorem holder_set {s s' : State cfg} {t : cfg.Ty} {pos : Nat} {c c' : Lock (cfg.C t)} (h : getCell s.vecs t pos = some c)
    (hs : s'.vecs = setCell s.vecs t pos c') (t' : cfg.Ty) (p : Nat) :
    holder s' t' p = if t' = t ∧ p = pos then c'.owner else holder s t' p := by
  unfold holder
  rw [hs]
  split
  · rename_i e
    obtain ⟨rfl, rfl⟩ := e
    rw [getCell_set_same h]; rfl
  · rename_i e
    rw [getCell_set_other h e]

theorem size_set {s s' : State cfg} {t : cfg.Ty} {pos : Nat} {c' : Lock (cfg.C t)}
    (hs : s'.vecs = setCell s.vecs t pos c') : size s' = size s := by
  funext i
  unfold size
  rw [hs, setCell, List.getElem?_modify]
  cases s.vecs[i]? with
  | none => rfl
  | some v =>
    simp only [Option.map_eq_map, Option.map_some, Option.elim_some]
    split <;> simp

theorem holder_push {s s' : State cfg} {t : cfg.Ty} {v : List (Cell cfg)} (hv : s.vecs[cfg.shard t]? = some v)
    {c : Lock (cfg.C t)} (hc : c.owner = none) (hs : s'.vecs = s.vecs.set (cfg.shard t) (v ++ [⟨t, c⟩])) : holder s' = holder s := by
  funext t' p
  unfold holder
  rw [hs]
  rcases getCell_push hv (c := c) t' p with h | ⟨e, _, h1, h2⟩
  · rw [h]
  · subst e
    rw [h1, h2 rfl]
    exact hc

theorem size_push {s s' : State cfg} {t : cfg.Ty} {v : List (Cell cfg)} (hv : s.vecs[cfg.shard t]? = some v)
    {c : Lock (cfg.C t)} (hs : s'.vecs = s.vecs.set (cfg.shard t) (v ++ [⟨t, c⟩])) (j : Nat) :
    size s' j = if j = cfg.shard t then size s (cfg.shard t) + 1 else size s j := by
  unfold size
  rw [hs]
  split
  · rename_i e
    rw [e, set_self hv, hv]
    simp
  · rename_i e
    rw [set_other e]

/-- The vector and position that a thread is about to use, or uses. -/
def Pc.at : Pc cfg → Option (cfg.Ty × Nat)
  | .lock t _ pos | .inside t _ _ _ pos => some (t, pos)
  | _ => none

structure Ordered (s : State cfg) (tr : List (Ev cfg)) : Prop where
  ord : Ord (holder s) (size s) tr
  /-- threads know the mutex they are about to lock, or have locked. -/
  pcs : ∀ {u : Tid} {pc t pos}, s.threads[u]? = some pc → Pc.at pc = some (t, pos) → Knows tr u (cfg.shard t) pos
  /-- critical events are about the table in use. -/
  tab : ∀ {i : Nat} {u w t pos}, tr[i]? = some ⟨u, w⟩ → Crit t pos w → ∃ c, IsTab s.vecs t pos c
  /-- results are returned after unlocking. -/
  fin : ∀ {j : Nat} {u t r}, tr[j]? = some ⟨u, .done t r⟩ → ∃ i pos, j = i + 1 ∧ tr[i]? = some ⟨u, .rel t pos⟩
  /-- results are those in the log. -/
  log : ∀ {j : Nat} {u t r}, tr[j]? = some ⟨u, .done t r⟩ → ∃ e ∈ s.log t, e.res = some r

theorem tab_keep {s s' : State cfg} {a : Act cfg} (h : Reach s) (hs : step s a = .ok s') {t : cfg.Ty} {pos : Nat}
    (ht : ∃ c, IsTab s.vecs t pos c) : ∃ c, IsTab s'.vecs t pos c := by
  obtain ⟨c, hc⟩ := ht
  obtain ⟨c', hc', _⟩ := table_step h hs (table_iff.mpr hc)
  exact ⟨c', table_iff.mp hc'⟩

theorem get_append_cases {α : Type} {l m : List α} {i : Nat} {a : α} (h : (l ++ m)[i]? = some a) : l[i]? = some a ∨ a ∈ m := by
  by_cases hi : i < l.length
  · rw [List.getElem?_append_left hi] at h; exact .inl h
  · rw [List.getElem?_append_right (Nat.le_of_not_lt hi)] at h; exact .inr (List.mem_of_getElem? h)

theorem Ordered.extend {s s' : State cfg} {a : Act cfg} {tr es : List (Ev cfg)} (O : Ordered s tr) (h : Reach s)
    (hs : step s a = .ok s') (ho : Ord (holder s') (size s') (tr ++ es))
    (hp : ∀ (u : Tid) pc t pos, s'.threads[u]? = some pc → Pc.at pc = some (t, pos) →
      (∃ pc0, s.threads[u]? = some pc0 ∧ Pc.at pc0 = some (t, pos)) ∨ Knows (tr ++ es) u (cfg.shard t) pos)
    (hc : ∀ e ∈ es, ∀ t pos, Crit t pos e.what → ∃ c, IsTab s.vecs t pos c)
    (hf : (∀ e ∈ es, ∀ t r, e.what ≠ .done t r) ∨
      ∃ u t pos r, es = [⟨u, .rel t pos⟩, ⟨u, .done t r⟩] ∧ ∃ e ∈ s'.log t, e.res = some r)
    (hl : ∀ t e, e ∈ s.log t → e ∈ s'.log t) : Ordered s' (tr ++ es) where
  ord := ho
  pcs {u pc t pos} hu he := by
    rcases hp u pc t pos hu he with ⟨pc0, h1, h2⟩ | h
    · exact (O.pcs h1 h2).append _
    · exact h
  tab hi hw := by
    rcases get_append_cases hi with hi | hi
    · exact tab_keep h hs (O.tab hi hw)
    · exact tab_keep h hs (hc _ hi _ _ hw)
  fin {j u t r} hj := by
    rcases get_append_cases hj with hj | hm
    · obtain ⟨i, pos, e, hi⟩ := O.fin hj
      exact ⟨i, pos, e, get_append hi⟩
    · rcases hf with hf | ⟨u', t', pos, r', rfl, _⟩
      · exact absurd rfl (hf _ hm t r)
      · have hlt := get_lt hj
        by_cases hi : j < tr.length
        · rw [List.getElem?_append_left hi] at hj
          obtain ⟨i, pos, e, hi⟩ := O.fin hj
          exact ⟨i, pos, e, get_append hi⟩
        · rw [List.getElem?_append_right (Nat.le_of_not_lt hi)] at hj
          cases hd : j - tr.length with
          | zero => rw [hd] at hj; cases hj
          | succ n =>
            cases n with
            | zero =>
              rw [hd] at hj
              cases hj
              exact ⟨tr.length, pos, by omega, by rw [List.getElem?_append_right (Nat.le_refl _)]; simp⟩
            | succ n => rw [hd] at hj; simp at hj
  log {j u t r} hj := by
    rcases get_append_cases hj with hj | hm
    · obtain ⟨e, he, hr⟩ := O.log hj
      exact ⟨e, hl t e he, hr⟩
    · rcases hf with hf | ⟨u', t', pos, r', rfl, he⟩
      · exact absurd rfl (hf _ hm t r)
      · rcases List.mem_cons.mp hm with e | hm
        · cases e
        · rcases List.mem_cons.mp hm with e | hm
          · cases e; exact he
          · cases hm

/-- Reading elements that are known. -/
theorem Ord.looks {L : cfg.Ty → Nat → Option Tid} {len : Nat → Nat} {u : Tid} {i : Nat} (ps : List Nat) {tr : List (Ev cfg)}
    (O : Ord L len tr) (hk : ∀ p ∈ ps, Knows tr u i p) : Ord L len (tr ++ ps.map fun p => ⟨u, .look i p⟩) := by
  induction ps generalizing tr with
  | nil => rw [List.map_nil, List.append_nil]; exact O
  | cons p ps ih =>
    rw [List.map_cons, List.append_cons]
    refine ih (O.gstep (.plain _ (fun _ _ h => h) (fun _ _ h => by cases h) ?_)) fun q hq => (hk q (List.mem_cons_of_mem _ hq)).append _
    rintro i' p' ⟨rfl, rfl⟩
    exact hk p List.mem_cons_self

/-- One of the loops (typearena.rs:64-69, 77-82). -/
theorem Ord.loop {L : cfg.Ty → Nat → Option Tid} {len : Nat → Nat} {u : Tid} {i n : Nat} {tr : List (Ev cfg)} (O : Ord L len tr)
    (hn : n ≤ len i) : Ord L len (tr ++ ⟨u, .load i n⟩ :: (List.range n).map fun p => ⟨u, .look i p⟩) := by
  rw [List.append_cons]
  have O' : Ord L len (tr ++ [⟨u, .load i n⟩]) :=
    O.gstep (.plain _ (fun _ _ h => h) (fun _ _ h => by cases h) fun _ _ h => h.elim)
  exact O'.looks _ fun p hp => O.know (List.mem_range.mp hp) hn

theorem set_pc {s : State cfg} {u v : Tid} {pc pc0 pc1 : Pc cfg} (hu : s.threads[u]? = some pc0)
    (h : (s.threads.set u pc)[v]? = some pc1) : (v = u ∧ pc1 = pc) ∨ s.threads[v]? = some pc1 := by
  rcases set_cases h with ⟨rfl, e⟩ | ⟨_, h⟩
  · exact .inl ⟨rfl, e⟩
  · exact .inr h

theorem Ordered.step {s s' : State cfg} {a : Act cfg} {tr : List (Ev cfg)} (O : Ordered s tr) (h : Reach s)
    (hs : step s a = .ok s') : Ordered s' (tr ++ events s a) := by
  have I := h.inv
  have hs0 := hs
  -- steps that move one thread and change nothing else
  have quiet : ∀ {es : List (Ev cfg)}, s'.vecs = s.vecs → s'.log = s.log → Ord (holder s) (size s) (tr ++ es) →
      (∀ (u : Tid) pc t pos, s'.threads[u]? = some pc → Pc.at pc = some (t, pos) →
        (∃ pc0, s.threads[u]? = some pc0 ∧ Pc.at pc0 = some (t, pos)) ∨ Knows (tr ++ es) u (cfg.shard t) pos) →
      (∀ e ∈ es, (∀ t pos, Crit t pos e.what → ∃ c, IsTab s.vecs t pos c) ∧ ∀ t r, e.what ≠ .done t r) → Ordered s' (tr ++ es) := by
    intro es h1 h2 ho hp hc
    have e1 : holder s' = holder s := by funext t p; unfold holder; rw [h1]
    have e2 : size s' = size s := by funext i; unfold size; rw [h1]
    exact O.extend h hs0 (by rw [e1, e2]; exact ho) hp (fun e he => (hc e he).1) (.inl fun e he => (hc e he).2) (by rw [h2]; exact fun _ _ h => h)
  -- the loops
  have loop : ∀ {u : Tid} {t : cfg.Ty} {n : Nat} {v : List (Cell cfg)} {pc0 pc : Pc cfg}, s.vecs[cfg.shard t]? = some v → ¬ v.length < n →
      s.threads[u]? = some pc0 → s' = { s with threads := s.threads.set u pc } → (∀ t' pos, Pc.at pc = some (t', pos) → t' = t ∧ pos < n) →
      Ordered s' (tr ++ ⟨u, .load (cfg.shard t) n⟩ :: (List.range n).map fun p => ⟨u, .look (cfg.shard t) p⟩) := by
    intro u t n v pc0 pc hv hn hu e hpc
    have hn' : n ≤ size s (cfg.shard t) := by unfold size; rw [hv]; exact Nat.le_of_not_lt hn
    refine quiet (by rw [e]) (by rw [e]) (O.ord.loop hn') ?_ ?_
    · intro w pc1 t' pos hw hat
      rw [e] at hw
      rcases set_pc hu hw with ⟨rfl, rfl⟩ | hw
      · obtain ⟨rfl, hp⟩ := hpc t' pos hat
        refine .inr ?_
        rw [List.append_cons]
        exact (O.ord.know hp hn').append _
      · exact .inl ⟨pc1, hw, hat⟩
    · intro e he
      rcases List.mem_cons.mp he with rfl | he
      · exact ⟨fun _ _ h => h.elim, fun _ _ h => by cases h⟩
      · obtain ⟨p, _, rfl⟩ := List.mem_map.mp he
        exact ⟨fun _ _ h => h.elim, fun _ _ h => by cases h⟩
  cases a with
  | spawn =>
    cases hs
    simp only [events]
    refine quiet rfl rfl (by rw [List.append_nil]; exact O.ord) ?_ (fun e he => by cases he)
    intro u pc t pos hu he
    rcases snoc_cases hu with hu | ⟨_, rfl⟩
    · exact .inl ⟨pc, hu, he⟩
    · cases he
  | call u t code =>
    simp only [TypeArena.step] at hs
    simp only [events]
    cases hu : s.threads[u]? with
    | none => rw [hu] at hs; cases hs
    | some pc =>
      rw [hu] at hs
      cases pc with
      | idle =>
        cases hs
        refine quiet rfl rfl (by rw [List.append_nil]; exact O.ord) ?_ (fun e he => by cases he)
        intro w pc t pos hw he
        rcases set_pc hu hw with ⟨rfl, rfl⟩ | hw
        · cases he
        · exact .inl ⟨pc, hw, he⟩
      | _ => cases hs
  | run u n =>
    simp only [TypeArena.step] at hs
    simp only [events]
    cases hu : s.threads[u]? with
    | none => rw [hu] at hs; cases hs
    | some pc =>
      rw [hu] at hs
      simp only at hs ⊢
      cases pc with
      | idle => cases hs
      | search t code =>
        simp only [run] at hs
        cases hv : s.vecs[cfg.shard t]? with
        | none => rw [hv] at hs; cases hs
        | some v =>
          rw [hv] at hs
          simp only at hs
          split at hs
          · cases hs
          · rename_i hn
            cases hf : find v t n with
            | none =>
              rw [hf] at hs
              exact loop hv hn hu (Res.ok.inj hs).symm (fun _ _ h => by cases h)
            | some q =>
              rw [hf] at hs
              refine loop hv hn hu (Res.ok.inj hs).symm (fun _ _ h => ?_)
              cases h
              exact ⟨rfl, (find_some hv hf).1⟩
      | push t code =>
        simp only [run] at hs
        cases hv : s.vecs[cfg.shard t]? with
        | none => rw [hv] at hs; cases hs
        | some v =>
          rw [hv] at hs
          have e := (Res.ok.inj hs).symm
          have hvec : s'.vecs = s.vecs.set (cfg.shard t) (v ++ [⟨t, { val := cfg.dflt t, owner := none, poisoned := false }⟩]) := by rw [e]
          refine O.extend h hs0 ?_ ?_ ?_ (.inl ?_) ?_
          · rw [holder_push hv rfl hvec]
            have := O.ord.gstep (u := u) (.push (cfg.shard t) (size s') (size_push hv hvec))
            exact this
          · intro w pc t' pos hw hat
            rw [e] at hw
            rcases set_pc hu hw with ⟨rfl, rfl⟩ | hw
            · cases hat
            · exact .inl ⟨pc, hw, hat⟩
          · intro e he
            rcases List.mem_singleton.mp he with rfl
            exact fun _ _ h => h.elim
          · intro e he
            rcases List.mem_singleton.mp he with rfl
            exact fun _ _ h => by cases h
          · rw [e]; exact fun _ _ h => h
      | again t code m =>
        simp only [run] at hs
        cases hv : s.vecs[cfg.shard t]? with
        | none => rw [hv] at hs; cases hs
        | some v =>
          rw [hv] at hs
          simp only at hs
          split at hs
          · cases hs
          · rename_i hn
            cases hf : find v t n with
            | none => rw [hf] at hs; cases hs
            | some q =>
              rw [hf] at hs
              refine loop hv (fun h => hn (.inr h)) hu (Res.ok.inj hs).symm (fun _ _ h => ?_)
              cases h
              exact ⟨rfl, (find_some hv hf).1⟩
      | lock t code pos =>
        obtain ⟨c, hc⟩ := I.lock u t code pos hu
        have hk := O.pcs hu rfl
        simp only [run, hc.get] at hs
        split at hs
        · cases hs
        · rename_i ho
          have ho' : c.owner = none := by simpa using ho
          have hh : holder s t pos = none := by unfold holder; rw [hc.get]; exact ho'
          simp only [hc.get, Option.any_some]
          cases hp : c.poisoned with
          | true =>
            rw [hp] at hs
            have e := (Res.ok.inj hs).symm
            simp only [if_true]
            have O1 : Ord (fun t' p => if t' = t ∧ p = pos then some u else holder s t' p) (size s) (tr ++ [⟨u, .acq t pos⟩]) :=
              O.ord.gstep (.acq t pos _ hk hh fun _ _ => rfl)
            have O2 : Ord (holder s) (size s) (tr ++ [⟨u, .acq t pos⟩] ++ [⟨u, .rel t pos⟩]) := by
              refine O1.gstep (.rel t pos _ (hk.append _) (by simp) fun t' p => ?_)
              by_cases e : t' = t ∧ p = pos
              · obtain ⟨rfl, rfl⟩ := e; simpa using hh
              · simp [e]
            rw [List.append_assoc] at O2
            refine quiet (by rw [e]) (by rw [e]) O2 ?_ ?_
            · intro w pc t' p hw hat
              rw [e] at hw
              rcases set_pc hu hw with ⟨rfl, rfl⟩ | hw
              · cases hat
              · exact .inl ⟨pc, hw, hat⟩
            · intro e he
              have key : ∀ t' p, t = t' ∧ pos = p → ∃ c, IsTab s.vecs t' p c := by rintro t' p ⟨rfl, rfl⟩; exact ⟨c, hc⟩
              rcases List.mem_cons.mp he with rfl | he
              · exact ⟨key, fun _ _ h => by cases h⟩
              · rcases List.mem_singleton.mp he with rfl
                exact ⟨key, fun _ _ h => by cases h⟩
          | false =>
            rw [hp] at hs
            have e := (Res.ok.inj hs).symm
            simp only [Bool.false_eq_true, if_false]
            have hvec : s'.vecs = setCell s.vecs t pos { c with owner := some u } := by rw [e, hp]
            refine O.extend h hs0 ?_ ?_ ?_ (.inl ?_) ?_
            · rw [size_set hvec]
              exact O.ord.gstep (.acq t pos _ hk hh (holder_set hc.get hvec))
            · intro w pc t' p hw hat
              rw [e] at hw
              rcases set_pc hu hw with ⟨rfl, rfl⟩ | hw
              · cases hat
                exact .inr (hk.append _)
              · exact .inl ⟨pc, hw, hat⟩
            · intro e he
              rcases List.mem_singleton.mp he with rfl
              rintro t' p ⟨rfl, rfl⟩
              exact ⟨c, hc⟩
            · intro e he
              rcases List.mem_singleton.mp he with rfl
              exact fun _ _ h => by cases h
            · rw [e]; exact fun _ _ h => h
      | inside t orig i k pos =>
        obtain ⟨c, c0, hc, ho, hp, _⟩ := I.ins u t orig i k pos hu
        have hk := O.pcs hu rfl
        have hh : holder s t pos = some u := by unfold holder; rw [hc.get]; exact ho
        simp only [run, hc.get] at hs
        cases k with
        | ret r =>
          have e := (Res.ok.inj hs).symm
          have hvec : s'.vecs = setCell s.vecs t pos { c with owner := none } := by rw [e]
          have O1 : Ord (holder s') (size s') (tr ++ [⟨u, .rel t pos⟩]) := by
            rw [size_set hvec]
            exact O.ord.gstep (.rel t pos _ hk hh (holder_set hc.get hvec))
          have O2 : Ord (holder s') (size s') (tr ++ [⟨u, .rel t pos⟩] ++ [⟨u, .done t r⟩]) :=
            O1.gstep (.plain _ (fun _ _ h => h) (fun _ _ h => by cases h) fun _ _ h => h.elim)
          rw [List.append_assoc] at O2
          refine O.extend h hs0 O2 ?_ ?_ (.inr ⟨u, t, pos, r, rfl, ⟨orig, i, some r⟩, ?_, rfl⟩) ?_
          · intro w pc t' p hw hat
            rw [e] at hw
            rcases set_pc hu hw with ⟨rfl, rfl⟩ | hw
            · cases hat
            · exact .inl ⟨pc, hw, hat⟩
          · intro e he
            rcases List.mem_cons.mp he with rfl | he
            · rintro t' p ⟨rfl, rfl⟩; exact ⟨c, hc⟩
            · rcases List.mem_singleton.mp he with rfl
              exact fun _ _ h => h.elim
          · rw [e]; simp [setLog_same]
          · rw [e]
            intro t' x hx
            by_cases ht : t = t'
            · subst ht; simp only [setLog_same]; exact List.mem_cons_of_mem _ hx
            · simp only [setLog_other s ht]; exact hx
        | next f k =>
          have e := (Res.ok.inj hs).symm
          have hvec : s'.vecs = setCell s.vecs t pos { c with val := f c.val } := by rw [e]
          have hho : holder s' = holder s := by
            funext t' p
            rw [holder_set hc.get hvec]
            split
            · rename_i e; obtain ⟨rfl, rfl⟩ := e; rw [hh]; exact ho
            · rfl
          refine O.extend h hs0 ?_ ?_ ?_ (.inl ?_) ?_
          · rw [size_set hvec, hho]
            exact O.ord.gstep (.data t pos hk hh)
          · intro w pc t' p hw hat
            rw [e] at hw
            rcases set_pc hu hw with ⟨rfl, rfl⟩ | hw
            · cases hat
              exact .inr (hk.append _)
            · exact .inl ⟨pc, hw, hat⟩
          · intro e he
            rcases List.mem_singleton.mp he with rfl
            rintro t' p ⟨rfl, rfl⟩
            exact ⟨c, hc⟩
          · intro e he
            rcases List.mem_singleton.mp he with rfl
            exact fun _ _ h => by cases h
          · rw [e]; exact fun _ _ h => h
  | panic u =>
    simp only [TypeArena.step] at hs
    simp only [events]
    cases hu : s.threads[u]? with
    | none => rw [hu] at hs; cases hs
    | some pc =>
      rw [hu] at hs
      simp only at hs ⊢
      cases pc with
      | inside t orig i k pos =>
        obtain ⟨c, c0, hc, ho, hp, _⟩ := I.ins u t orig i k pos hu
        have hk := O.pcs hu rfl
        have hh : holder s t pos = some u := by unfold holder; rw [hc.get]; exact ho
        simp only [runPanic, hc.get] at hs
        have e := (Res.ok.inj hs).symm
        have hvec : s'.vecs = setCell s.vecs t pos { c with owner := none, poisoned := true } := by rw [e]
        have O1 : Ord (holder s) (size s) (tr ++ [⟨u, .data t pos⟩]) := O.ord.gstep (.data t pos hk hh)
        have O2 : Ord (holder s') (size s') (tr ++ [⟨u, .data t pos⟩] ++ [⟨u, .rel t pos⟩]) := by
          rw [size_set hvec]
          exact O1.gstep (.rel t pos _ (hk.append _) hh (holder_set hc.get hvec))
        rw [List.append_assoc] at O2
        have key : ∀ t' p, t = t' ∧ pos = p → ∃ c, IsTab s.vecs t' p c := by rintro t' p ⟨rfl, rfl⟩; exact ⟨c, hc⟩
        refine O.extend h hs0 O2 ?_ ?_ (.inl ?_) ?_
        · intro w pc t' p hw hat
          rw [e] at hw
          rcases set_pc hu hw with ⟨rfl, rfl⟩ | hw
          · cases hat
          · exact .inl ⟨pc, hw, hat⟩
        · intro e he
          rcases List.mem_cons.mp he with rfl | he
          · exact key
          · rcases List.mem_singleton.mp he with rfl
            exact key
        · intro e he
          rcases List.mem_cons.mp he with rfl | he
          · exact fun _ _ h => by cases h
          · rcases List.mem_singleton.mp he with rfl
            exact fun _ _ h => by cases h
        · rw [e]
          intro t' x hx
          by_cases ht : t = t'
          · subst ht; simp only [setLog_same]; exact List.mem_cons_of_mem _ hx
          · simp only [setLog_other s ht]; exact hx
      | _ => cases hs

/-- Client events. -/
theorem Ordered.client {s : State cfg} {tr : List (Ev cfg)} (O : Ordered s tr) {u : Tid} {w : What cfg}
    (hw : (∃ t r, w = .use t r ∨ w = .send t r) ∨ ∃ n t r, w = .recv n t r) : Ordered s (tr ++ [⟨u, w⟩]) := by
  have h1 : ∀ t pos, ¬ Crit t pos w := by
    rcases hw with ⟨t, r, rfl | rfl⟩ | ⟨n, t, r, rfl⟩ <;> exact fun _ _ h => h
  have h2 : ∀ i p, w ≠ .push i p := by
    rcases hw with ⟨t, r, rfl | rfl⟩ | ⟨n, t, r, rfl⟩ <;> exact fun _ _ h => by cases h
  have h3 : ∀ i p, ¬ Touch i p w := by
    rcases hw with ⟨t, r, rfl | rfl⟩ | ⟨n, t, r, rfl⟩ <;> exact fun _ _ h => h
  have h4 : ∀ t r, w ≠ .done t r := by
    rcases hw with ⟨t, r, rfl | rfl⟩ | ⟨n, t, r, rfl⟩ <;> exact fun _ _ h => by cases h
  refine ⟨O.ord.gstep (.plain w h1 h2 fun i p h => absurd h (h3 i p)), fun hu he => (O.pcs hu he).append _, ?_, ?_, ?_⟩
  · intro i v w' t pos hi hc
    rcases get_snoc hi with hi | ⟨_, e⟩
    · exact O.tab hi hc
    · cases e; exact absurd hc (h1 t pos)
  · intro j v t r hj
    rcases get_snoc hj with hj | ⟨_, e⟩
    · obtain ⟨i, pos, e, hi⟩ := O.fin hj
      exact ⟨i, pos, e, get_append hi⟩
    · cases e; exact absurd rfl (h4 t r)
  · intro j v t r hj
    rcases get_snoc hj with hj | ⟨_, e⟩
    · exact O.log hj
    · cases e; exact absurd rfl (h4 t r)

theorem Run.reach {s : State cfg} {tr : List (Ev cfg)} (h : Run s tr) : Reach s := by
  induction h with
  | init => exact .init
  | act _ hs ih => exact ih.step hs
  | use _ _ ih | send _ _ ih | recv _ _ ih => exact ih

theorem Run.ordered {s : State cfg} {tr : List (Ev cfg)} (h : Run s tr) : Ordered s tr := by
  induction h with
  | init =>
    have e1 : holder (TypeArena.init cfg) = fun _ _ => none := by
      funext t p
      unfold holder
      cases hc : getCell (TypeArena.init cfg).vecs t p with
      | none => rfl
      | some c =>
        obtain ⟨v, hv, hp⟩ := getCell_some hc
        have := List.eq_of_mem_replicate (List.mem_of_getElem? hv)
        subst this
        simp at hp
    have e2 : size (TypeArena.init cfg) = fun _ => 0 := by
      funext i
      unfold size
      cases hv : (TypeArena.init cfg).vecs[i]? with
      | none => rfl
      | some v =>
        have := List.eq_of_mem_replicate (List.mem_of_getElem? hv)
        subst this
        rfl
    refine ⟨by rw [e1, e2]; exact Ord.init, ?_, ?_, ?_, ?_⟩ <;> intros <;> simp_all [TypeArena.init]
  | act h hs ih => exact ih.step h.reach hs
  | use _ _ ih => exact ih.client (.inl ⟨_, _, .inl rfl⟩)
  | send _ _ ih => exact ih.client (.inl ⟨_, _, .inr rfl⟩)
  | recv _ _ ih => exact ih.client (.inr ⟨_, _, _, rfl⟩)

end TypeArena.Trace
