import Verif.Arc.Effects
import Verif.Arc.Trace
/-! Invariant behind C17: who has seen, or will see before the box is freed, each access to each object. -/
namespace Arc
variable {V : Type}

/-! ### Happens-before -/

theorem HB.lt {tr : List Ev} {i j : Nat} (h : HB tr i j) : i < j := by
  induction h with
  | edge h _ _ _ => exact h
  | trans _ _ h1 h2 => exact Nat.lt_trans h1 h2

theorem tget_append {α : Type} {l m : List α} {i : Nat} {a : α} (h : l[i]? = some a) : (l ++ m)[i]? = some a := by
  rw [List.getElem?_append_left (List.getElem?_eq_some_iff.mp h).1]; exact h

theorem tget_lt {α : Type} {l : List α} {i : Nat} {a : α} (h : l[i]? = some a) : i < l.length :=
  (List.getElem?_eq_some_iff.mp h).1

/-- An event of an extended trace is old or new. -/
theorem tget_cases {α : Type} {l m : List α} {i : Nat} {a : α} (h : (l ++ m)[i]? = some a) :
    l[i]? = some a ∨ (l.length ≤ i ∧ a ∈ m) := by
  by_cases hi : i < l.length
  · rw [List.getElem?_append_left hi] at h; exact .inl h
  · have hle : l.length ≤ i := Nat.le_of_not_lt hi
    rw [List.getElem?_append_right hle] at h
    exact .inr ⟨hle, List.mem_of_getElem? h⟩

theorem tget_pre {α : Type} {l m : List α} {i : Nat} {a : α} (h : (l ++ m)[i]? = some a) (hi : i < l.length) :
    l[i]? = some a := by
  rw [List.getElem?_append_left hi] at h; exact h

theorem tget_last {α : Type} (l : List α) (x : α) : (l ++ [x])[l.length]? = some x := by simp

theorem HB.append {tr : List Ev} (m : List Ev) {i j : Nat} (h : HB tr i j) : HB (tr ++ m) i j := by
  induction h with
  | edge h a b c => exact .edge h (tget_append a) (tget_append b) c
  | trans _ _ h1 h2 => exact h1.trans h2

theorem HB.pre {tr m : List Ev} {i j : Nat} (h : HB (tr ++ m) i j) (hj : j < tr.length) : HB tr i j := by
  induction h with
  | edge h a b c => exact .edge h (tget_pre a (Nat.lt_trans h hj)) (tget_pre b hj) c
  | trans _ h2 ih1 ih2 => exact (ih1 (Nat.lt_trans h2.lt hj)).trans (ih2 hj)

/-- Position `i` is an event satisfying `P`, or happens before one. -/
def Past (tr : List Ev) (P : Ev → Prop) (i : Nat) : Prop :=
  ∃ (e : Nat) (a : Ev), tr[e]? = some a ∧ P a ∧ (i = e ∨ HB tr i e)

/-- Thread `t` knows about position `i`. -/
abbrev Seen (tr : List Ev) (t : Tid) : Nat → Prop := Past tr (fun a => a.tid = t)
/-- Position `i` is passed on by releasing the write lock of shard `L`. -/
abbrev Wk (tr : List Ev) (L : Nat) : Nat → Prop := Past tr (fun a => a.what = .unlock L)
/-- ... by releasing the write or the read lock. -/
abbrev Lk (tr : List Ev) (L : Nat) : Nat → Prop := Past tr (fun a => a.what = .unlock L ∨ a.what = .runlock L)
/-- ... by a releasing operation on the counter of object `o`. -/
abbrev Ct (tr : List Ev) (o : Nat) : Nat → Prop := Past tr (fun a => ∃ ord, a.what = .rmw o ord ∧ ord.releases = true)
/-- ... together with handle `h`. -/
abbrev Hd (tr : List Ev) (h : Nat) : Nat → Prop := Past tr (fun a => a.what = .got h ∨ a.what = .use h)
/-- ... by obtaining handle `h`. -/
abbrev Gt (tr : List Ev) (h : Nat) : Nat → Prop := Past tr (fun a => a.what = .got h)

theorem Past.append {tr : List Ev} {P : Ev → Prop} {i : Nat} (h : Past tr P i) (m : List Ev) : Past (tr ++ m) P i := by
  obtain ⟨e, a, h1, h2, h3⟩ := h
  exact ⟨e, a, tget_append h1, h2, h3.imp id (HB.append m)⟩

theorem Past.mono {tr : List Ev} {P Q : Ev → Prop} {i : Nat} (h : Past tr P i) (hpq : ∀ a, P a → Q a) : Past tr Q i := by
  obtain ⟨e, a, h1, h2, h3⟩ := h
  exact ⟨e, a, h1, hpq a h2, h3⟩

theorem Past.pre {tr m : List Ev} {P : Ev → Prop} {i : Nat} (h : Past (tr ++ m) P i) (hn : ∀ a ∈ m, ¬ P a) : Past tr P i := by
  obtain ⟨e, a, h1, h2, h3⟩ := h
  rcases tget_cases h1 with h | ⟨_, h⟩
  · exact ⟨e, a, h, h2, h3.imp id (fun x => x.pre (tget_lt h))⟩
  · exact absurd h2 (hn a h)

/-- Earlier positions are passed on too. -/
theorem Past.before {tr : List Ev} {P : Ev → Prop} {i j : Nat} (h : Past tr P j) (hij : i = j ∨ HB tr i j) : Past tr P i := by
  obtain ⟨e, a, h1, h2, h3⟩ := h
  refine ⟨e, a, h1, h2, ?_⟩
  rcases hij with rfl | hij
  · exact h3
  · rcases h3 with rfl | h3
    · exact .inr hij
    · exact .inr (hij.trans h3)

theorem Past.lt {tr : List Ev} {P : Ev → Prop} {i : Nat} (h : Past tr P i) : i < tr.length := by
  obtain ⟨e, a, h1, _, h3⟩ := h
  rcases h3 with rfl | h3
  · exact tget_lt h1
  · exact Nat.lt_trans h3.lt (tget_lt h1)

/-- A later event that synchronises with the events `P` comes after everything they pass on. -/
theorem Past.hb {tr m : List Ev} {P : Ev → Prop} {i j : Nat} {b : Ev} (h : Past tr P i) (hj : (tr ++ m)[j]? = some b)
    (hle : tr.length ≤ j) (hs : ∀ a, P a → a.tid = b.tid ∨ Sync a.what b.what) : HB (tr ++ m) i j := by
  obtain ⟨e, a, h1, h2, h3⟩ := h
  have h4 : HB (tr ++ m) e j := .edge (Nat.lt_of_lt_of_le (tget_lt h1) hle) (tget_append h1) hj (hs a h2)
  rcases h3 with rfl | h3
  · exact h4
  · exact (h3.append m).trans h4

theorem Past.self {tr : List Ev} {P : Ev → Prop} {i : Nat} {a : Ev} (h : tr[i]? = some a) (hp : P a) : Past tr P i :=
  ⟨i, a, h, hp, .inl rfl⟩

/-- One new event. -/
theorem Past.snoc {tr : List Ev} {P Q : Ev → Prop} {i : Nat} {b : Ev} (h : Past tr P i)
    (hs : ∀ a, P a → a.tid = b.tid ∨ Sync a.what b.what) (hq : Q b) : Past (tr ++ [b]) Q i :=
  ⟨tr.length, b, tget_last _ _, hq, .inr (h.hb (tget_last _ _) (Nat.le_refl _) hs)⟩

/-- Everything the thread of the last event knew, and that event, is passed on by it. -/
theorem Past.last {tr : List Ev} {Q : Ev → Prop} {i : Nat} {b : Ev} (h : Seen (tr ++ [b]) b.tid i) (hq : Q b) :
    Past (tr ++ [b]) Q i := by
  obtain ⟨e, a, h1, h2, h3⟩ := h
  refine ⟨tr.length, b, tget_last _ _, hq, ?_⟩
  by_cases he : e < tr.length
  · have h4 : HB (tr ++ [b]) e tr.length := .edge he h1 (tget_last _ _) (.inl h2)
    rcases h3 with rfl | h3
    · exact .inr h4
    · exact .inr (h3.trans h4)
  · have : e = tr.length := by
      have h5 := tget_lt h1
      simp only [List.length_append, List.length_cons, List.length_nil] at h5
      omega
    subst this
    exact h3

/-! ### The invariant -/

/-- Lock `L` passes position `i` on to its next holder: it was released after it, or its holder has seen it. -/
def LkH (tr : List Ev) (lk : Nat → Option Tid) (L i : Nat) : Prop :=
  Lk tr L i ∨ ∃ t, lk L = some t ∧ Seen tr t i

/-- Position `i` is on record at box `b`: whoever frees `b` will have seen it. -/
inductive Cov [Hashable V] (cfg : Cfg V) (s : State V) (lk : Nat → Option Tid) (obj : Addr → Nat) (own : List (Nat × Addr))
    (tr : List Ev) (i : Nat) : Addr → Prop
  /-- recorded at a handle of a client. -/
  | client {h b} : (h, b) ∈ own → Hd tr h i → Cov cfg s lk obj own tr i b
  /-- known to a thread with a handle, or owning the box. -/
  | thread {t : Tid} {th b} : s.threads[t]? = some th → b ∈ th.roots cfg → Seen tr t i → Cov cfg s lk obj own tr i b
  /-- recorded at the counter. -/
  | count {b} : Ct tr (obj b) i → Cov cfg s lk obj own tr i b
  /-- recorded at the lock. -/
  | lock {b v} : b ∈ s.table → deref s b = some v → LkH tr lk (cfg.shardOf v) i → Cov cfg s lk obj own tr i b
  /-- recorded at an object that contains a handle. -/
  | stored {c b y} : deref s c = some y → b ∈ cfg.kids y → Cov cfg s lk obj own tr i c → Cov cfg s lk obj own tr i b
  /-- boxes that will never be freed. -/
  | zombie {b} : b ∈ s.zombies → Cov cfg s lk obj own tr i b

/-- The invariant. `lk` is the lock state, kept apart from `s` for the middle of a step. -/
structure J [Hashable V] (cfg : Cfg V) (s : State V) (lk : Nat → Option Tid) (obj : Addr → Nat) (own : List (Nat × Addr))
    (tr : List Ev) : Prop where
  acc : ∀ b, b ∈ s.table → ∀ (i : Nat) a, tr[i]? = some a → a.what.touch = some (obj b) → Cov cfg s lk obj own tr i b
  rem : ∀ (t : Tid) th b v, s.threads[t]? = some th → b ∈ th.pc.removing → deref s b = some v → ∀ (i : Nat) a,
    tr[i]? = some a → a.what.touch = some (obj b) → Seen tr t i ∨ LkH tr lk (cfg.shardOf v) i
  prv : ∀ (t : Tid) th b, s.threads[t]? = some th → b ∈ th.pc.priv → ∀ (i : Nat) a,
    tr[i]? = some a → a.what.touch = some (obj b) → Seen tr t i
  pown : ∀ h b, (h, b) ∈ own → Gt tr h (obj b)
  pthr : ∀ (t : Tid) th b, s.threads[t]? = some th → b ∈ th.roots cfg → Seen tr t (obj b)
  ptab : ∀ b v, b ∈ s.table → deref s b = some v → LkH tr lk (cfg.shardOf v) (obj b)
  psto : ∀ b c y, deref s c = some y → b ∈ cfg.kids y → HB tr (obj b) (obj c)
  inj : ∀ b c v w, deref s b = some v → deref s c = some w → obj b = obj c → b = c
  mks : ∀ (i : Nat) t o, tr[i]? = some ⟨t, .make o⟩ → i = o
  born : ∀ (i : Nat) a o, tr[i]? = some a → (a.what.touch = some o ∨ a.what = .free o) →
    (∃ u, tr[o]? = some ⟨u, .make o⟩) ∧ (o = i ∨ HB tr o i)
  alive : ∀ b v, deref s b = some v → ∃ u, tr[obj b]? = some ⟨u, .make (obj b)⟩
  fin : ∀ (i j : Nat) t a o, tr[j]? = some ⟨t, .free o⟩ → tr[i]? = some a → a.what.touch = some o → HB tr i j
  dead : ∀ (j : Nat) t o b v, tr[j]? = some ⟨t, .free o⟩ → deref s b = some v → obj b ≠ o
  once : ∀ (i j : Nat) t u o, tr[i]? = some ⟨t, .free o⟩ → tr[j]? = some ⟨u, .free o⟩ → i = j
  held : ∀ L t i, lk L = some t → Lk tr L i → Seen tr t i
  tab : ∀ (i : Nat) t L, tr[i]? = some ⟨t, .table L⟩ → Wk tr L i ∨ ∃ u, lk L = some u ∧ Seen tr u i
  siz : ∀ (i : Nat) t L, tr[i]? = some ⟨t, .size L⟩ → Lk tr L i
  tabs : ∀ (i j : Nat) a b L, i < j → tr[i]? = some a → tr[j]? = some b →
    (a.what = .table L ∧ (b.what = .table L ∨ b.what = .size L) ∨ a.what = .size L ∧ b.what = .table L) → HB tr i j

section
variable [BEq V] [Hashable V] {cfg : Cfg V} {s : State V} {lk : Nat → Option Tid} {obj : Addr → Nat} {own : List (Nat × Addr)}
  {tr : List Ev}

theorem LkH.append {L i : Nat} (h : LkH tr lk L i) (m : List Ev) : LkH (tr ++ m) lk L i :=
  h.imp (fun h => h.append m) (fun ⟨t, h1, h2⟩ => ⟨t, h1, h2.append m⟩)

theorem Cov.append {i : Nat} {b : Addr} (h : Cov cfg s lk obj own tr i b) (m : List Ev) :
    Cov cfg s lk obj own (tr ++ m) i b := by
  induction h with
  | client h1 h2 => exact .client h1 (h2.append m)
  | thread h1 h2 h3 => exact .thread h1 h2 (h3.append m)
  | count h => exact .count (h.append m)
  | lock h1 h2 h3 => exact .lock h1 h2 (h3.append m)
  | stored h1 h2 _ ih => exact .stored h1 h2 ih
  | zombie h => exact .zombie h

theorem Cov.points {i : Nat} {r x : Addr} (hp : Points cfg s r x) (h : Cov cfg s lk obj own tr i r) :
    Cov cfg s lk obj own tr i x := by
  induction hp with
  | refl => exact h
  | step _ h2 h3 ih => exact .stored h2 h3 ih

/-- Obligations for a new event at position `i`. -/
def NewOk (cfg : Cfg V) (s : State V) (lk : Nat → Option Tid) (obj : Addr → Nat) (own : List (Nat × Addr)) (tr : List Ev)
    (i : Nat) (a : Ev) : Prop :=
  match a.what with
  | .look o | .rmw o _ => ∃ b v, deref s b = some v ∧ obj b = o ∧ HB tr o i ∧
      (b ∈ s.table → Cov cfg s lk obj own tr i b) ∧
      (∀ (u : Tid) thu, s.threads[u]? = some thu → b ∈ thu.pc.removing → Seen tr u i ∨ LkH tr lk (cfg.shardOf v) i) ∧
      (∀ (u : Tid) thu, s.threads[u]? = some thu → b ∈ thu.pc.priv → Seen tr u i)
  | .table L | .unlock L => lk L = some a.tid
  | .runlock L => lk L = none
  | .make _ | .free _ | .size _ => False
  | _ => True

theorem table_deref (hI : Inv cfg s) {b : Addr} (hb : b ∈ s.table) : ∃ v, deref s b = some v := by
  obtain ⟨x, hx⟩ := exists_get (hI.mem_keys hb)
  exact ⟨x.data, by simp [Arc.deref, hx]⟩

theorem priv_deref (hI : Inv cfg s) {t : Tid} {th : Thread V} (ht : s.threads[t]? = some th) {b : Addr}
    (hb : b ∈ th.pc.priv) : ∃ v, deref s b = some v := by
  have h1 := mem_priv_P ht hb
  have h2 := hI.split b
  obtain ⟨x, hx⟩ := exists_get (h := s.heap) (a := b) (List.count_pos_iff.mp (by simp only [K] at h2; omega))
  exact ⟨x.data, by simp [Arc.deref, hx]⟩

/-- Adding events of one thread without changing the state. -/
theorem J.extend (hI : Inv cfg s) (j : J cfg s lk obj own tr) {t : Tid} (es : List Ev) (hes : ∀ a ∈ es, a.tid = t)
    (hnew : ∀ (i : Nat) a, tr.length ≤ i → (tr ++ es)[i]? = some a → NewOk cfg s lk obj own (tr ++ es) i a) :
    J cfg s lk obj own (tr ++ es) := by
  have touchNew : ∀ (i : Nat) a o, tr.length ≤ i → (tr ++ es)[i]? = some a → a.what.touch = some o →
      ∃ b v, deref s b = some v ∧ obj b = o ∧ HB (tr ++ es) o i ∧
      (b ∈ s.table → Cov cfg s lk obj own (tr ++ es) i b) ∧
      (∀ (u : Tid) thu, s.threads[u]? = some thu → b ∈ thu.pc.removing →
        Seen (tr ++ es) u i ∨ LkH (tr ++ es) lk (cfg.shardOf v) i) ∧
      (∀ (u : Tid) thu, s.threads[u]? = some thu → b ∈ thu.pc.priv → Seen (tr ++ es) u i) := by
    intro i a o hi ha ht
    have h := hnew i a hi ha
    simp only [NewOk] at h
    cases hw : a.what <;> rw [hw] at ht h <;> simp only [What.touch] at ht <;> cases ht
    · exact absurd h id
    · exact h
    · exact h
  have notMake : ∀ a ∈ es, ∀ o, a.what ≠ .make o ∧ a.what ≠ .free o ∧ ∀ L, a.what ≠ .size L := by
    intro a ha
    obtain ⟨k, hk⟩ := List.getElem?_of_mem ha
    have h := hnew (tr.length + k) a (Nat.le_add_right _ _)
      (by rw [List.getElem?_append_right (Nat.le_add_right _ _), Nat.add_sub_cancel_left]; exact hk)
    intro o
    refine ⟨fun e => ?_, fun e => ?_, fun L e => ?_⟩ <;> simp [NewOk, e] at h
  have newUnlock : ∀ a ∈ es, ∀ L, a.what = .unlock L → lk L = some t := by
    intro a ha L e
    obtain ⟨k, hk⟩ := List.getElem?_of_mem ha
    have h := hnew (tr.length + k) a (Nat.le_add_right _ _)
      (by rw [List.getElem?_append_right (Nat.le_add_right _ _), Nat.add_sub_cancel_left]; exact hk)
    simp only [NewOk, e] at h
    rw [h, hes a ha]
  have newRunlock : ∀ a ∈ es, ∀ L, a.what = .runlock L → lk L = none := by
    intro a ha L e
    obtain ⟨k, hk⟩ := List.getElem?_of_mem ha
    have h := hnew (tr.length + k) a (Nat.le_add_right _ _)
      (by rw [List.getElem?_append_right (Nat.le_add_right _ _), Nat.add_sub_cancel_left]; exact hk)
    simpa only [NewOk, e] using h
  have newTable : ∀ (i : Nat) a L, tr.length ≤ i → (tr ++ es)[i]? = some a → a.what = .table L → lk L = some t := by
    intro i a L hi ha e
    have h := hnew i a hi ha
    simp only [NewOk, e] at h
    rcases tget_cases ha with h' | ⟨_, h'⟩
    · exact absurd (tget_lt h') (Nat.not_lt.mpr hi)
    · rw [h, hes a h']
  have tidNew : ∀ (i : Nat) a, tr.length ≤ i → (tr ++ es)[i]? = some a → a.tid = t := by
    intro i a hi ha
    rcases tget_cases ha with h' | ⟨_, h'⟩
    · exact absurd (tget_lt h') (Nat.not_lt.mpr hi)
    · exact hes a h'
  constructor
  · intro b hb i a ha ht
    rcases tget_cases ha with h | ⟨h, _⟩
    · exact (j.acc b hb i a h ht).append es
    · obtain ⟨b', v, h1, h2, _, h4, _, _⟩ := touchNew i a _ h ha ht
      obtain ⟨w, hw⟩ := table_deref hI hb
      cases j.inj b' b v w h1 hw h2
      exact h4 hb
  · intro u thu b v hu hb hv i a ha ht
    rcases tget_cases ha with h | ⟨h, _⟩
    · exact (j.rem u thu b v hu hb hv i a h ht).imp (fun x => x.append es) (fun x => x.append es)
    · obtain ⟨b', v', h1, h2, _, _, h5, _⟩ := touchNew i a _ h ha ht
      cases j.inj b' b v' v h1 hv h2
      rw [hv] at h1
      cases h1
      exact h5 u thu hu hb
  · intro u thu b hu hb i a ha ht
    rcases tget_cases ha with h | ⟨h, _⟩
    · exact (j.prv u thu b hu hb i a h ht).append es
    · obtain ⟨b', v', h1, h2, _, _, _, h6⟩ := touchNew i a _ h ha ht
      obtain ⟨w, hw⟩ := priv_deref hI hu hb
      cases j.inj b' b v' w h1 hw h2
      exact h6 u thu hu hb
  · intro h b hb; exact (j.pown h b hb).append es
  · intro u thu b hu hb; exact (j.pthr u thu b hu hb).append es
  · intro b v hb hv; exact (j.ptab b v hb hv).append es
  · intro b c y hc hb; exact (j.psto b c y hc hb).append es
  · exact j.inj
  · intro i u o h
    rcases tget_cases h with h | ⟨_, h⟩
    · exact j.mks i u o h
    · exact absurd rfl (notMake _ h o).1
  · intro i a o ha ht
    rcases tget_cases ha with h | ⟨hle, hm⟩
    · obtain ⟨⟨u, h1⟩, h2⟩ := j.born i a o h ht
      exact ⟨⟨u, tget_append h1⟩, h2.imp id (HB.append es)⟩
    · rcases ht with ht | ht
      · obtain ⟨b', v', h1, h2, h3, _⟩ := touchNew i a _ hle ha ht
        obtain ⟨u, hu⟩ := j.alive b' v' h1
        rw [h2] at hu
        exact ⟨⟨u, tget_append hu⟩, .inr h3⟩
      · exact absurd ht (notMake a hm o).2.1
  · intro b v hv
    obtain ⟨u, hu⟩ := j.alive b v hv
    exact ⟨u, tget_append hu⟩
  · intro i k u a o hk ha ht
    rcases tget_cases hk with hk' | ⟨_, h⟩
    · rcases tget_cases ha with h | ⟨hle, _⟩
      · exact (j.fin i k u a o hk' h ht).append es
      · obtain ⟨b', v', h1, h2, _⟩ := touchNew i a _ hle ha ht
        exact absurd h2 (j.dead k u o b' v' hk' h1)
    · exact absurd rfl (notMake _ h o).2.1
  · intro k u o b v hk hv
    rcases tget_cases hk with hk | ⟨_, h⟩
    · exact j.dead k u o b v hk hv
    · exact absurd rfl (notMake _ h o).2.1
  · intro i k u u' o hi hk
    rcases tget_cases hi with hi | ⟨_, h⟩
    · rcases tget_cases hk with hk | ⟨_, h⟩
      · exact j.once i k u u' o hi hk
      · exact absurd rfl (notMake _ h o).2.1
    · exact absurd rfl (notMake _ h o).2.1
  · intro L u i hu hl
    obtain ⟨e, a, h1, h2, h3⟩ := hl
    rcases tget_cases h1 with h | ⟨hle, hm⟩
    · exact (j.held L u i hu ⟨e, a, h, h2, h3.imp id (fun x => x.pre (tget_lt h))⟩).append es
    · rcases h2 with h2 | h2
      · have h4 := newUnlock a hm L h2
        rw [hu] at h4
        cases h4
        exact ⟨e, a, h1, hes a hm, h3⟩
      · have h4 := newRunlock a hm L h2
        rw [hu] at h4
        cases h4
  · intro i u L h
    rcases tget_cases h with h' | ⟨hle, hm⟩
    · exact (j.tab i u L h').imp (fun x => x.append es) (fun ⟨w, h1, h2⟩ => ⟨w, h1, h2.append es⟩)
    · exact .inr ⟨t, newTable i _ L hle h rfl, .self h (hes _ hm)⟩
  · intro i u L h
    rcases tget_cases h with h' | ⟨hle, hm⟩
    · exact (j.siz i u L h').append es
    · exact absurd rfl ((notMake _ hm 0).2.2 L)
  · intro i k a b L hlt ha hb hw
    rcases tget_cases hb with hb' | ⟨hle, hm⟩
    · exact (j.tabs i k a b L hlt (tget_pre ha (Nat.lt_trans hlt (tget_lt hb'))) hb' hw).append es
    · have hbt : b.what = .table L := by
        rcases hw with ⟨_, hw | hw⟩ | ⟨_, hw⟩
        · exact hw
        · exact absurd hw ((notMake _ hm 0).2.2 L)
        · exact hw
      have hlk := newTable k b L hle hb hbt
      have hbtid := hes b hm
      rcases tget_cases ha with ha' | ⟨hlea, hma⟩
      · have hseen : Seen tr t i := by
          rcases hw with ⟨hw, _⟩ | ⟨hw, _⟩
          · rcases j.tab i a.tid L (by rw [ha', ← hw]) with h | ⟨u, hu, h⟩
            · exact j.held L t i hlk (h.mono fun _ => .inl)
            · rw [hlk] at hu; cases hu; exact h
          · exact j.held L t i hlk (j.siz i a.tid L (by rw [ha', ← hw]))
        exact hseen.hb hb hle (fun x hx => .inl (hx.trans hbtid.symm))
      · exact .edge hlt ha hb (.inl ((hes a hma).trans hbtid.symm))
/-! ### Facts about boxes -/

omit [BEq V] [Hashable V] in
theorem mem_removing_R {t : Tid} {th : Thread V} (h : s.threads[t]? = some th) {b : Addr}
    (hb : b ∈ th.pc.removing) : 0 < R s b :=
  (count_flatMap_pos _ b s.threads).mpr ⟨t, th, h, hb⟩

omit [BEq V] [Hashable V] in
theorem R_two {t u : Tid} {th th' : Thread V} (h : s.threads[t]? = some th)
    (h' : s.threads[u]? = some th') (hne : u ≠ t) {b : Addr} (hb : b ∈ th.pc.removing)
    (hb' : b ∈ th'.pc.removing) : 2 ≤ R s b := by
  have h1 := removing_set s.threads ({} : Thread V) h b
  have h2 : (s.threads.set t {})[u]? = some th' := by
    rw [set_getElem? _ _ _ _ _ h, if_neg hne]; exact h'
  have h3 : 0 < ((s.threads.set t {}).flatMap (fun th => th.pc.removing)).count b :=
    (count_flatMap_pos _ b _).mpr ⟨u, th', h2, hb'⟩
  have h4 : 0 < th.pc.removing.count b := List.count_pos_iff.mpr hb
  have h5 : ({} : Thread V).pc.removing.count b = 0 := by simp [Pc.removing]
  simp only [R]; omega

omit [BEq V] [Hashable V] in
theorem mem_roots {th : Thread V} {b : Addr} :
    b ∈ th.roots cfg ↔ b ∈ th.owned cfg ∨ b ∈ th.pc.priv ∨ b ∈ th.pc.removing := by
  simp only [Thread.roots, List.mem_append, or_assoc]
  cases th.pc <;> exact Iff.rfl

theorem rem_facts (hI : Inv cfg s) {t : Tid} {th : Thread V} (h : s.threads[t]? = some th) {b : Addr}
    (hb : b ∈ th.pc.removing) : 0 < T s b ∧ A cfg s b = 0 ∧ R s b = 1 ∧ Z s b = 0 := by
  have h1 := mem_removing_R h hb
  have h2 := hI.pend b
  split at h2
  · rename_i h3; exact ⟨h3.1, h3.2, by omega, by omega⟩
  · omega

theorem A_facts (hI : Inv cfg s) {b : Addr} (h : 0 < A cfg s b) :
    b ∈ s.table ∧ (∀ (u : Tid) thu, s.threads[u]? = some thu → b ∉ thu.pc.priv ∧ b ∉ thu.pc.removing) := by
  have ht : b ∈ s.table := List.count_pos_iff.mp (hI.live b h)
  refine ⟨ht, fun u thu hu => ⟨hI.not_priv ht hu, fun hr => ?_⟩⟩
  have := (rem_facts hI hu hr).2.1
  omega

theorem root_deref (hI : Inv cfg s) {t : Tid} {th : Thread V} (ht : s.threads[t]? = some th) {b : Addr}
    (hb : b ∈ th.roots cfg) : ∃ v, deref s b = some v := by
  rcases mem_roots.mp hb with h | h | h
  · exact table_deref hI (A_facts hI (mem_owned_A ht h)).1
  · exact priv_deref hI ht h
  · exact table_deref hI (List.count_pos_iff.mp (rem_facts hI ht h).1)

omit [BEq V] [Hashable V] in
theorem deref_A {c b : Addr} {y : V} (h : deref s c = some y) (hb : b ∈ cfg.kids y) : 0 < A cfg s b := by
  obtain ⟨x, hx, rfl⟩ := deref_get h
  exact stored_A hx hb

omit [BEq V] [Hashable V] in
theorem points_cases {r x : Addr} (h : Points cfg s r x) : x = r ∨ 0 < A cfg s x := by
  cases h with
  | refl => exact .inl rfl
  | step _ h2 h3 => exact .inr (deref_A h2 h3)

omit [BEq V] in
theorem points_le (j : J cfg s lk obj own tr) {r x : Addr} (h : Points cfg s r x) :
    obj x = obj r ∨ HB tr (obj x) (obj r) := by
  induction h with
  | refl => exact .inl rfl
  | step _ h2 h3 ih =>
    have := j.psto _ _ _ h2 h3
    rcases ih with ih | ih
    · rw [← ih]; exact .inr this
    · exact .inr (this.trans ih)

/-- May thread `t` look at `r`? It has it in its hands, or holds the lock of its shard. -/
def May (cfg : Cfg V) (s : State V) (lk : Nat → Option Tid) (t : Tid) (r : Addr) : Prop :=
  (∃ th, s.threads[t]? = some th ∧ r ∈ th.roots cfg) ∨
  (r ∈ s.table ∧ ∃ v, deref s r = some v ∧ lk (cfg.shardOf v) = some t)

omit [BEq V] in
theorem May.seen (j : J cfg s lk obj own tr) {t : Tid} {r : Addr} (h : May cfg s lk t r) : Seen tr t (obj r) := by
  rcases h with ⟨th, h1, h2⟩ | ⟨h1, v, h2, h3⟩
  · exact j.pthr t th r h1 h2
  · rcases j.ptab r v h1 h2 with h | ⟨u, hu, h⟩
    · exact j.held _ _ _ h3 h
    · rw [h3] at hu; cases hu; exact h

/-- An access by a thread that may look at the object, or at one leading to it. -/
theorem May.ok (hI : Inv cfg s) (j : J cfg s lk obj own tr) {t : Tid} {r x : Addr} (h : May cfg s lk t r)
    (hp : Points cfg s r x) {es : List Ev} {i : Nat} {a : Ev} (hi : tr.length ≤ i) (ha : (tr ++ es)[i]? = some a)
    (hat : a.tid = t) :
    ∃ b v, deref s b = some v ∧ obj b = obj x ∧ HB (tr ++ es) (obj x) i ∧
      (b ∈ s.table → Cov cfg s lk obj own (tr ++ es) i b) ∧
      (∀ (u : Tid) thu, s.threads[u]? = some thu → b ∈ thu.pc.removing →
        Seen (tr ++ es) u i ∨ LkH (tr ++ es) lk (cfg.shardOf v) i) ∧
      (∀ (u : Tid) thu, s.threads[u]? = some thu → b ∈ thu.pc.priv → Seen (tr ++ es) u i) := by
  have hself : Seen (tr ++ es) t i := .self ha hat
  have hd : ∃ v, deref s x = some v := by
    rcases points_cases hp with rfl | hA
    · rcases h with ⟨th, h1, h2⟩ | ⟨h1, v, h2, h3⟩
      · exact root_deref hI h1 h2
      · exact ⟨v, h2⟩
    · exact table_deref hI (A_facts hI hA).1
  obtain ⟨v, hv⟩ := hd
  refine ⟨x, v, hv, rfl, ?_, ?_, ?_, ?_⟩
  · exact ((h.seen j).before (points_le j hp)).hb ha hi (fun b hb => .inl (hb.trans hat.symm))
  · intro _
    refine Cov.points hp ?_
    rcases h with ⟨th, h1, h2⟩ | ⟨h1, w, h2, h3⟩
    · exact .thread h1 h2 hself
    · exact .lock h1 h2 (.inr ⟨t, h3, hself⟩)
  · intro u thu hu hr
    rcases points_cases hp with rfl | hA
    · rcases h with ⟨th, h1, h2⟩ | ⟨h1, w, h2, h3⟩
      · rcases mem_roots.mp h2 with h2 | h2 | h2
        · exact absurd hr ((A_facts hI (mem_owned_A h1 h2)).2 u thu hu).2
        · exact absurd h2 (hI.not_priv (List.count_pos_iff.mp (rem_facts hI hu hr).1) h1)
        · by_cases hut : u = t
          · subst hut; exact .inl hself
          · have := R_two h1 hu hut h2 hr
            have := (rem_facts hI hu hr).2.2.1
            omega
      · rw [hv] at h2
        cases h2
        exact .inr (.inr ⟨t, h3, hself⟩)
    · exact absurd hr ((A_facts hI hA).2 u thu hu).2
  · intro u thu hu hr
    rcases points_cases hp with rfl | hA
    · rcases h with ⟨th, h1, h2⟩ | ⟨h1, w, h2, h3⟩
      · rcases mem_roots.mp h2 with h2 | h2 | h2
        · exact absurd hr ((A_facts hI (mem_owned_A h1 h2)).2 u thu hu).1
        · by_cases hut : u = t
          · subst hut; exact hself
          · have := P_two h1 hu hut h2 hr
            have h5 := hI.split x
            have h6 := hI.nd x
            omega
        · exact absurd hr (hI.not_priv (List.count_pos_iff.mp (rem_facts hI h1 h2).1) hu)
      · exact absurd hr (hI.not_priv h1 hu)
    · exact absurd hr ((A_facts hI hA).2 u thu hu).1

/-- A run of reads. -/
theorem J.looks (hI : Inv cfg s) (j : J cfg s lk obj own tr) {t : Tid} {xs : List Addr}
    (h : ∀ x ∈ xs, ∃ r, Points cfg s r x ∧ May cfg s lk t r) : J cfg s lk obj own (tr ++ Arc.looks t obj xs) := by
  refine j.extend hI (t := t) _ (fun a ha => ?_) (fun i a hi ha => ?_)
  · obtain ⟨x, _, rfl⟩ := List.mem_map.mp ha; rfl
  · rcases tget_cases ha with h' | ⟨_, hm⟩
    · exact absurd (tget_lt h') (Nat.not_lt.mpr hi)
    · obtain ⟨x, hx, rfl⟩ := List.mem_map.mp hm
      obtain ⟨r, hp, hr⟩ := h x hx
      exact hr.ok hI j hp hi ha rfl

/-- An update of a counter. -/
theorem J.rmw (hI : Inv cfg s) (j : J cfg s lk obj own tr) {t : Tid} {x : Addr} {ord : Order} (h : May cfg s lk t x) :
    J cfg s lk obj own (tr ++ [⟨t, .rmw (obj x) ord⟩]) := by
  refine j.extend hI (t := t) _ (fun a ha => ?_) (fun i a hi ha => ?_)
  · rw [List.mem_singleton.mp ha]
  · rcases tget_cases ha with h' | ⟨_, hm⟩
    · exact absurd (tget_lt h') (Nat.not_lt.mpr hi)
    · have := List.mem_singleton.mp hm
      subst this
      exact h.ok hI j (.refl x) hi ha rfl

/-- An event without obligations. -/
theorem J.plain (hI : Inv cfg s) (j : J cfg s lk obj own tr) {a : Ev}
    (h : ∀ i, NewOk cfg s lk obj own (tr ++ [a]) i a) : J cfg s lk obj own (tr ++ [a]) := by
  refine j.extend hI (t := a.tid) _ (fun b hb => ?_) (fun i b hi hb => ?_)
  · rw [List.mem_singleton.mp hb]
  · rcases tget_cases hb with h' | ⟨_, hm⟩
    · exact absurd (tget_lt h') (Nat.not_lt.mpr hi)
    · rw [List.mem_singleton.mp hm]; exact h i

/-! ### Changes of state -/

/-- Taking a lock. -/
theorem J.acquire (j : J cfg s lk obj own tr) {t : Tid} {L : Nat} (hn : lk L = none) (hl : ∀ i, Lk tr L i → Seen tr t i) :
    J cfg s (fun i => if i = L then some t else lk i) obj own tr := by
  have hlk : ∀ M i, LkH tr lk M i → LkH tr (fun i => if i = L then some t else lk i) M i := by
    intro M i h
    rcases h with h | ⟨u, hu, h⟩
    · exact .inl h
    · by_cases hM : M = L
      · subst hM; rw [hn] at hu; cases hu
      · exact .inr ⟨u, by simp only [if_neg hM]; exact hu, h⟩
  have hcov : ∀ i b, Cov cfg s lk obj own tr i b → Cov cfg s (fun i => if i = L then some t else lk i) obj own tr i b := by
    intro i b h
    induction h with
    | client h1 h2 => exact .client h1 h2
    | thread h1 h2 h3 => exact .thread h1 h2 h3
    | count h => exact .count h
    | lock h1 h2 h3 => exact .lock h1 h2 (hlk _ _ h3)
    | stored h1 h2 _ ih => exact .stored h1 h2 ih
    | zombie h => exact .zombie h
  refine { j with acc := ?_, rem := ?_, ptab := ?_, held := ?_, tab := ?_ }
  · intro b hb i a ha ht; exact hcov _ _ (j.acc b hb i a ha ht)
  · intro u thu b v hu hb hv i a ha ht; exact (j.rem u thu b v hu hb hv i a ha ht).imp id (hlk _ _)
  · intro b v hb hv; exact hlk _ _ (j.ptab b v hb hv)
  · intro M u i hM h
    by_cases hML : M = L
    · subst hML
      simp only [if_true] at hM
      cases hM
      exact hl i h
    · simp only [if_neg hML] at hM
      exact j.held M u i hM h
  · intro i u M h
    rcases j.tab i u M h with h | ⟨w, hw, h⟩
    · exact .inl h
    · by_cases hM : M = L
      · subst hM; rw [hn] at hw; cases hw
      · exact .inr ⟨w, by simp only [if_neg hM]; exact hw, h⟩

/-- Releasing a lock. -/
theorem J.letgo (j : J cfg s lk obj own tr) {t : Tid} {L : Nat} (hn : lk L = some t) (hl : ∀ i, Seen tr t i → Wk tr L i) :
    J cfg s (fun i => if i = L then none else lk i) obj own tr := by
  have hlk : ∀ M i, LkH tr lk M i → LkH tr (fun i => if i = L then none else lk i) M i := by
    intro M i h
    rcases h with h | ⟨u, hu, h⟩
    · exact .inl h
    · by_cases hM : M = L
      · subst hM; rw [hn] at hu; cases hu; exact .inl ((hl i h).mono fun _ => .inl)
      · exact .inr ⟨u, by simp only [if_neg hM]; exact hu, h⟩
  have hcov : ∀ i b, Cov cfg s lk obj own tr i b → Cov cfg s (fun i => if i = L then none else lk i) obj own tr i b := by
    intro i b h
    induction h with
    | client h1 h2 => exact .client h1 h2
    | thread h1 h2 h3 => exact .thread h1 h2 h3
    | count h => exact .count h
    | lock h1 h2 h3 => exact .lock h1 h2 (hlk _ _ h3)
    | stored h1 h2 _ ih => exact .stored h1 h2 ih
    | zombie h => exact .zombie h
  refine { j with acc := ?_, rem := ?_, ptab := ?_, held := ?_, tab := ?_ }
  · intro b hb i a ha ht; exact hcov _ _ (j.acc b hb i a ha ht)
  · intro u thu b v hu hb hv i a ha ht; exact (j.rem u thu b v hu hb hv i a ha ht).imp id (hlk _ _)
  · intro b v hb hv; exact hlk _ _ (j.ptab b v hb hv)
  · intro M u i hM h
    by_cases hML : M = L
    · subst hML; simp at hM
    · simp only [if_neg hML] at hM
      exact j.held M u i hM h
  · intro i u M h
    rcases j.tab i u M h with h | ⟨w, hw, h⟩
    · exact .inl h
    · by_cases hM : M = L
      · subst hM; rw [hn] at hw; cases hw; exact .inl (hl i h)
      · exact .inr ⟨w, by simp only [if_neg hM]; exact hw, h⟩

/-- Lock state after taking and releasing. -/
def lkSet (lk : Nat → Option Tid) (L : Nat) (t : Tid) : Nat → Option Tid := fun i => if i = L then some t else lk i
def lkClr (lk : Nat → Option Tid) (L : Nat) : Nat → Option Tid := fun i => if i = L then none else lk i

/-- The lock event. -/
theorem J.lockEv (hI : Inv cfg s) (j : J cfg s lk obj own tr) {t : Tid} {L : Nat} (hn : lk L = none) :
    J cfg s (lkSet lk L t) obj own (tr ++ [⟨t, .lock L⟩]) := by
  refine (j.plain hI (a := ⟨t, .lock L⟩) (fun _ => trivial)).acquire hn (fun i h => ?_)
  have h1 : Lk tr L i := h.pre (fun a ha => by rw [List.mem_singleton.mp ha]; simp)
  refine h1.snoc (fun a ha => .inr ?_) rfl
  rcases ha with ha | ha <;> rw [ha] <;> simp [Sync]

/-- The unlock event. -/
theorem J.unlockEv (hI : Inv cfg s) (j : J cfg s lk obj own tr) {t : Tid} {L : Nat} (hn : lk L = some t) :
    J cfg s (lkClr lk L) obj own (tr ++ [⟨t, .unlock L⟩]) :=
  (j.plain hI (a := ⟨t, .unlock L⟩) (fun _ => hn)).letgo hn (fun _ h => Past.last h rfl)

theorem lkClr_set (hn : lk L = none) (t : Tid) : lkClr (lkSet lk L t) L = lk := by
  funext i
  simp only [lkClr, lkSet]
  split
  · rename_i h; rw [h, hn]
  · rfl

/-- The reads and locking of a table operation. -/
theorem J.lookup (hI : Inv cfg s) (j : J cfg s lk obj own tr) {t : Tid} {th : Thread V} (ht : s.threads[t]? = some th)
    {L : Nat} (hn : lk L = none) {ch : Choice} (hb : ∀ x ∈ ch.before, ∃ r ∈ th.roots cfg, Points cfg s r x)
    (hu : ∀ x ∈ ch.under, ∃ r, Points cfg s r x ∧ (r ∈ th.roots cfg ∨
      r ∈ s.table ∧ ∃ v, deref s r = some v ∧ some L = some (cfg.shardOf v))) :
    J cfg s (lkSet lk L t) obj own (tr ++ Arc.lookup t obj ch L) := by
  have j1 := j.looks hI (t := t) (xs := ch.before) (fun x hx => by
    obtain ⟨r, h1, h2⟩ := hb x hx
    exact ⟨r, h2, .inl ⟨th, ht, h1⟩⟩)
  have j2 := (j1.lockEv hI (t := t) hn).plain hI (a := ⟨t, .table L⟩) (fun _ => by simp [NewOk, lkSet])
  have j3 := j2.looks hI (t := t) (xs := ch.under) (fun x hx => by
    obtain ⟨r, h1, h2⟩ := hu x hx
    refine ⟨r, h1, ?_⟩
    rcases h2 with h2 | ⟨h2, v, h3, h4⟩
    · exact .inl ⟨th, ht, h2⟩
    · exact .inr ⟨h2, v, h3, by cases h4; simp [lkSet]⟩)
  simpa only [Arc.lookup, List.append_assoc, List.cons_append, List.nil_append] using j3
end
end Arc
