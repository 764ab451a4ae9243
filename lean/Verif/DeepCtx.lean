import Verif.DeepSize
/-
deepsize support with deepsize's `Context`: allocations behind `Arc`s that several values share.

`DeepSizeOf::deep_size_of_children(&self, context)` gets a `Context` in which deepsize records the addresses of the `Arc`s it has counted; a second
`Arc` to a recorded address adds 0. `deep_size_of` starts with an empty `Context`. Who passes which `Context` on is decided by this library:
boxedset.rs:27-50 uses one for all elements of a set, arc.rs:69-79 a new one for every element.
-/
namespace DeepSize

/-- The allocations behind `Arc`s, by address: the bytes counted for one (its content and what that owns alone), and the `Arc`s inside it. `Arc`s
without interior mutability make no cycles: `rank` goes down. -/
structure Shared where
  own : Nat → Nat
  kids : Nat → List Nat
  rank : Nat → Nat
  down : ∀ a, ∀ b ∈ kids a, rank b < rank a

/-- Fields are counted one after the other, handing the `Context` on. -/
def walk (f : Nat → List Nat → Nat × List Nat) : List Nat → List Nat → Nat × List Nat
  | [], c => (0, c)
  | a :: l, c =>
    let x := f a c
    let y := walk f l x.2
    (x.1 + y.1, y.2)

/-- deepsize's `impl DeepSizeOf for Arc<T>`: 0 if the address is recorded; otherwise record it and count the content. The first argument bounds the
nesting (Lean wants to see that this ends; `rank a + 1` is enough for `a`). -/
def visit (H : Shared) : Nat → Nat → List Nat → Nat × List Nat
  | 0, _, c => (0, c)
  | n + 1, a, c =>
    if a ∈ c then (0, c)
    else
      let x := walk (visit H n) (H.kids a) (a :: c)
      (H.own a + x.1, x.2)

/-- Values of the interned type: `own v` = `size_of_val(v)`, `heap v` = the heap memory `v` owns alone, `arcs v` = the `Arc`s in `v`; `ptr` = the
size of the stored pointers. (An `Intern` or `ArcIntern` inside a value counts nothing: intern.rs:72-77, arc.rs:58-64.) -/
structure Deep (V : Type) where
  own : V → Nat
  heap : V → Nat
  arcs : V → List Nat
  ptr : Nat

variable {V : Type}

/-- `v.deep_size_of_children(context)`. -/
def Deep.children (D : Deep V) (H : Shared) (v : V) (c : List Nat) : Nat × List Nat :=
  let x := walk (fun a => visit H (H.rank a + 1) a) (D.arcs v) c
  (D.heap v + x.1, x.2)

/-- boxedset.rs:30-34, 44-48: `.keys().map(|n| n.deep_size_of_children(context) + size).sum()`: one `Context` for all elements. -/
def Deep.elems (D : Deep V) (H : Shared) : List V → List Nat → Nat × List Nat
  | [], c => (0, c)
  | v :: l, c =>
    let x := D.children H v c
    let y := D.elems H l x.2
    (x.1 + D.own v + y.1, y.2)

/-- `deep_size_of_interned` (intern.rs:82-86) is `m.deep_size_of()`: the size `header` of the set itself and its children with a new `Context`; the
elements come in the order `ord` of the hash table. For an `Arena` (arena.rs:72-77) the same without a mutex around. `none` = an element has been freed. -/
def poolDeep {K : Type} [DecidableEq K] (D : Deep V) (H : Shared) (header capacity : Nat) (s : Pool.State K V) (k : K) (ord : List Pool.Ptr) : Option Nat :=
  (ord.mapM (Pool.deref s k)).map fun vs => header + (capacity * D.ptr + (D.elems H vs []).1)

/-- `deep_size_of_arc_interned` (arc.rs:69-79) while nothing else runs: `size_of::<usize>() + data.deep_size_of()` for each key, and `deep_size_of`
starts with a new `Context` each time. -/
def arcDeep (D : Deep V) (H : Shared) (word capacity : Nat) (s : Arc.State V) (ord : List Arc.Addr) : Option Nat :=
  (ord.mapM (Arc.deref s)).map fun vs => capacity * D.ptr + (vs.map fun v => word + (D.own v + (D.children H v []).1)).sum

/-- `deep_size_of_children` of an `ArenaIntern` handle (arena.rs:86-90): the size of its pointer. (0 for `Intern` and `ArcIntern`, `internChildren`.) -/
def arenaInternChildren (ptr : Nat) : Nat := ptr

/-- Values like those of `D` that in addition have `n v` handle fields, each with `each` as its `deep_size_of_children`; the fields themselves are part of
the value, `own v`. -/
def Deep.withHandles (D : Deep V) (n : V → Nat) (each : Nat) : Deep V := { D with heap := fun v => D.heap v + n v * each }

/-! ### Specification -/

/-- Allocation `b` is `a` or inside it (behind any number of `Arc`s). -/
inductive Shared.Below (H : Shared) (a : Nat) : Nat → Prop where
  | refl : H.Below a a
  | step {b c : Nat} : H.Below a b → c ∈ H.kids b → H.Below a c

/-- The value `v` keeps allocation `x` alive. -/
def Deep.Keeps (D : Deep V) (H : Shared) (v : V) (x : Nat) : Prop := ∃ a ∈ D.arcs v, H.Below a x

/-! ### Facts -/
section facts
variable {H : Shared}

theorem Shared.Below.trans {a b c : Nat} (h : H.Below a b) (h' : H.Below b c) : H.Below a c := by
  induction h' with
  | refl => exact h
  | step _ hk ih => exact .step ih hk

theorem Shared.Below.rank {a b : Nat} (h : H.Below a b) : H.rank b ≤ H.rank a := by
  induction h with
  | refl => exact Nat.le_refl _
  | step _ hk ih => exact Nat.le_trans (Nat.le_of_lt (H.down _ _ hk)) ih

theorem Shared.Below.cases_head {a b : Nat} (h : H.Below a b) : b = a ∨ ∃ k ∈ H.kids a, H.Below k b := by
  induction h with
  | refl => exact .inl rfl
  | step _ hk ih =>
    rcases ih with rfl | ⟨k, hk', hb⟩
    · exact .inr ⟨_, hk, .refl⟩
    · exact .inr ⟨k, hk', .step hb hk⟩

/-- What a traversal from the roots `l` with `Context` `c` gives. -/
structure Counts (H : Shared) (roots : Nat → Prop) (c : List Nat) (r : Nat × List Nat) : Prop where
  ex : ∃ new, r.2 = new ++ c ∧ (new ++ c).Nodup ∧ r.1 = (new.map H.own).sum
  mem : ∀ x, x ∈ r.2 ↔ x ∈ c ∨ ∃ a, roots a ∧ H.Below a x

/-- The recorded addresses below the roots have everything below them recorded. -/
def Closed (H : Shared) (roots : Nat → Prop) (c : List Nat) : Prop :=
  ∀ x ∈ c, (∃ a, roots a ∧ H.Below a x) → ∀ y, H.Below x y → y ∈ c

theorem walk_counts {f : Nat → List Nat → Nat × List Nat} (l : List Nat)
    (hf : ∀ a ∈ l, ∀ c, c.Nodup → Closed H (· = a) c → Counts H (· = a) c (f a c)) (c : List Nat) (hn : c.Nodup)
    (hc : Closed H (· ∈ l) c) : Counts H (· ∈ l) c (walk f l c) := by
  induction l generalizing c with
  | nil => exact ⟨⟨[], rfl, hn, rfl⟩, fun x => by simp [walk]⟩
  | cons a l ih =>
    have h1 := hf a List.mem_cons_self c hn (fun x hx hr => hc x hx (by
      obtain ⟨_, rfl, hb⟩ := hr
      exact ⟨_, List.mem_cons_self, hb⟩))
    obtain ⟨n1, e1, d1, s1⟩ := h1.ex
    have hn' : (f a c).2.Nodup := e1 ▸ d1
    have h2 := ih (fun b hb => hf b (List.mem_cons_of_mem _ hb)) (f a c).2 hn' (by
      rintro x hx ⟨b, hb, hbx⟩ y hxy
      rcases (h1.mem x).mp hx with hx' | ⟨_, rfl, hax⟩
      · exact (h1.mem y).mpr (.inl (hc x hx' ⟨b, List.mem_cons_of_mem _ hb, hbx⟩ y hxy))
      · exact (h1.mem y).mpr (.inr ⟨_, rfl, hax.trans hxy⟩))
    obtain ⟨n2, e2, d2, s2⟩ := h2.ex
    refine ⟨⟨n2 ++ n1, ?_, ?_, ?_⟩, fun x => ?_⟩
    · simp only [walk]; rw [e2, e1, List.append_assoc]
    · rw [List.append_assoc, ← e1]; exact d2
    · simp only [walk]; rw [s1, s2, List.map_append, List.sum_append, Nat.add_comm]
    · simp only [walk]
      rw [h2.mem, h1.mem]
      constructor
      · rintro ((h | ⟨_, rfl, h⟩) | ⟨b, hb, h⟩)
        · exact .inl h
        · exact .inr ⟨_, List.mem_cons_self, h⟩
        · exact .inr ⟨b, List.mem_cons_of_mem _ hb, h⟩
      · rintro (h | ⟨b, hb, h⟩)
        · exact .inl (.inl h)
        · rcases List.mem_cons.mp hb with rfl | hb
          · exact .inl (.inr ⟨_, rfl, h⟩)
          · exact .inr ⟨b, hb, h⟩

theorem visit_counts (n : Nat) : ∀ a, H.rank a < n → ∀ c, c.Nodup → Closed H (· = a) c → Counts H (· = a) c (visit H n a c) := by
  induction n with
  | zero => intro a h; exact absurd h (Nat.not_lt_zero _)
  | succ n ih =>
    intro a hr c hn hc
    simp only [visit]
    split
    · rename_i ha
      refine ⟨⟨[], rfl, hn, rfl⟩, fun x => ⟨.inl, ?_⟩⟩
      rintro (h | ⟨_, rfl, h⟩)
      · exact h
      · exact hc _ ha ⟨_, rfl, .refl⟩ x h
    · rename_i ha
      have h := walk_counts (H := H) (H.kids a) (fun b hb => ih b (by have := H.down a b hb; omega)) (a :: c)
        (List.nodup_cons.mpr ⟨ha, hn⟩) (by
          rintro x hx ⟨k, hk, hkx⟩ y hxy
          rcases List.mem_cons.mp hx with rfl | hx
          · have := hkx.rank
            have := H.down _ k hk
            omega
          · exact List.mem_cons_of_mem _ (hc x hx ⟨_, rfl, (Shared.Below.step .refl hk).trans hkx⟩ y hxy))
      obtain ⟨new, e, d, s⟩ := h.ex
      refine ⟨⟨new ++ [a], ?_, ?_, ?_⟩, fun x => ?_⟩
      · rw [e, List.append_assoc]; rfl
      · rw [List.append_assoc]; exact d
      · rw [s, List.map_append, List.sum_append, Nat.add_comm]; simp
      · rw [h.mem, List.mem_cons]
        constructor
        · rintro ((rfl | h) | ⟨k, hk, h⟩)
          · exact .inr ⟨_, rfl, .refl⟩
          · exact .inl h
          · exact .inr ⟨_, rfl, (Shared.Below.step .refl hk).trans h⟩
        · rintro (h | ⟨_, rfl, hb⟩)
          · exact .inl (.inr h)
          · rcases hb.cases_head with rfl | ⟨k, hk, hb⟩
            · exact .inl (.inl rfl)
            · exact .inr ⟨k, hk, hb⟩

/-- Everything below a recorded address is recorded. -/
def Full (H : Shared) (c : List Nat) : Prop := ∀ x ∈ c, ∀ y, H.Below x y → y ∈ c

theorem children_counts (D : Deep V) (v : V) {c : List Nat} (hn : c.Nodup) (hc : Full H c) :
    ∃ new, (D.children H v c).2 = new ++ c ∧ (new ++ c).Nodup ∧ (D.children H v c).1 = D.heap v + (new.map H.own).sum ∧
      (∀ x, x ∈ new ++ c ↔ x ∈ c ∨ D.Keeps H v x) ∧ Full H (new ++ c) := by
  have h := walk_counts (H := H) (f := fun a => visit H (H.rank a + 1) a) (D.arcs v)
    (fun a _ => visit_counts _ a (Nat.lt_succ_self _)) c hn (fun x hx _ => hc x hx)
  obtain ⟨new, e, d, s⟩ := h.ex
  have hm : ∀ x, x ∈ new ++ c ↔ x ∈ c ∨ D.Keeps H v x := fun x => by rw [← e]; exact h.mem x
  refine ⟨new, e, d, ?_, hm, ?_⟩
  · simp only [Deep.children]; rw [s]
  · intro x hx y hxy
    rcases (hm x).mp hx with h | ⟨a, ha, h⟩
    · exact (hm y).mpr (.inl (hc x h y hxy))
    · exact (hm y).mpr (.inr ⟨a, ha, h.trans hxy⟩)

theorem elems_counts (D : Deep V) (vs : List V) {c : List Nat} (hn : c.Nodup) (hc : Full H c) :
    ∃ new, (new ++ c).Nodup ∧ (D.elems H vs c).1 = (vs.map fun v => D.heap v + D.own v).sum + (new.map H.own).sum ∧
      ∀ x, x ∈ new ++ c ↔ x ∈ c ∨ ∃ v ∈ vs, D.Keeps H v x := by
  induction vs generalizing c with
  | nil => exact ⟨[], hn, rfl, fun x => by simp⟩
  | cons v vs ih =>
    obtain ⟨n1, e1, d1, s1, m1, f1⟩ := children_counts D v hn hc
    obtain ⟨n2, d2, s2, m2⟩ := ih d1 f1
    refine ⟨n2 ++ n1, by rw [List.append_assoc]; exact d2, ?_, fun x => ?_⟩
    · simp only [Deep.elems]
      rw [e1, s1, s2, List.map_append, List.sum_append, List.map_cons, List.sum_cons]
      omega
    · rw [List.append_assoc, m2, m1]
      simp only [List.mem_cons]
      constructor
      · rintro ((h | h) | ⟨w, hw, h⟩)
        · exact .inl h
        · exact .inr ⟨v, .inl rfl, h⟩
        · exact .inr ⟨w, .inr hw, h⟩
      · rintro (h | ⟨w, rfl | hw, h⟩)
        · exact .inl (.inl h)
        · exact .inl (.inr h)
        · exact .inr ⟨w, hw, h⟩

theorem full_nil : Full H [] := fun _ h => by cases h

theorem sum_of_same {l l' : List Nat} (h : l.Nodup) (h' : l'.Nodup) (hm : ∀ x, x ∈ l ↔ x ∈ l') (f : Nat → Nat) :
    (l.map f).sum = (l'.map f).sum :=
  (((List.perm_ext_iff_of_nodup h h').mpr hm).map f).sum_nat

end facts
end DeepSize
