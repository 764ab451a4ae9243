import Verif.Arc.Values
/-!
Programs that use `ArcIntern` with several types at once.

`ArcIntern::<T>::get_container` (arc.rs:113-139) keeps one DashMap per type `T`, and a value of one type may contain handles
of other types. This file instantiates the model of `Verif/Arc/Model.lean` with *all* interned types of a program: a value
is a type together with a value of that type, the table of the model is the union of the tables of all types, and the
shards are the shards of all containers, numbered one container after the other.
-/
namespace Arc.Multi

/-- One interned type of a program that interns `n` types.
* `T`, `==`, `hash`: the type with its `Eq` and `Hash`.
* `fields v`: the `ArcIntern` handles stored in `v`, in drop order, each with the (static) type it was declared with:
  a field `ArcIntern<S>` is `(number of S, address)`.
* `shards`, `pick`: the shards of this type's own `DashMap` (arc.rs:24, 113-139). -/
structure Ty (n : Nat) where
  T : Type
  [beq : BEq T]
  [hashable : Hashable T]
  [equiv : EquivBEq T]
  [lawful : LawfulHashable T]
  fields : T → List (Fin n × Addr)
  shards : Nat
  pick : UInt64 → Nat
  pick_lt : ∀ h, pick h < shards

attribute [instance] Ty.beq Ty.hashable Ty.equiv Ty.lawful

/-- Number of shards of the containers of the types before type `i`. -/
def base {n : Nat} (ty : Fin n → Ty n) : Nat → Nat
  | 0 => 0
  | i + 1 => base ty i + if h : i < n then (ty ⟨i, h⟩).shards else 0

/-- The interned types of a program. `fits`: there are fewer than 2^64 shards in all containers together.
`W` as in `Cfg`. -/
structure Program where
  n : Nat
  ty : Fin n → Ty n
  W : Nat
  W_ge : 2 ≤ W
  fits : base ty n < 2 ^ 64

/-- A value of one of the interned types. -/
structure Value (P : Program) where
  ty : Fin P.n
  val : (P.ty ty).T

/-- First shard of the container of type `τ`, and the first one after it. -/
def Program.lo (P : Program) (τ : Fin P.n) : Nat := base P.ty τ
def Program.hi (P : Program) (τ : Fin P.n) : Nat := base P.ty (τ + 1)

variable {P : Program}

/-- Values of different types are never equal (they are never compared: each type has its own container). Values of the same type are
compared with the `Eq` of that type. -/
instance : BEq (Value P) := ⟨fun a b => if h : a.ty = b.ty then (h ▸ a.val) == b.val else false⟩

/-- The shard, in the numbering of all shards, that holds a value: the one its own container picks from its hash. -/
def shard (a : Value P) : Nat := P.lo a.ty + (P.ty a.ty).pick (hash a.val)

/-- The model of `Verif/Arc/Model.lean` uses hashes only to select a shard, and in `keyEq` together with `==`, where
equal values have equal hashes. So the hash of `⟨τ, v⟩` in the union of all containers is taken to be the number of the shard
that `τ`'s container picks from the real hash of `v`. -/
instance : Hashable (Value P) := ⟨fun a => UInt64.ofNat (shard a)⟩

/-- The parameters of the model for the program `P`. (`pick` gives the shard itself back; hash values that no value has
go to one extra shard at the end.) -/
def Program.cfg (P : Program) : Cfg (Value P) where
  kids v := ((P.ty v.ty).fields v.val).map (·.2)
  shards := base P.ty P.n + 1
  pick h := min h.toNat (base P.ty P.n)
  W := P.W

/-- The type of the object at `p`. -/
def tyAt (s : State (Value P)) (p : Addr) : Option (Fin P.n) := (deref s p).map (·.ty)

/-- Every handle stored in `v` points to an object of the type it was declared with. -/
def Typed (s : State (Value P)) (v : Value P) : Prop :=
  ∀ f ∈ (P.ty v.ty).fields v.val, tyAt s f.2 = some f.1

/-- What Rust's type system allows: a value passed to `new` has handles of the declared types in it;
`num_objects_interned` and `shrink_to_fit` are called on one of the types. -/
def Allowed (s : State (Value P)) : Act (Value P) → Prop
  | .new _ v _ => Typed s v
  | .len _ lo up | .shrink _ lo up => ∃ τ, lo = P.lo τ ∧ up = P.hi τ
  | _ => True

/-- States reachable by any interleaving of any well-typed client program on any number of threads. -/
inductive Reach (P : Program) : State (Value P) → Prop
  | init : Reach P init
  | step {s s' : State (Value P)} {a : Act (Value P)} : Reach P s → a.Sane → Allowed s a → step P.cfg s a = .ok s' →
      Small P.cfg s' → Reach P s'

/-! ### Basic facts -/

theorem beq_iff (a b : Value P) : (a == b) = true ↔ ∃ h : a.ty = b.ty, ((h ▸ a.val) == b.val) = true := by
  show (if h : a.ty = b.ty then (h ▸ a.val) == b.val else false) = true ↔
    ∃ h : a.ty = b.ty, ((h ▸ a.val) == b.val) = true
  by_cases h : a.ty = b.ty
  · rw [dif_pos h]
    constructor
    · intro e; exact ⟨h, e⟩
    · rintro ⟨_, e⟩; exact e
  · rw [dif_neg h]
    constructor
    · intro e; cases e
    · rintro ⟨h', _⟩; exact (h h').elim

theorem beq_mk {τ : Fin P.n} (x y : (P.ty τ).T) : ((⟨τ, x⟩ : Value P) == ⟨τ, y⟩) = (x == y) := by
  rw [Bool.eq_iff_iff, beq_iff]
  exact ⟨fun ⟨_, e⟩ => e, fun e => ⟨rfl, e⟩⟩

theorem ty_of_beq {a b : Value P} (h : (a == b) = true) : a.ty = b.ty := ((beq_iff a b).mp h).1

instance : EquivBEq (Value P) where
  rfl := by intro a; rw [beq_iff]; exact ⟨rfl, BEq.rfl⟩
  symm := by
    rintro ⟨τ, x⟩ ⟨σ, y⟩ h
    obtain rfl : τ = σ := ty_of_beq h
    rw [beq_mk] at *; exact BEq.symm h
  trans := by
    rintro ⟨τ, x⟩ ⟨σ, y⟩ ⟨ρ, z⟩ h1 h2
    obtain rfl : τ = σ := ty_of_beq h1
    obtain rfl : τ = ρ := ty_of_beq h2
    rw [beq_mk] at *; exact BEq.trans h1 h2

theorem base_le {n : Nat} (ty : Fin n → Ty n) {i j : Nat} (h : i ≤ j) : base ty i ≤ base ty j := by
  induction h with
  | refl => exact Nat.le_refl _
  | step h ih => exact Nat.le_trans ih (Nat.le_add_right _ _)

theorem hi_eq (P : Program) (τ : Fin P.n) : P.hi τ = P.lo τ + (P.ty τ).shards := by
  show base P.ty τ + (if h : τ.1 < P.n then (P.ty ⟨τ.1, h⟩).shards else 0) = _
  rw [dif_pos τ.2]; rfl

theorem shard_range (a : Value P) : P.lo a.ty ≤ shard a ∧ shard a < P.hi a.ty := by
  have := (P.ty a.ty).pick_lt (hash a.val)
  rw [hi_eq]; unfold shard; omega

theorem shard_lt (a : Value P) : shard a < base P.ty P.n :=
  Nat.lt_of_lt_of_le (shard_range a).2 (base_le P.ty a.ty.2)

/-- The shards of different types are different. -/
theorem ty_of_range {τ σ : Fin P.n} {i : Nat} (h1 : P.lo τ ≤ i ∧ i < P.hi τ) (h2 : P.lo σ ≤ i ∧ i < P.hi σ) : τ = σ := by
  rcases Nat.lt_trichotomy τ.1 σ.1 with h | h | h
  · have := base_le P.ty (Nat.succ_le_of_lt h)
    simp only [Program.lo, Program.hi, Nat.succ_eq_add_one] at *; omega
  · exact Fin.ext h
  · have := base_le P.ty (Nat.succ_le_of_lt h)
    simp only [Program.lo, Program.hi, Nat.succ_eq_add_one] at *; omega

theorem shardOf_eq (a : Value P) : P.cfg.shardOf a = shard a := by
  show min (UInt64.ofNat (shard a)).toNat (base P.ty P.n) = shard a
  have h1 := shard_lt a
  have h2 := P.fits
  rw [UInt64.toNat_ofNat', Nat.mod_eq_of_lt (by omega)]
  omega

instance : LawfulHashable (Value P) where
  hash_eq := by
    rintro ⟨τ, x⟩ ⟨σ, y⟩ h
    obtain rfl : τ = σ := ty_of_beq h
    rw [beq_mk] at h
    show UInt64.ofNat (P.lo τ + (P.ty τ).pick (hash x)) = UInt64.ofNat (P.lo τ + (P.ty τ).pick (hash y))
    rw [LawfulHashable.hash_eq x y h]

theorem cfg_valid (P : Program) : P.cfg.Valid where
  pick_lt _ := Nat.lt_succ_of_le (Nat.min_le_right _ _)
  W_ge := P.W_ge

theorem Reach.reach {s : State (Value P)} (h : Reach P s) : Arc.Reach P.cfg s := by
  induction h with
  | init => exact .init
  | step _ h1 _ h2 h3 ih => exact .step ih h1 h2 h3

/-! ### The typing invariant -/

/-- The scan of a container stays within that container. -/
def Scan (P : Program) : Pc (Value P) → Prop
  | .lenScan i m _ | .shrinkScan i m => ∃ τ : Fin P.n, P.lo τ ≤ i ∧ m = P.hi τ
  | _ => True

structure TInv (s : State (Value P)) : Prop where
  heap : ∀ e ∈ s.heap, Typed s e.2.data
  calls : ∀ (t : Tid) (th : Thread (Value P)), s.threads[t]? = some th → ∀ v, th.pc.local = some v → Typed s v
  scan : ∀ (t : Tid) (th : Thread (Value P)), s.threads[t]? = some th → Scan P th.pc

theorem kid_of_field {v : Value P} {f : Fin P.n × Addr} (h : f ∈ (P.ty v.ty).fields v.val) : f.2 ∈ P.cfg.kids v :=
  List.mem_map.mpr ⟨f, h, rfl⟩

theorem typed_step {s s' : State (Value P)} (hI : Inv P.cfg s) {act : Act (Value P)} (hs : act.Sane)
    (hst : step P.cfg s act = .ok s') {v : Value P} (hown : ∀ p ∈ P.cfg.kids v, p ∈ allHandles P.cfg s) (h : Typed s v) :
    Typed s' v := by
  intro f hf
  have := step_data hI hs hst (hI.in_table (hown _ (kid_of_field hf)))
  rw [tyAt, this]; exact h f hf

theorem scan_step {s s' : State (Value P)} {act : Act (Value P)} (hal : Allowed s act) (hst : step P.cfg s act = .ok s')
    (hs : ∀ (t : Tid) (th : Thread (Value P)), s.threads[t]? = some th → Scan P th.pc)
    (u : Tid) (th' : Thread (Value P)) (hu : s'.threads[u]? = some th') : Scan P th'.pc := by
  have key : ∀ {t : Tid} {th x : Thread (Value P)}, s.threads[t]? = some th → (s.threads.set t x)[u]? = some th' →
      (Scan P th.pc → Scan P x.pc) → Scan P th'.pc := by
    intro t th x ht h1 h2
    rw [set_getElem? _ _ _ _ _ ht] at h1
    split at h1
    · cases h1; exact h2 (hs _ _ ht)
    · exact hs _ _ h1
  have unw : ∀ (c : Call (Value P)) (r : Option Addr) (a : Option (Value P)), Scan P (unwindCall P.cfg c r a).pc := by
    intro c r a
    cases hc : c.conv <;> simp [unwindCall, hc, Scan]
  have hR := step_R hst
  cases hR with
  | spawn =>
    rw [List.getElem?_append] at hu
    split at hu
    · exact hs _ _ hu
    · rw [List.getElem?_singleton] at hu
      split at hu
      · cases hu; trivial
      · cases hu
  | run t a th _ ht hr =>
    cases hr with
    | lenScan i m acc hpc hi hl =>
      refine key ht hu fun h => ?_
      rw [hpc] at h
      obtain ⟨τ, h1, h2⟩ := h
      exact ⟨τ, Nat.le_succ_of_le h1, h2⟩
    | shrink i m hpc hi hl =>
      refine key ht hu fun h => ?_
      rw [hpc] at h
      obtain ⟨τ, h1, h2⟩ := h
      exact ⟨τ, Nat.le_succ_of_le h1, h2⟩
    | hitRet => exact key ht hu fun _ => unw _ _ _
    | _ => exact key ht hu fun _ => trivial
  | len t lo up th ht =>
    obtain ⟨τ, h1, h2⟩ := hal
    exact key ht hu fun _ => ⟨τ, Nat.le_of_eq h1.symm, h2⟩
  | shrink t lo up th ht =>
    obtain ⟨τ, h1, h2⟩ := hal
    exact key ht hu fun _ => ⟨τ, Nat.le_of_eq h1.symm, h2⟩
  | clone => exact hs _ _ hu
  | read => exact hs _ _ hu
  | panicLoop t th c ht => exact key ht hu fun _ => unw _ _ _
  | new t w d th ht => exact key ht hu fun _ => trivial
  | drop t p th ht => exact key ht hu fun _ => trivial
  | panicEntry t th c b ht => exact key ht hu fun _ => trivial
  | panicRemove t th b ht => exact key ht hu fun _ => trivial
  | panicShrink t th i m ht => exact key ht hu fun _ => trivial
  | panicInsert t th c sh b ht => exact key ht hu fun _ => trivial

theorem Reach.tinv {s : State (Value P)} (h : Reach P s) : TInv s := by
  induction h with
  | init => exact ⟨fun e he => (nomatch he), by intro t th ht; simp [Arc.init] at ht, by intro t th ht; simp [Arc.init] at ht⟩
  | @step s s' act h hs hal hst hsm ih =>
    have hI := reach_inv (cfg_valid P) h.reach
    obtain ⟨h1, h2⟩ := values_step hI hst (Q := Typed s) (Q' := Typed s') (fun v hown hv => typed_step hI hs hst hown hv)
      (fun t v d e => by subst e; exact hal) ih.heap ih.calls
    exact ⟨h1, h2, scan_step hal hst ih.scan⟩

end Arc.Multi
