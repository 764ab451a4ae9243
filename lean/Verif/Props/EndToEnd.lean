import Verif.Closures.Reach
import Verif.Props.TypeMap
import Verif.Props.TypeArena
/-
Properties C24-C28 of `Intern` and C51, C52 of `NewIntern`, from the calls down to the type tables: any number of threads make
any number of calls of `Closures.Op` for any number of types, with panics in user code at any step.

Reading guide. `Returned L l v p`: among the finished calls `l` there is one that interned `v` and returned the handle `p`.
`Called L l v`: one that was to intern `v`, and returned or panicked. `deref m p`: what `p` points to. `s.log t`: the finished
calls for type `t`, newest first.
-/
namespace Closures
open TypeMap (Cfg Code Entry Replay Tid set_cases set_self)
open Pool (Ptr Query)

/-! ### `Intern`, through container.rs -/
namespace Container
open TypeMap
variable {T : Types}

theorem Reach.now {s : State T.cfg} (h : Reach s) (t : T.Ty) : Now (T.lay t) (s.log t) (content s t) := by
  by_cases hq : ∀ (u : Tid) orig n k pos, s.threads[u]? ≠ some (.inside (cfg := T.cfg) t orig n k pos)
  · exact ⟨_, C28_history h.base t hq, .inl rfl⟩
  · have : ∃ (u : Tid) (orig : Code (Table (T.V t)) Ret) (n : Nat) (k : Code (Table (T.V t)) Ret) (pos : Nat),
        s.threads[u]? = some (.inside (cfg := T.cfg) t orig n k pos) :=
      Classical.byContradiction fun hn => hq fun u orig n k pos hu => hn ⟨u, orig, n, k, pos, hu⟩
    obtain ⟨u, orig, n, k, pos, hu⟩ := this
    obtain ⟨c0, hr, hs⟩ := C28_in_progress h.base hu
    obtain ⟨o, ho, rfl⟩ := h.inv.inside u t orig n k pos hu
    exact ⟨c0, hr, .inr ⟨o, n, ho, by rw [hs]⟩⟩

/-- **C24, end to end.** In every reachable state, for every type, whatever calls of this and other types are in progress:
two handles returned are equal exactly when the interned values are, and they point to values equal to those. -/
theorem C24_end_to_end (ok : T.Ok) {s : State T.cfg} (h : Reach s) (t : T.Ty) {v w : T.V t} {p p' : Ptr}
    (hv : Returned (T.lay t) (s.log t) v p) (hw : Returned (T.lay t) (s.log t) w p') :
    (p = p' ↔ (v == w) = true) ∧ (∃ x, deref (content s t) p = some x ∧ (x == v) = true) ∧
      ∃ y, deref (content s t) p' = some y ∧ (y == w) = true := by
  have := ok.eq t
  have := ok.hash t
  exact ⟨(h.now t).canonical (ok.lay t) (h.ops t) hv hw, (h.now t).deref (ok.lay t) (h.ops t) hv,
    (h.now t).deref (ok.lay t) (h.ops t) hw⟩

/-- **C25, end to end.** What a handle points to never changes. -/
theorem C25_end_to_end (ok : T.Ok) {s s' : State T.cfg} (h : Reach s) (st : Steps s s') (t : T.Ty) {v : T.V t} {p : Ptr}
    (hv : Returned (T.lay t) (s.log t) v p) :
    Returned (T.lay t) (s'.log t) v p ∧ deref (content s' t) p = deref (content s t) p := by
  have := ok.eq t
  have := ok.hash t
  have h' : Reach s' := by
    induction st with
    | refl => exact h
    | step _ ha hs ih => exact .step ih ha hs
  obtain ⟨newer, e⟩ := (st.inv h.inv).2 t
  have hv' : Returned (T.lay t) (s'.log t) v p := by
    obtain ⟨q, al, n, hl, hm⟩ := hv
    exact ⟨q, al, n, hl, by rw [e]; exact List.mem_append_right _ hm⟩
  exact ⟨hv', Now.deref_later (ok.lay t) (h.now t) (h.ops t) (h'.now t) (h'.ops t) e hv⟩

/-- **C26, end to end.** `num_objects_interned` returns the number of different values interned by the calls before it: it
counts every value for which a handle was returned, at most one value per equality class, and nothing but arguments of
calls. -/
theorem C26_end_to_end (ok : T.Ok) {s : State T.cfg} (h : Reach s) (t : T.Ty) {newer older : List (Entry (Table (T.V t)) Ret)}
    {n : Nat} {a : Ret} (e : s.log t = newer ++ ⟨(Op.len : Op (T.V t)).code (T.lay t), n, some a⟩ :: older) :
    ∃ vals : List (T.V t), a = .num vals.length ∧ vals.Pairwise (fun x y => (x == y) = false) ∧
      (∀ x ∈ vals, Called (T.lay t) older x) ∧ ∀ v p, Returned (T.lay t) older v p → ∃ x ∈ vals, (x == v) = true := by
  have := ok.eq t
  have := ok.hash t
  exact (h.now t).len (ok.lay t) (h.ops t) e

/-- **C27, end to end.** `is_interned` returns true if a handle for a matching value was returned before, and only if a call
was made to intern one. -/
theorem C27_end_to_end (ok : T.Ok) {s : State T.cfg} (h : Reach s) (t : T.Ty) {newer older : List (Entry (Table (T.V t)) Ret)}
    {q : Query (T.V t)} (hq : (Op.query q).Lawful) {n : Nat} {a : Ret}
    (e : s.log t = newer ++ ⟨(Op.query q).code (T.lay t), n, some a⟩ :: older) :
    ∃ b, a = .bool b ∧ (b = true → ∃ v, Called (T.lay t) older v ∧ q.eq v = true) ∧
      ∀ v p, Returned (T.lay t) older v p → q.eq v = true → b = true := by
  have := ok.eq t
  have := ok.hash t
  exact (h.now t).query (h.ops t) hq e

end Container

/-! ### `NewIntern`, through typearena.rs -/
namespace NewTables
open TypeArena
variable {T : Types}

/-- The set in use for type `t`. -/
def content (s : State T.cfg) (t : T.Ty) : Table (T.V t) :=
  match table s t with
  | some (_, c) => c.val
  | none => []

theorem Reach.now {s : State T.cfg} (h : Reach s) (t : T.Ty) : Now (T.lay t) (s.log t) (content s t) := by
  unfold content
  cases ht : table s t with
  | none =>
    simp only
    have := C46_history_none h.base ht
    exact ⟨[], by rw [this]; exact .nil, .inl rfl⟩
  | some x =>
    obtain ⟨pos, c⟩ := x
    simp only
    cases ho : c.owner with
    | none => exact ⟨_, C46_history h.base ht ho, .inl rfl⟩
    | some u =>
      obtain ⟨orig, n, k, hu⟩ := h.base.inv.own t pos c u (table_iff.mp ht) ho
      obtain ⟨d, c0, hd, _, _, hr, hs⟩ := h.base.inv.ins u t orig n k pos hu
      obtain ⟨_, rfl⟩ := hd.unique (table_iff.mp ht)
      have hI : T.IsOp t orig := h.inv.code u _ _ hu rfl
      obtain ⟨o, hl, rfl⟩ := hI
      exact ⟨c0, hr, .inr ⟨o, n, hl, by rw [hs]⟩⟩

/-- **C51, pointer equality is value equality**, for `NewIntern`, whichever threads race to create the table of the type. -/
theorem C51_pointer_eq_iff_value_eq (ok : T.Ok) {s : State T.cfg} (h : Reach s) (t : T.Ty) {v w : T.V t} {p p' : Ptr}
    (hv : Returned (T.lay t) (s.log t) v p) (hw : Returned (T.lay t) (s.log t) w p') :
    (p = p' ↔ (v == w) = true) ∧ (∃ x, deref (content s t) p = some x ∧ (x == v) = true) ∧
      ∃ y, deref (content s t) p' = some y ∧ (y == w) = true := by
  have := ok.eq t
  have := ok.hash t
  exact ⟨(h.now t).canonical (ok.lay t) (h.ops t) hv hw, (h.now t).deref (ok.lay t) (h.ops t) hv,
    (h.now t).deref (ok.lay t) (h.ops t) hw⟩

theorem Steps.reachable {s s' : State T.cfg} (st : Steps s s') (h : Reach s) : Reach s' := by
  induction st with
  | refl => exact h
  | step _ ha hs ih => exact .step ih ha hs

/-- **C51, for ever**: a handle keeps pointing to the same value, also after a panic has poisoned the type. -/
theorem C51_never_changes (ok : T.Ok) {s s' : State T.cfg} (h : Reach s) (st : Steps s s') (t : T.Ty) {v : T.V t} {p : Ptr}
    (hv : Returned (T.lay t) (s.log t) v p) :
    Returned (T.lay t) (s'.log t) v p ∧ deref (content s' t) p = deref (content s t) p := by
  have := ok.eq t
  have := ok.hash t
  have h' := st.reachable h
  obtain ⟨newer, e⟩ := (st.inv h.inv).2 t
  have hv' : Returned (T.lay t) (s'.log t) v p := by
    obtain ⟨q, al, n, hl, hm⟩ := hv
    exact ⟨q, al, n, hl, by rw [e]; exact List.mem_append_right _ hm⟩
  exact ⟨hv', Now.deref_later (ok.lay t) (h.now t) (h.ops t) (h'.now t) (h'.ops t) e hv⟩

/-- A panic is the last call of its type whose closure ran. -/
theorem panic_last {s : State T.cfg} (h : Reach s) (t : T.Ty) {newer older : List (Entry (Table (T.V t)) Ret)}
    {e : Entry (Table (T.V t)) Ret} (he : s.log t = newer ++ e :: older) : ∀ x ∈ older, x.res ≠ none := by
  have h' : Steps (TypeArena.init T.cfg) s := h
  clear h
  induction h' generalizing newer older e with
  | refl => cases newer <;> cases he
  | @step s1 s2 a st ha hs ih =>
    have r : Reach s1 := st
    rcases log_step hs with e1 | ⟨u, t', orig, n, k, pos, res, hu, e1⟩
    · rw [e1] at he; exact ih he
    · rw [e1] at he
      unfold State.setLog at he
      split at he
      · rename_i eq
        cases eq
        cases newer with
        | nil =>
          injection he with h1 h2
          intro x hx hn
          obtain ⟨c, _, hc, _, hp, _⟩ := r.base.inv.ins u t orig n k pos hu
          have := (r.base.inv.pois t pos c hc).mpr ⟨x, by simp only at h2; rw [h2]; exact hx, hn⟩
          rw [hp] at this
          cases this
        | cons b newer =>
          injection he with h1 h2
          exact ih h2
      · exact ih he

/-- **C52.** `NewIntern::num_objects_interned` returns exactly the number of different values for which handles were returned
before: `vals` has one element of each equality class of interned values and nothing else. -/
theorem C52_counts_distinct (ok : T.Ok) {s : State T.cfg} (h : Reach s) (t : T.Ty)
    {newer older : List (Entry (Table (T.V t)) Ret)} {n : Nat} {a : Ret}
    (e : s.log t = newer ++ ⟨(Op.len : Op (T.V t)).code (T.lay t), n, some a⟩ :: older) :
    ∃ vals : List (T.V t), a = .num vals.length ∧ vals.Pairwise (fun x y => (x == y) = false) ∧
      (∀ x ∈ vals, ∃ p, Returned (T.lay t) older x p) ∧ ∀ v p, Returned (T.lay t) older v p → ∃ x ∈ vals, (x == v) = true := by
  have := ok.eq t
  have := ok.hash t
  obtain ⟨vals, h1, h2, h3, h4⟩ := (h.now t).len (ok.lay t) (h.ops t) e
  refine ⟨vals, h1, h2, fun x hx => ?_, h4⟩
  obtain ⟨q, al, n, r, hl, hm⟩ := h3 x hx
  cases r with
  | none => exact absurd rfl (panic_last h t e _ hm)
  | some r =>
    obtain ⟨m0, hr, _⟩ := h.now t
    have hm' : ⟨(Op.intern q x al).code (T.lay t), n, some r⟩ ∈ s.log t := by
      rw [e]; exact List.mem_append_right _ (List.mem_cons_of_mem _ hm)
    obtain ⟨p, _, rfl, _⟩ := replay_handle hr (h.ops t) hl hm'
    exact ⟨p, q, al, n, hl, hm⟩

end NewTables

/-! Concrete executions: two types in the same shard; values are numbers with a tag that equality ignores, the value 0 is
zero-sized. -/
namespace Demo

structure Val where
  n : Nat
  tag : Nat
  deriving DecidableEq

instance : BEq Val := ⟨fun a b => a.n == b.n && (a.n != 0 || a.tag == b.tag)⟩
instance : Hashable Val := ⟨fun a => UInt64.ofNat a.n⟩

theorem beq_iff (a b : Val) : (a == b) = true ↔ a.n = b.n ∧ (a.n = 0 → a.tag = b.tag) := by
  show (a.n == b.n && (a.n != 0 || a.tag == b.tag)) = true ↔ _
  by_cases h : a.n = 0 <;> simp [h]

abbrev types : Types where
  Ty := Bool
  V _ := Val
  lay _ := { zst := fun v => v.n == 0, info := fun v => if v.n = 0 then v.tag + 1 else 0, dangle := fun _ => 8 }
  writes _ := [.u64 37]
  w := 64

theorem types_ok : types.Ok where
  eq t := {
    rfl := fun {a} => (beq_iff a a).mpr ⟨rfl, fun _ => rfl⟩
    symm := fun {a b} h => by
      have h := (beq_iff a b).mp h
      exact (beq_iff b a).mpr ⟨h.1.symm, fun e => (h.2 (h.1.trans e)).symm⟩
    trans := fun {a b c} h h' => by
      have h := (beq_iff a b).mp h
      have h' := (beq_iff b c).mp h'
      exact (beq_iff a c).mpr ⟨h.1.trans h'.1, fun e => (h.2 e).trans (h'.2 (h.1.symm.trans e))⟩ }
  hash t := { hash_eq := fun a b h => by
                have h := (beq_iff a b).mp h
                show UInt64.ofNat a.n = UInt64.ofNat b.n
                rw [h.1] }
  lay t := {
    size := fun v w h => by
      show (v.n == 0) = (w.n == 0)
      have h : (if v.n = 0 then v.tag + 1 else 0) = if w.n = 0 then w.tag + 1 else 0 := h
      by_cases h1 : v.n = 0 <;> by_cases h2 : w.n = 0 <;> simp only [h1, h2, if_true, if_false] at h ⊢
      · cases h
      · cases h
      · rw [beq_eq_false_iff_ne.mpr h1, beq_eq_false_iff_ne.mpr h2]
    unique := fun v w hv hw h => by
      have hv : (v.n == 0) = true := hv
      have hw : (w.n == 0) = true := hw
      have h : (if v.n = 0 then v.tag + 1 else 0) = if w.n = 0 then w.tag + 1 else 0 := h
      simp only [beq_iff_eq] at hv hw
      rw [if_pos hv, if_pos hw] at h
      cases v; cases w
      simp only at hv hw h
      rw [hv, hw]
      congr 1
      omega }

/-- An allocator: one more than all addresses in use. -/
def al (l : List Nat) : Nat := l.sum + 1000

theorem al_ok (l : List Nat) : al l ∉ l := by
  intro h
  have : ∀ (l : List Nat) (x : Nat), x ∈ l → x ≤ l.sum := by
    intro l
    induction l with
    | nil => intro x h; cases h
    | cons a l ih =>
      intro x h
      rw [List.sum_cons]
      rcases List.mem_cons.mp h with rfl | h
      · omega
      · have := ih x h; omega
  have := this l _ h
  unfold al at this
  omega

abbrev new (v : Val) : Op Val := .intern (.ofVal v) v al

theorem new_ok (v : Val) : (new v).Lawful := ⟨rfl, fun _ => rfl, al_ok⟩

abbrev code (t : types.Ty) (o : Op Val) : Code (Table Val) Ret := o.code (types.lay t)

namespace I
open TypeMap

/-- A script: call a function, run a thread, panic. -/
inductive Cmd where
  | spawn
  | new (u : Tid) (t : Bool) (v : Val)
  | len (u : Tid) (t : Bool)
  | run (u : Tid)
  | panic (u : Tid)

def Cmd.act : Cmd → Act types.cfg
  | .spawn => .spawn
  | .new u t v => .call u t (code t (Demo.new v))
  | .len u t => .call u t (code t .len)
  | .run u => .run u
  | .panic u => .panic u

theorem Cmd.ok (c : Cmd) : Container.Allowed c.act := by
  cases c with
  | new u t v => exact ⟨_, new_ok v, rfl⟩
  | len u t => exact ⟨.len, trivial, rfl⟩
  | _ => trivial

def exec (s : State types.cfg) : List Cmd → Option (State types.cfg)
  | [] => some s
  | c :: l => match step s c.act with
    | .ok s' => exec s' l
    | _ => none

theorem exec_steps {s0 s s' : State types.cfg} {l : List Cmd} (h : exec s l = some s') (r : Container.Steps s0 s) : Container.Steps s0 s' := by
  induction l generalizing s with
  | nil => cases h; exact r
  | cons c l ih =>
    simp only [exec] at h
    cases hs : step s c.act with
    | ok s1 => rw [hs] at h; exact ih h (r.step c.ok hs)
    | blocked => rw [hs] at h; cases h
    | bug => rw [hs] at h; cases h

/-- Thread 0 interns 5 and 0, thread 1 panics while interning 6, interns 5 with another tag and 7, asks for the number. -/
def script : List Cmd :=
  [.spawn, .spawn, .new 0 true ⟨5, 1⟩, .new 1 false ⟨9, 0⟩, .run 0, .run 0, .run 0, .run 0, .run 0, .run 1, .run 1, .panic 1,
   .new 1 true ⟨6, 0⟩, .run 1, .run 1, .panic 1, .new 0 true ⟨0, 3⟩, .new 1 true ⟨5, 2⟩, .run 1, .run 1, .run 1, .run 1,
   .run 0, .run 0, .run 0, .run 0, .run 0, .new 1 true ⟨7, 0⟩, .run 1, .run 1, .run 1, .run 1, .run 1,
   .len 0 true, .run 0, .run 0, .run 0, .new 0 false ⟨5, 5⟩, .run 0]

example : ∃ s : State types.cfg, Container.Reach s ∧
    Returned (types.lay true) (s.log true) (⟨5, 1⟩ : Val) ⟨1000, 0⟩ ∧
    Returned (types.lay true) (s.log true) (⟨5, 2⟩ : Val) ⟨1000, 0⟩ ∧
    Returned (types.lay true) (s.log true) (⟨7, 0⟩ : Val) ⟨2000, 0⟩ ∧
    Returned (types.lay true) (s.log true) (⟨0, 3⟩ : Val) ⟨8, 4⟩ ∧
    (∃ older, s.log true = [] ++ ⟨(Op.len : Op Val).code (types.lay true), 1, some (.num 3)⟩ :: older) :=
  ⟨_, exec_steps (l := script) rfl .refl,
    ⟨_, _, _, new_ok _, List.mem_of_getElem? (i := 5) rfl⟩, ⟨_, _, _, new_ok _, List.mem_of_getElem? (i := 3) rfl⟩,
    ⟨_, _, _, new_ok _, List.mem_of_getElem? (i := 1) rfl⟩, ⟨_, _, _, new_ok _, List.mem_of_getElem? (i := 2) rfl⟩, ⟨_, rfl⟩⟩

end I

namespace N
open TypeArena

inductive Cmd where
  | spawn
  | new (u : Tid) (t : Bool) (v : Val)
  | len (u : Tid) (t : Bool)
  | run (u : Tid) (n : Nat)
  | panic (u : Tid)

def Cmd.act : Cmd → Act types.cfg
  | .spawn => .spawn
  | .new u t v => .call u t (code t (Demo.new v))
  | .len u t => .call u t (code t .len)
  | .run u n => .run u n
  | .panic u => .panic u

theorem Cmd.ok (c : Cmd) : NewTables.Allowed c.act := by
  cases c with
  | new u t v => exact ⟨_, new_ok v, rfl⟩
  | len u t => exact ⟨.len, trivial, rfl⟩
  | _ => trivial

def exec (s : State types.cfg) : List Cmd → Option (State types.cfg)
  | [] => some s
  | c :: l => match step s c.act with
    | .ok s' => exec s' l
    | _ => none

theorem exec_steps {s0 s s' : State types.cfg} {l : List Cmd} (h : exec s l = some s') (r : NewTables.Steps s0 s) : NewTables.Steps s0 s' := by
  induction l generalizing s with
  | nil => cases h; exact r
  | cons c l ih =>
    simp only [exec] at h
    cases hs : step s c.act with
    | ok s1 => rw [hs] at h; exact ih h (r.step c.ok hs)
    | blocked => rw [hs] at h; cases h
    | bug => rw [hs] at h; cases h

/-- Both threads push a table; thread 1 searches with a stale length; both use the first table. Then thread 1 panics inside
its closure and thread 0 waits for the poisoned mutex. -/
def script : List Cmd :=
  [.spawn, .spawn, .new 0 true ⟨5, 1⟩, .new 1 true ⟨5, 2⟩, .run 0 0, .run 1 0, .run 1 0, .run 0 0, .run 1 1, .run 0 2,
   .run 0 0, .run 0 0, .run 0 0, .run 0 0, .run 0 0, .run 1 0, .run 1 0, .run 1 0, .run 1 0,
   .new 1 true ⟨7, 0⟩, .run 1 2, .run 1 0, .run 1 0, .run 1 0, .run 1 0, .run 1 0, .len 0 true, .run 0 2, .run 0 0, .run 0 0,
   .run 0 0, .new 1 true ⟨8, 0⟩, .run 1 2, .new 0 true ⟨5, 3⟩, .run 0 2, .run 1 0, .run 1 0, .panic 1]

example : ∃ s : State types.cfg, NewTables.Reach s ∧
    Returned (types.lay true) (s.log true) (⟨5, 1⟩ : Val) ⟨1000, 0⟩ ∧
    Returned (types.lay true) (s.log true) (⟨5, 2⟩ : Val) ⟨1000, 0⟩ ∧
    Returned (types.lay true) (s.log true) (⟨7, 0⟩ : Val) ⟨2000, 0⟩ ∧
    (∃ e older, s.log true = [e] ++ ⟨(Op.len : Op Val).code (types.lay true), 1, some (.num 2)⟩ :: older) ∧
    s.vecs[types.cfg.shard true]?.map (·.length) = some 2 :=
  ⟨_, exec_steps (l := script) rfl .refl,
    ⟨_, _, _, new_ok _, List.mem_of_getElem? (i := 4) rfl⟩, ⟨_, _, _, new_ok _, List.mem_of_getElem? (i := 3) rfl⟩,
    ⟨_, _, _, new_ok _, List.mem_of_getElem? (i := 2) rfl⟩, ⟨_, _, rfl⟩, rfl⟩

end N
end Demo
end Closures
