import Verif.Pool.Order
/-! A concrete family of pools used in the non-vacuity examples: pools 0 and 1 are `Intern` pools whose types fall into
the same shard, pools 2 and 3 are arenas. Values are (class, tag): equality and hash look at the class only, so that
different values can be equal. The class 0 is zero-sized. -/
namespace Pool.Demo

structure Val where
  cls : Nat
  tag : Nat
  deriving DecidableEq, Repr

instance : BEq Val := ⟨fun a b => a.cls == b.cls⟩
instance : Hashable Val := ⟨fun a => UInt64.ofNat (a.cls % 3)⟩
instance : EquivBEq Val where
  rfl := by intro a; show (a.cls == a.cls) = true; simp
  symm := by
    intro a b h
    have h : (a.cls == b.cls) = true := h
    show (b.cls == a.cls) = true
    simp at h ⊢; exact h.symm
  trans := by
    intro a b c h1 h2
    have h1 : (a.cls == b.cls) = true := h1
    have h2 : (b.cls == c.cls) = true := h2
    show (a.cls == c.cls) = true
    simp at h1 h2 ⊢; exact h1.trans h2
instance : LawfulHashable Val where
  hash_eq := by
    intro a b h
    have h : (a.cls == b.cls) = true := h
    simp at h
    show UInt64.ofNat (a.cls % 3) = UInt64.ofNat (b.cls % 3)
    rw [h]

def cfg : Cfg Nat Val where
  lockOf k := if k < 2 then 7 else 100 + k
  owns k := decide (2 ≤ k)
  zst _ v := decide (v = ⟨0, 0⟩)
  info _ v := if v = ⟨0, 0⟩ then 1 else 0
  dangle _ _ := 8

theorem layout : cfg.Layout where
  size k v w h := by
    simp only [cfg] at h ⊢
    by_cases h1 : v = ⟨0, 0⟩ <;> by_cases h2 : w = ⟨0, 0⟩ <;> simp_all
  unique k v w h1 h2 _ := by
    simp only [cfg, decide_eq_true_eq] at h1 h2
    rw [h1, h2]

/-- Scripts of lawful actions. -/
inductive Cmd where
  | spawn
  | new (t : Tid) (k : Nat) (v : Val)
  | query (t : Tid) (k : Nat) (v : Val)
  | len (t : Tid) (k : Nat)
  | run (t : Tid) (a : Nat)
  | panic (t : Tid)
  | dropArena (k : Nat)

def Cmd.act : Cmd → Act Nat Val
  | .spawn => .spawn
  | .new t k v => .call t (.intern k (.ofVal v) v)
  | .query t k v => .call t (.query k (.ofVal v))
  | .len t k => .call t (.len k)
  | .run t a => .run t a
  | .panic t => .panic t
  | .dropArena k => .dropArena k

theorem lawful (l : List Cmd) : ∀ a ∈ l.map Cmd.act, a.Lawful := by
  intro a ha
  obtain ⟨c, _, rfl⟩ := List.mem_map.mp ha
  cases c with
  | new t k v => exact lawful_new k v
  | query t k v => exact ⟨fun x h => LawfulHashable.hash_eq _ _ h, fun _ _ h => BEq.congr_left h⟩
  | _ => exact True.intro

/-- A whole uncontended call that misses / hits. -/
def miss (t : Tid) (k : Nat) (v : Val) (a : Nat) : List Cmd := .new t k v :: List.replicate 5 (.run t a)
def hit (t : Tid) (k : Nat) (v : Val) : List Cmd := .new t k v :: List.replicate 4 (.run t 0)

/-- Two threads intern equal values of pool 0 concurrently, then other, also zero-sized, values are interned in both
pools, one call panics while building, queries and counts are made, and the arenas 2 and 3 are used. -/
def script : List Cmd :=
  [.spawn, .spawn, .new 0 0 ⟨5, 1⟩, .new 1 0 ⟨5, 2⟩,
   .run 1 0, .run 1 0, .run 1 1000, .run 1 0, .run 1 0, .run 0 0, .run 0 0, .run 0 0, .run 0 0] ++
  miss 0 0 ⟨8, 0⟩ 2000 ++ miss 1 0 ⟨0, 0⟩ 0 ++ miss 1 1 ⟨0, 0⟩ 0 ++ hit 1 0 ⟨0, 0⟩ ++
  [.new 0 0 ⟨9, 0⟩, .run 0 0, .run 0 0, .panic 0,
   .query 1 0 ⟨8, 9⟩, .run 1 0, .run 1 0, .run 1 0,
   .query 1 0 ⟨9, 0⟩, .run 1 0, .run 1 0, .run 1 0,
   .len 1 0, .run 1 0, .run 1 0, .run 1 0] ++
  miss 0 2 ⟨5, 3⟩ 3000 ++ miss 0 3 ⟨5, 4⟩ 4000 ++ hit 1 2 ⟨5, 5⟩ ++
  miss 1 2 ⟨6, 0⟩ 5000 ++ miss 1 2 ⟨0, 0⟩ 0 ++ miss 1 3 ⟨0, 0⟩ 0

/-- Reachability of a scripted state satisfying a computable condition. -/
theorem scripted (l : List Cmd) (f : State Nat Val → Bool) (h : ((exec cfg init (l.map Cmd.act)).get?.map f) = some true) :
    ∃ s, Reach cfg s ∧ f s = true := by
  obtain ⟨s, h, c⟩ := exec_check f h
  exact ⟨s, exec_reach (lawful l) h, c⟩

/-- The results of the calls that returned, oldest first. -/
def results (s : State Nat Val) : List (Nat × Ret) := s.done.reverse.map fun e => (e.op.pool, e.ret)

def expected : List (Nat × Ret) :=
  [(0, .ptr ⟨1000, 0⟩), (0, .ptr ⟨1000, 0⟩), (0, .ptr ⟨2000, 0⟩), (0, .ptr ⟨8, 1⟩), (1, .ptr ⟨8, 1⟩), (0, .ptr ⟨8, 1⟩),
   (0, .bool true), (0, .bool false), (0, .num 3), (2, .ptr ⟨3000, 0⟩), (3, .ptr ⟨4000, 0⟩), (2, .ptr ⟨3000, 0⟩),
   (2, .ptr ⟨5000, 0⟩), (2, .ptr ⟨8, 1⟩), (3, .ptr ⟨8, 1⟩)]

theorem reach : ∃ s, Reach cfg s ∧ results s = expected := by
  obtain ⟨s, h, c⟩ := scripted script (fun s => decide (results s = expected)) (by decide)
  exact ⟨s, h, by simpa using c⟩

end Pool.Demo
