import Verif.Props.ArcSafety
/-!
C15: hash-consing. Interned nodes that contain `ArcIntern` children.
-/
namespace Arc

/-- A node type with a label and `ArcIntern` children, with the derived `PartialEq`: labels are compared
by value, children by `ArcIntern`'s own `==`, i.e. by address (arc.rs:390-395). Its `Hash` may be any function
that agrees with `==`. -/
structure Node (L : Type) where
  label : L
  kids : List Addr

instance {L : Type} [BEq L] : BEq (Node L) :=
  ⟨fun a b => a.label == b.label && a.kids == b.kids⟩

theorem Node.beq_iff {L : Type} [BEq L] [LawfulBEq L] (a b : Node L) :
    (a == b) = true ↔ a.label = b.label ∧ a.kids = b.kids := by
  show (a.label == b.label && a.kids == b.kids) = true ↔ _
  simp

instance {L : Type} [BEq L] [LawfulBEq L] : EquivBEq (Node L) where
  rfl := by intro a; rw [Node.beq_iff]; exact ⟨rfl, rfl⟩
  symm := by intro a b h; rw [Node.beq_iff] at *; exact ⟨h.1.symm, h.2.symm⟩
  trans := by intro a b c h1 h2; rw [Node.beq_iff] at *; exact ⟨h1.1.trans h2.1, h1.2.trans h2.2⟩
/-- Ordinary finitely branching trees. -/
inductive Tree (L : Type) where
  | node (label : L) (kids : List (Tree L))

mutual
/-- `Unfolds s p t`: the handle `p` represents the tree `t` in state `s`. -/
inductive Unfolds {L : Type} (s : State (Node L)) : Addr → Tree L → Prop
  | node {p : Addr} {l : L} {ks : List Addr} {ts : List (Tree L)} :
      deref s p = some ⟨l, ks⟩ → UnfoldsAll s ks ts → Unfolds s p (.node l ts)
/-- The same for lists of handles, position by position. -/
inductive UnfoldsAll {L : Type} (s : State (Node L)) : List Addr → List (Tree L) → Prop
  | nil : UnfoldsAll s [] []
  | cons {k : Addr} {ks : List Addr} {t : Tree L} {ts : List (Tree L)} :
      Unfolds s k t → UnfoldsAll s ks ts → UnfoldsAll s (k :: ks) (t :: ts)
end

variable {L : Type}

mutual
/-- A handle represents at most one tree. -/
theorem unfolds_fun {s : State (Node L)} {p : Addr} :
    ∀ {t1 t2 : Tree L}, Unfolds s p t1 → Unfolds s p t2 → t1 = t2
  | .node l ts, _, .node h1 a1, .node h2 a2 => by
    rw [h1] at h2; cases h2
    rw [unfoldsAll_fun a1 a2]
theorem unfoldsAll_fun {s : State (Node L)} : ∀ {ks : List Addr} {ts1 ts2 : List (Tree L)},
    UnfoldsAll s ks ts1 → UnfoldsAll s ks ts2 → ts1 = ts2
  | _, [], _, .nil, .nil => rfl
  | _, t :: ts, _, .cons u1 a1, .cons u2 a2 => by
    rw [unfolds_fun u1 u2, unfoldsAll_fun a1 a2]
end

variable [BEq L] [LawfulBEq L] [Hashable (Node L)]

mutual
theorem unfolds_inj {cfg : Cfg (Node L)} (hk : ∀ n, cfg.kids n = n.kids) {s : State (Node L)} (hI : Inv cfg s) :
    ∀ {t : Tree L} {p q : Addr}, p ∈ allHandles cfg s → q ∈ allHandles cfg s → Unfolds s p t → Unfolds s q t → p = q
  | .node l ts, p, q, hp, hq, .node h1 a1, .node h2 a2 => by
    obtain ⟨cx, g1, e1⟩ := deref_get h1
    obtain ⟨cy, g2, e2⟩ := deref_get h2
    have kid : ∀ {r : Addr} {c : Cell (Node L)} {ks : List Addr}, get s.heap r = some c → c.data = ⟨l, ks⟩ →
        ∀ k ∈ ks, k ∈ allHandles cfg s := by
      intro r c ks hg he k hkk
      exact List.count_pos_iff.mp (stored_A (cfg := cfg) hg (by rw [hk, he]; exact hkk))
    have := unfoldsAll_inj hk hI (kid g1 e1) (kid g2 e2) a1 a2
    subst this
    exact hI.uniq p q cx cy (hI.in_table hp) (hI.in_table hq) g1 g2 (by rw [e1, e2]; exact BEq.rfl)
theorem unfoldsAll_inj {cfg : Cfg (Node L)} (hk : ∀ n, cfg.kids n = n.kids) {s : State (Node L)} (hI : Inv cfg s) :
    ∀ {ts : List (Tree L)} {ps qs : List Addr}, (∀ p ∈ ps, p ∈ allHandles cfg s) → (∀ q ∈ qs, q ∈ allHandles cfg s) →
      UnfoldsAll s ps ts → UnfoldsAll s qs ts → ps = qs
  | [], _, _, _, _, .nil, .nil => rfl
  | t :: ts, _, _, hp, hq, .cons u1 a1, .cons u2 a2 => by
    rw [unfolds_inj hk hI (hp _ (by simp)) (hq _ (by simp)) u1 u2,
      unfoldsAll_inj hk hI (fun p h => hp p (by simp [h])) (fun q h => hq q (by simp [h])) a1 a2]
end

omit [BEq L] [LawfulBEq L] [Hashable (Node L)] in
theorem unfoldsAll_exists {s : State (Node L)} : ∀ (ks : List Addr), (∀ k ∈ ks, ∃ t, Unfolds s k t) → ∃ ts, UnfoldsAll s ks ts
  | [], _ => ⟨[], .nil⟩
  | k :: ks, h => by
    obtain ⟨t, ht⟩ := h k (by simp)
    obtain ⟨ts, hts⟩ := unfoldsAll_exists ks (fun q hq => h q (by simp [hq]))
    exact ⟨t :: ts, .cons ht hts⟩

omit [LawfulBEq L] in
/-- Every allocated node represents a (finite) tree: a node is always newer than its children. -/
theorem unfolds_exists {cfg : Cfg (Node L)} (hk : ∀ n, cfg.kids n = n.kids) {s : State (Node L)} (hI : Inv cfg s) :
    ∀ (l2 l1 : List (Addr × Cell (Node L))), s.heap = l1 ++ l2 → ∀ e ∈ l2, ∃ t, Unfolds s e.1 t := by
  intro l2
  induction l2 with
  | nil => intro l1 _ e he; simp at he
  | cons z l2 ih =>
    intro l1 hh e he
    have hh' : s.heap = (l1 ++ [z]) ++ l2 := by rw [hh]; simp
    rcases List.mem_cons.mp he with rfl | he
    · have hin : e ∈ s.heap := by rw [hh]; simp
      have hg : get s.heap e.1 = some e.2 := get_of_mem_nodup hin hI.nd
      obtain ⟨ts, hts⟩ := unfoldsAll_exists (s := s) e.2.data.kids (by
        intro k hkk
        have hA := stored_A (cfg := cfg) hg (by rw [hk]; exact hkk)
        have hT : k ∈ s.table := List.count_pos_iff.mp (hI.live k hA)
        obtain ⟨c, hc⟩ := exists_get (hI.mem_keys hT)
        have hm := mem_of_get hc
        have hord := hI.ord
        rw [hh, List.pairwise_append] at hord
        rw [hh] at hm
        have hkk' : k ∈ cfg.kids e.2.data := by rw [hk]; exact hkk
        rcases List.mem_append.mp hm with hm | hm
        · exact absurd hkk' (hord.2.2 _ hm e (by simp))
        · rcases List.mem_cons.mp hm with hm | hm
          · exact absurd hkk' (by have := hI.self e hin; rw [← hm] at this ⊢; exact this)
          · exact ih (l1 ++ [e]) hh' _ hm)
      exact ⟨.node e.2.data.label ts, .node (by simp [deref, hg]) hts⟩
    · exact ih (l1 ++ [z]) hh' e he

variable [LawfulHashable (Node L)]

/-- C15. Every existing handle to a node represents exactly one tree, and two existing handles are `==` exactly
when they represent the same tree. -/
theorem C15_hash_consing {cfg : Cfg (Node L)} (hv : cfg.Valid) (hk : ∀ n, cfg.kids n = n.kids)
    {s : State (Node L)} (h : Reach cfg s) {a b : Addr} (ha : a ∈ allHandles cfg s) (hb : b ∈ allHandles cfg s) :
    ∃ ta tb : Tree L, (∀ t, Unfolds s a t ↔ t = ta) ∧ (∀ t, Unfolds s b t ↔ t = tb) ∧
      (handleEq a b = true ↔ ta = tb) := by
  have hI := reach_inv hv h
  have ex : ∀ p, p ∈ allHandles cfg s → ∃ t, Unfolds s p t := by
    intro p hp
    obtain ⟨c, hc⟩ := exists_get (hI.mem_keys (hI.in_table hp))
    exact unfolds_exists hk hI s.heap [] rfl _ (mem_of_get hc)
  obtain ⟨ta, hta⟩ := ex a ha
  obtain ⟨tb, htb⟩ := ex b hb
  refine ⟨ta, tb, fun t => ⟨fun h => unfolds_fun h hta, fun h => h ▸ hta⟩,
    fun t => ⟨fun h => unfolds_fun h htb, fun h => h ▸ htb⟩, ?_⟩
  simp only [handleEq, beq_iff_eq]
  constructor
  · rintro rfl; exact unfolds_fun hta htb
  · rintro rfl; exact unfolds_inj hk hI ha hb hta htb

/-! Example: `f(leaf, leaf)` built twice, on two threads. -/
instance : Hashable (Node Nat) := ⟨fun a => UInt64.ofNat a.label⟩
instance : LawfulHashable (Node Nat) where
  hash_eq := by
    intro a b h; rw [Node.beq_iff] at h
    show UInt64.ofNat a.label = UInt64.ofNat b.label
    rw [h.1]

def nodeCfg : Cfg (Node Nat) := { kids := Node.kids, shards := 2, pick := fun h => h.toNat % 2, W := 2 ^ 64 }
theorem nodeCfg_valid : nodeCfg.Valid where
  pick_lt := fun h => Nat.mod_lt _ (by decide)
  W_ge := by decide

def treeTrace : List (Act (Node Nat)) :=
  [.spawn, .spawn, .new 0 ⟨1, []⟩ false, .run 0 0, .run 0 10, .run 0 0, .run 0 0, .run 0 0, .run 0 0,
   .clone 0 [10], .clone 1 [10], .clone 1 [10],
   .new 0 ⟨2, [10, 10]⟩ false, .run 0 0, .run 0 20, .run 0 0, .run 0 0, .run 0 0, .run 0 0,
   .new 1 ⟨2, [10, 10]⟩ false, .run 1 0, .run 1 0, .run 1 0, .run 1 0, .run 1 0, .run 1 0, .run 1 0, .run 1 0]
example : ∃ s : State (Node Nat), Reach nodeCfg s ∧ s.handles = [20, 20] ∧
    Unfolds s 20 (.node 2 [.node 1 [], .node 1 []]) := by
  refine ⟨(checked Act.sane nodeCfg init treeTrace).getD init, ?_, by decide, ?_⟩
  · have h : (checked Act.sane nodeCfg init treeTrace).isSome = true := by decide
    obtain ⟨s, hs⟩ := Option.isSome_iff_exists.mp h
    rw [hs]; exact checked_reach _ .init hs
  · have leaf : Unfolds ((checked Act.sane nodeCfg init treeTrace).getD init) 10 (.node 1 []) := .node (ks := []) rfl .nil
    exact .node (ks := [10, 10]) rfl (.cons leaf (.cons leaf .nil))

end Arc
