import Verif.Props.ArcTree
import Verif.Src.ArcHeldInv
/-
Nodes with `ArcIntern` children (C15), for the functions as they are written: handles represent trees, also while calls that were given some
of them are running. Used in the proofs of C93.
-/
namespace Src

/-- Panicking goes on until the end of the outermost function. -/
theorem Lang.run_panicking (L : Lang) {m m' : L.Mem} {t : Arc.Tid} {a : Nat} {fs fs' : L.Stack} {r : Option L.Val}
    (h : L.run m t a fs = .ok (m', fs', r)) (hne : fs' ≠ []) (hp : fs.any (·.panicking) = true) : fs'.any (·.panicking) = true := by
  have stmt : ∀ {f f' : L.TFrame} {r : List L.TItem} {s : Stmt L.Var L.Op} {m' : L.Mem}, L.stmt m t a f r s = .ok (m', f') →
      f'.panicking = f.panicking := by
    intro f f' r s m' h
    cases s <;> simp only [Lang.stmt] at h <;> (try split at h) <;> cases h <;> rfl
  cases fs with
  | nil => cases h
  | cons f fs =>
    simp only [Lang.run] at h
    rw [List.any_cons, Bool.or_eq_true] at hp
    split at h
    · split at h
      · cases h; exact absurd rfl hne
      · cases h
        simp only [List.any_cons, Bool.or_eq_true] at hp ⊢
        rcases hp with hp | hp | hp
        · exact .inl (.inr hp)
        · exact .inl (.inl hp)
        · exact .inr hp
    · split at h
      · cases h
        rw [List.any_append, List.any_cons, Bool.or_eq_true, Bool.or_eq_true]
        exact .inr hp
      · cases h
      · cases h
    · split at h
      · cases h
        rw [List.any_cons, Bool.or_eq_true]; exact hp
      · cases h
    · split at h <;> cases h <;> (rw [List.any_cons, Bool.or_eq_true]; exact hp)
    · split at h
      · cases h
        rw [List.any_cons, Bool.or_eq_true]; exact hp
      · split at h
        · rename_i hs
          cases h
          rw [List.any_cons, Bool.or_eq_true, stmt hs]; exact hp
        · cases h
        · cases h

end Src

namespace Src.ArcNest
open Arc (Addr Tid Cell Cfg Res Thread Pc Node Tree Unfolds UnfoldsAll)
open Src.ArcCode (Var Val Op Glue Mem Stack lang Rel Winds)

/-! ### Trees in two states that agree -/

section
variable {L : Type}

mutual
theorem unfolds_mono {s s' : Arc.State (Node L)} (hd : ∀ p x, Arc.deref s p = some x → Arc.deref s' p = some x) {p : Addr} :
    ∀ {t : Tree L}, Unfolds s p t → Unfolds s' p t
  | .node _ _, .node h a => .node (hd _ _ h) (unfoldsAll_mono hd a)
theorem unfoldsAll_mono {s s' : Arc.State (Node L)} (hd : ∀ p x, Arc.deref s p = some x → Arc.deref s' p = some x) :
    ∀ {ps : List Addr} {ts : List (Tree L)}, UnfoldsAll s ps ts → UnfoldsAll s' ps ts
  | _, [], .nil => .nil
  | _, _ :: _, .cons u a => .cons (unfolds_mono hd u) (unfoldsAll_mono hd a)
end

mutual
/-- If nodes that exist in both states are the same in both, so are trees. -/
theorem unfolds_agree {s s' : Arc.State (Node L)} (hd : ∀ p x y, Arc.deref s p = some x → Arc.deref s' p = some y → y = x) {p : Addr} :
    ∀ {t t' : Tree L}, Unfolds s p t → Unfolds s' p t' → t = t'
  | .node l ts, _, .node h1 a1, .node h2 a2 => by
    have := hd _ _ _ h1 h2
    cases this
    rw [unfoldsAll_agree hd a1 a2]
theorem unfoldsAll_agree {s s' : Arc.State (Node L)} (hd : ∀ p x y, Arc.deref s p = some x → Arc.deref s' p = some y → y = x) :
    ∀ {ps : List Addr} {ts ts' : List (Tree L)}, UnfoldsAll s ps ts → UnfoldsAll s' ps ts' → ts = ts'
  | _, [], _, .nil, .nil => rfl
  | _, t :: ts, _, .cons u1 a1, .cons u2 a2 => by
    rw [unfolds_agree hd u1 u2, unfoldsAll_agree hd a1 a2]
end

theorem unfoldsAll_of {s : Arc.State (Node L)} : ∀ {ps : List Addr} {ts : List (Tree L)}, UnfoldsAll s ps ts → ∀ {p : Addr}, p ∈ ps →
    ∃ t, Unfolds s p t
  | _, _, .cons u a, p, h => by
    rcases List.mem_cons.mp h with rfl | h
    · exact ⟨_, u⟩
    · exact unfoldsAll_of a h

end

/-! ### The argument of a running call -/

section
variable {V : Type} [BEq V] [Hashable V] {cfg : Cfg V}

/-- Functions other than `new` and `drop`. -/
def scanning : Pc V → Bool
  | .lenScan .. | .lenDone .. | .shrinkScan .. => true
  | _ => false

omit [BEq V] [Hashable V] in
/-- They do not run. -/
theorem rel_pc {fs : Stack V} {th : Thread V} (h : Rel cfg fs th) : scanning th.pc = false := by
  cases h with
  | leave => rfl
  | destroy => rfl
  | unlock => rfl
  | drop h =>
    cases h <;> try rfl
    simp only
    split <;> rfl
  | new h =>
    cases h <;> try rfl
    all_goals (simp only; split <;> rfl)

omit [BEq V] [Hashable V] in
theorem stored {s : Arc.State V} {b k : Addr} {x : Cell V} (hx : Arc.get s.heap b = some x) (hk : k ∈ cfg.kids x.data) : k ∈ Arc.allHandles cfg s :=
  List.count_pos_iff.mp (Arc.stored_A hx hk)

omit [BEq V] [Hashable V] in
theorem owned_all {s : Arc.State V} {j : Nat} {th : Thread V} (ht : s.threads[j]? = some th) {k : Addr} (hk : k ∈ th.pc.owned cfg) :
    k ∈ Arc.allHandles cfg s := by
  simp only [Arc.allHandles, List.mem_append, List.mem_flatMap]
  exact .inl (.inr ⟨th, List.mem_of_getElem? ht, by simp only [Arc.Thread.owned, List.mem_append]; exact .inl (.inl hk)⟩)

/-- The handles in the argument of a call of `new` exist until it ends, unless it panics: in the argument, in a box, or in the value that was
found. -/
theorem Good.arg_alive (hkid : ∀ x y : V, (x == y) = true → cfg.kids x = cfg.kids y) {N : State V} {l : List (Mark V)} {S : ArcCode.State V}
    {s : Arc.State V} (h : Good cfg N l S s) {cs : List (Running V)} (hcs : cs ∈ N.threads) {c : Running V} (hc : c ∈ cs) {v : V} {dst : Bool}
    (hv : c.call = .new v dst) (hp : c.stack.any (·.panicking) = false) : ∀ k ∈ cfg.kids v, k ∈ Arc.allHandles cfg s := by
  obtain ⟨th, ht, htr⟩ := h.run cs hcs c hc
  have hi := h.inv.th c.id th ht
  have hrel := rel_pc (h.sim.th c.id c.stack th (h.flat.run cs hcs c hc).1 ht)
  simp only [Tracks, hv] at htr
  obtain ⟨harg, htr⟩ := htr
  have same : ∀ {w : V}, th.arg = some w → w = v := by
    intro w hw
    rcases harg with h | h <;> rw [hw] at h <;> cases h; rfl
  have found : ∀ {b : Addr} {w : V}, Arc.matches' s b w → th.arg = some w → ∀ k ∈ cfg.kids v, k ∈ Arc.allHandles cfg s := by
    intro b w ⟨_, x, hx, hxw⟩ hw k hk
    rw [← same hw, ← hkid _ _ hxw] at hk
    exact stored hx hk
  have own : ∀ {w : V}, th.arg = some w → (∀ k ∈ cfg.kids w, k ∈ th.pc.owned cfg) → ∀ k ∈ cfg.kids v, k ∈ Arc.allHandles cfg s := by
    intro w hw ho k hk
    rw [← same hw] at hk
    exact owned_all ht (ho k hk)
  have box : ∀ {b : Addr} {w : V}, Arc.get s.heap b = some ⟨1, w⟩ → th.arg = some w → ∀ k ∈ cfg.kids v, k ∈ Arc.allHandles cfg s := by
    intro b w hb hw k hk
    rw [← same hw] at hk
    exact stored hb hk
  have hpc := hi.pc
  have ret : ∀ {b}, th.ret = some b → ∀ k ∈ cfg.kids v, k ∈ Arc.allHandles cfg s := by
    intro b hb
    obtain ⟨w, h1, h2⟩ := hi.ret b hb
    exact found h2 h1
  have calm : th.pc.dropping = true → ∀ k ∈ cfg.kids v, k ∈ Arc.allHandles cfg s := by
    intro hd
    rcases htr with ⟨b, _, hb, _⟩ | ⟨_, _, _, _, _, hx⟩
    · refine ret (b := b) ?_
      unfold Arc.Thread.done at hb
      split at hb
      · rename_i e; rw [e] at hd; cases hd
      · rename_i e; rw [e] at hd; cases hd
      · exact hb
    · rw [hx hd] at hp; cases hp
  cases hth : th.pc with
  | idle => exact calm (by rw [hth]; rfl)
  | dropSub b => exact calm (by rw [hth]; rfl)
  | dropRemove b => exact calm (by rw [hth]; rfl)
  | dropFree b => exact calm (by rw [hth]; rfl)
  | lenScan i m a => rw [hth] at hrel; cases hrel
  | lenDone n => rw [hth] at hrel; cases hrel
  | shrinkScan i m => rw [hth] at hrel; cases hrel
  | newLoop c => rw [hth] at hpc; exact own hpc.1 fun k hk => by rw [hth]; exact hk
  | newFound c sh b => rw [hth] at hpc; exact own hpc.1.1 fun k hk => by rw [hth]; exact hk
  | newUndo c sh b => rw [hth] at hpc; exact own hpc.1.1 fun k hk => by rw [hth]; exact hk
  | newRelease c sh => rw [hth] at hpc; exact own hpc.1.1 fun k hk => by rw [hth]; exact hk
  | newAlloc c => rw [hth] at hpc; exact own hpc.1.1 fun k hk => by rw [hth]; exact hk
  | newHit c sh b => rw [hth] at hpc; exact own hpc.1.1 fun k hk => by rw [hth]; exact List.mem_cons_of_mem _ hk
  | newEntry c b => rw [hth] at hpc; exact box hpc.2.2 hpc.1.1
  | newVacant c sh b => rw [hth] at hpc; exact box hpc.2.2.1 hpc.1.1
  | newOccupied c sh b => rw [hth] at hpc; exact box hpc.2.2.1 hpc.1.1
  | newUnbox c b => rw [hth] at hpc; exact box hpc.2.2.2 hpc.1.1
  | newInserted c sh b => rw [hth] at hpc; exact found hpc.2.2.2 hpc.1.1

end

/-! ### Trees -/

section
variable {L : Type} [BEq L] [LawfulBEq L] [Hashable (Node L)] [LawfulHashable (Node L)] {cfg : Cfg (Node L)}

theorem Good.view_mono {N : State (Node L)} {l : List (Mark (Node L))} {S : ArcCode.State (Node L)} {s : Arc.State (Node L)} (h : Good cfg N l S s)
    (p : Addr) (x : Node L) (hx : Arc.deref s p = some x) : Arc.deref N.view p = some x := by
  have := h.sim.deref hx
  simp only [ArcCode.deref, h.flat.mem] at this
  exact this

theorem Good.tree (hk : ∀ n, cfg.kids n = n.kids) {N : State (Node L)} {l : List (Mark (Node L))} {S : ArcCode.State (Node L)}
    {s : Arc.State (Node L)} (h : Good cfg N l S s) {p : Addr} (hp : p ∈ Arc.allHandles cfg s) : ∃ t, Unfolds s p t ∧ Unfolds N.view p t := by
  obtain ⟨c, hc⟩ := Arc.exists_get (h.inv.mem_keys (h.inv.in_table hp))
  obtain ⟨t, ht⟩ := Arc.unfolds_exists hk h.inv s.heap [] rfl _ (Arc.mem_of_get hc)
  exact ⟨t, ht, unfolds_mono h.view_mono ht⟩

theorem Good.trees (hk : ∀ n, cfg.kids n = n.kids) {N : State (Node L)} {l : List (Mark (Node L))} {S : ArcCode.State (Node L)}
    {s : Arc.State (Node L)} (h : Good cfg N l S s) {ps : List Addr} (hp : ∀ p ∈ ps, p ∈ Arc.allHandles cfg s) : ∃ ts, UnfoldsAll N.view ps ts :=
  Arc.unfoldsAll_exists ps fun p hm => (h.tree hk (hp p hm)).imp fun _ h => h.2

theorem Good.tree_inj (hk : ∀ n, cfg.kids n = n.kids) {N : State (Node L)} {l : List (Mark (Node L))} {S : ArcCode.State (Node L)}
    {s : Arc.State (Node L)} (h : Good cfg N l S s) {p q : Addr} (hp : p ∈ Arc.allHandles cfg s) (hq : q ∈ Arc.allHandles cfg s) {t : Tree L}
    (ht : Unfolds N.view p t) (hu : Unfolds N.view q t) : p = q := by
  obtain ⟨t1, h1, h2⟩ := h.tree hk hp
  obtain ⟨t2, h3, h4⟩ := h.tree hk hq
  rw [Arc.unfolds_fun h2 ht] at h1
  rw [Arc.unfolds_fun h4 hu] at h3
  exact Arc.unfolds_inj hk h.inv hp hq h1 h3

omit [LawfulBEq L] [LawfulHashable (Node L)] in
theorem Good.handle_all {N : State (Node L)} {l : List (Mark (Node L))} {S : ArcCode.State (Node L)} {s : Arc.State (Node L)} (h : Good cfg N l S s) {p : Addr}
    (hp : p ∈ N.handles) : p ∈ Arc.allHandles cfg s := by
  simp only [Arc.allHandles, List.mem_append]; rw [h.sim.handles, h.flat.handles]; exact .inl (.inl hp)

end
end Src.ArcNest

namespace Src.ArcHeld
open Arc (Addr Tid Cell Cfg Node Tree Unfolds UnfoldsAll)
open Src.ArcNest (Running Few Good)

variable {L : Type} [BEq L] [LawfulBEq L] [Hashable (Node L)] [LawfulHashable (Node L)] {cfg : Cfg (Node L)}

omit [LawfulBEq L] [LawfulHashable (Node L)] in
theorem step_agree {X X' : State (Node L)} {act : Act (Node L)} (e : step cfg X act = .ok X') (p : Addr) (x y : Node L)
    (hx : Arc.deref X.base.view p = some x) (hy : Arc.deref X'.base.view p = some y) : y = x := by
  rcases step_base e with ⟨_, _, _, _, _, rfl⟩ | ⟨_, _, e, _⟩
  · rw [hx] at hy; cases hy; rfl
  · rcases step_mem e with h | ⟨_, _, _, _, _, _, h⟩ <;> exact h.data p x y hx hy

/-- A handle that clients own represents a tree. -/
theorem own_tree (hv : cfg.Valid) (hk : ∀ n, cfg.kids n = n.kids) {X : State (Node L)} (h : Reach cfg X) {p : Addr} (hp : p ∈ X.base.handles) :
    ∃ t, Unfolds X.base.view p t := by
  obtain ⟨⟨l, S, s, h⟩, _⟩ := good_reach hv h
  exact (h.tree hk (h.handle_all hp)).imp fun _ h => h.2

/-- Handles are equal just if they represent the same tree. -/
theorem own_canonical (hv : cfg.Valid) (hk : ∀ n, cfg.kids n = n.kids) {X : State (Node L)} (h : Reach cfg X) {p q : Addr}
    (hp : p ∈ X.base.handles) (hq : q ∈ X.base.handles) {t u : Tree L} (ht : Unfolds X.base.view p t) (hu : Unfolds X.base.view q u) :
    p = q ↔ t = u := by
  obtain ⟨⟨l, S, s, h⟩, _⟩ := good_reach hv h
  constructor
  · rintro rfl; exact Arc.unfolds_fun ht hu
  · rintro rfl; exact h.tree_inj hk (h.handle_all hp) (h.handle_all hq) ht hu

/-- A handle represents the same tree as long as clients own it. -/
theorem own_keep (hv : cfg.Valid) (hk : ∀ n, cfg.kids n = n.kids) {X X' : State (Node L)} (h' : Reach cfg X') {act : Act (Node L)}
    (e : step cfg X act = .ok X') {p : Addr} (hp : p ∈ X'.base.handles) {t : Tree L} (ht : Unfolds X.base.view p t) :
    Unfolds X'.base.view p t := by
  obtain ⟨t', ht'⟩ := own_tree hv hk h' hp
  rw [ArcNest.unfolds_agree (step_agree e) ht ht']
  exact ht'

/-- The same for the argument of a call of `new` that is not panicking. -/
theorem arg_keep (hv : cfg.Valid) (hk : ∀ n, cfg.kids n = n.kids) {X X' : State (Node L)} (h' : Reach cfg X') {act : Act (Node L)}
    (e : step cfg X act = .ok X') {cs : List (Running (Node L))} (hcs : cs ∈ X'.base.threads) {c : Running (Node L)} (hc : c ∈ cs) {l : L}
    {ps : List Addr} {dst : Bool} (hcall : c.call = .new ⟨l, ps⟩ dst) (hp : c.stack.any (·.panicking) = false) {ts : List (Tree L)}
    (ht : UnfoldsAll X.base.view ps ts) : UnfoldsAll X'.base.view ps ts := by
  obtain ⟨⟨l, S, s, h⟩, _⟩ := good_reach hv h'
  have h1 := h.arg_alive (fun x y hxy => by rw [hk, hk]; exact ((Arc.Node.beq_iff x y).mp hxy).2) hcs hc hcall hp
  rw [hk] at h1
  obtain ⟨ts', ht'⟩ := h.trees hk h1
  rw [ArcNest.unfoldsAll_agree (step_agree e) ht ht']
  exact ht'

end Src.ArcHeld
