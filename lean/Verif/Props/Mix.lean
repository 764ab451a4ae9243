import Verif.Mix.Model
import Verif.Props.ArcTree
import Verif.Props.ArenaLate
import Verif.Props.PoolLedger
/-!
C77: `ArcIntern` handles inside values given to `Intern` and `Arena`.
-/
namespace Mix
variable {A K V : Type} [BEq A] [Hashable A] [DecidableEq K]

/-- Every step of `ArcIntern` has the form that `Step.arc` asks for: the model of the mixed program leaves out none that Rust's ownership
rules allow. -/
theorem C77_no_call_left_out {cfg : Arc.Cfg A} {s s' : Arc.State A} {a : Arc.Act A} (h : Arc.step cfg s a = .ok s') :
    ∃ got, s'.handles = got ++ Arc.eraseAll s.handles (takes cfg.kids a) := by
  cases a with
  | spawn => cases h; exact ⟨[], rfl⟩
  | new t v dst =>
    simp only [Arc.step] at h
    split at h
    · cases h
    · split at h
      · cases h; exact ⟨[], rfl⟩
      · cases h
  | clone t path =>
    simp only [Arc.step] at h
    split at h
    · cases h
    · split at h
      · split at h
        · rename_i p _
          split at h
          · cases h; exact ⟨[p], rfl⟩
          · cases h
        · cases h
        · cases h
      · cases h
  | read t path =>
    simp only [Arc.step] at h
    split at h
    · cases h
    · split at h
      · split at h
        · cases h; exact ⟨[], rfl⟩
        · cases h
        · cases h
      · cases h
  | drop t p =>
    simp only [Arc.step] at h
    split at h
    · cases h
    · split at h
      · cases h; exact ⟨[], rfl⟩
      · cases h
  | len t lo up =>
    simp only [Arc.step] at h
    split at h
    · cases h
    · split at h
      · cases h; exact ⟨[], rfl⟩
      · cases h
  | shrink t lo up =>
    simp only [Arc.step] at h
    split at h
    · cases h
    · split at h
      · cases h; exact ⟨[], rfl⟩
      · cases h
  | panic t =>
    simp only [Arc.step] at h
    split at h
    · cases h
    · rename_i th _
      simp only [Arc.runPanic] at h
      split at h
      all_goals first
        | (cases h; done)
        | (cases h; exact ⟨[], rfl⟩)
        | (split at h
           · cases h; exact ⟨[], rfl⟩
           · cases h)
  | panicInsert t =>
    simp only [Arc.step] at h
    split at h
    · cases h
    · simp only [Arc.runPanicInsert] at h
      split at h
      · cases h; exact ⟨[], rfl⟩
      · cases h
  | run t x =>
    simp only [Arc.step] at h
    split at h
    · cases h
    · rename_i th _
      simp only [Arc.run] at h
      split at h
      · split at h
        · cases h; exact ⟨[], rfl⟩
        · split at h
          · rename_i b _; cases h; exact ⟨[b], rfl⟩
          · cases h
      all_goals repeat' first
        | (cases h; done)
        | (cases h; exact ⟨[], rfl⟩)
        | split at h

theorem Steps.ledger {cfg : Cfg A K V} {s s' : State A K V} (h : Steps cfg s s') {sup des : List (K × V)}
    (hl : Pool.Ledger cfg.byVal cfg.pool s.pool sup des) :
    ∃ sup des, Pool.Ledger cfg.byVal cfg.pool s'.pool sup des := by
  induction h with
  | refl => exact ⟨sup, des, hl⟩
  | tail _ hs ih =>
    obtain ⟨sup, des, hl⟩ := ih
    cases hs with
    | arc _ _ _ _ _ => exact ⟨sup, des, hl⟩
    | pool ha hs _ => exact ⟨_, _, hl.step ha hs⟩

theorem Steps.arcReach {cfg : Cfg A K V} {s s' : State A K V} (h : Steps cfg s s') (h0 : Arc.Reach cfg.arc s.arc) :
    Arc.Reach cfg.arc s'.arc := by
  induction h with
  | refl => exact h0
  | tail _ hs ih =>
    cases hs with
    | arc h1 h2 h3 _ _ => exact ih.step h1 h2 h3
    | pool _ _ _ => exact ih

/-- What the mixed program does to `ArcIntern` is an execution of `ArcIntern` alone, so C01-C23 hold of it. -/
theorem Reach.arc {cfg : Cfg A K V} {s : State A K V} (h : Reach cfg s) : Arc.Reach cfg.arc s.arc := h.arcReach .init

/-- What it does to `Intern` and `Arena` is an execution of these alone, so C76 holds of it. -/
theorem Reach.pool {cfg : Cfg A K V} {s : State A K V} (h : Reach cfg s) :
    ∃ sup des, Pool.Ledger cfg.byVal cfg.pool s.pool sup des := h.ledger .init

theorem Step.split {cfg : Cfg A K V} (lay : cfg.pool.Layout) {s s' : State A K V} (h : Step cfg s s')
    {sup des : List (K × V)} (hl : Pool.Ledger cfg.byVal cfg.pool s.pool sup des)
    (ih : ∀ p, s.arc.handles.count p = s.prog.count p + (cfg.inside (s.pool.values cfg.byVal)).count p) (p : Arc.Addr) :
    s'.arc.handles.count p = s'.prog.count p + (cfg.inside (s'.pool.values cfg.byVal)).count p := by
  cases h with
  | arc h1 h2 h3 h4 h5 =>
    have h6 := (Arc.ownsAll_iff _ _).mp h4 p
    have := ih p
    rw [h5]
    simp only [List.count_append, Arc.count_eraseAll]
    omega
  | @pool a found pool' h1 h2 h3 =>
    have h4 := (Arc.ownsAll_iff _ _).mp h3 p
    have hp : (pool'.values cfg.byVal ++ Pool.destroys cfg.byVal found cfg.pool s.pool a).Perm
        (s.pool.values cfg.byVal ++ Pool.supplies cfg.byVal s.pool a) := by
      apply Arc.perm_of_countP
      intro f
      rw [List.countP_append, List.countP_append]
      exact Pool.Effect.conserves lay (hl.books lay) (Pool.lateStepWith_effect h2) f
    have h5 := (hp.flatMap_right fun y => cfg.kids y.2).count_eq p
    rw [List.flatMap_append, List.flatMap_append, List.count_append, List.count_append] at h5
    have := ih p
    simp only [Cfg.inside, List.count_append, Arc.count_eraseAll] at this h4 ⊢
    omega

theorem Reach.split {cfg : Cfg A K V} (lay : cfg.pool.Layout) {s : State A K V} (h : Reach cfg s) :
    ∀ p, s.arc.handles.count p = s.prog.count p + (cfg.inside (s.pool.values cfg.byVal)).count p := by
  induction h with
  | refl => intro p; rfl
  | tail h0 hs ih =>
    obtain ⟨sup, des, hl⟩ := Reach.pool h0
    exact hs.split lay hl ih

/-- **C77.** Every `ArcIntern` handle outside `ArcIntern`'s own calls and values is in exactly one place: in the hands of the program or
in one value in the care of `Intern` or `Arena`. -/
theorem C77_owned {cfg : Cfg A K V} (lay : cfg.pool.Layout) {s : State A K V} (h : Reach cfg s) :
    s.arc.handles.Perm (s.prog ++ (s.pool.values cfg.byVal).flatMap fun y => cfg.kids y.2) := by
  rw [List.perm_iff_count]
  intro p
  rw [List.count_append]
  exact h.split lay p

theorem Reach.inside_mem {cfg : Cfg A K V} (lay : cfg.pool.Layout) {s : State A K V} (h : Reach cfg s) {o : Pool.Obj K V}
    (ho : o ∈ s.pool.base.heap) {p : Arc.Addr} (hp : p ∈ cfg.kids o.val) : p ∈ s.arc.handles := by
  refine (C77_owned lay h).mem_iff.mpr (List.mem_append_right _ (List.mem_flatMap.mpr ⟨o.kv, ?_, hp⟩))
  exact List.mem_append_right _ (List.mem_map_of_mem ho)

omit [BEq A] [Hashable A] in
theorem mem_allHandles {cfg : Arc.Cfg A} {s : Arc.State A} {p : Arc.Addr} (h : p ∈ s.handles) : p ∈ Arc.allHandles cfg s :=
  List.mem_append_left _ (List.mem_append_left _ h)

section
variable [EquivBEq A] [LawfulHashable A]

/-- **C77.** A handle inside a value stored by `Intern` or `Arena` is valid: its object is allocated and registered. -/
theorem C77_alive {cfg : Cfg A K V} (hv : cfg.arc.Valid) (lay : cfg.pool.Layout) {s : State A K V} (h : Reach cfg s) {o : Pool.Obj K V}
    (ho : o ∈ s.pool.base.heap) {p : Arc.Addr} (hp : p ∈ cfg.kids o.val) :
    (Arc.deref s.arc p).isSome = true ∧ p ∈ s.arc.table :=
  Arc.C02_handles_valid hv h.arc (mem_allHandles (h.inside_mem lay ho hp))

/-- **C77.** No call on `ArcIntern` that a mixed program can make touches freed memory. -/
theorem C77_no_use_after_free {cfg : Cfg A K V} (hv : cfg.arc.Valid) {s : State A K V} (h : Reach cfg s)
    (a : Arc.Act A) (ha : a.Sane) : Arc.step cfg.arc s.arc a ≠ .ub :=
  Arc.C02_no_use_after_free hv h.arc a ha

/-- **C77.** `refcount()` counts the handles inside values of `Intern` and `Arena`: it is the number of handles in the hands of the
program, in such values, in running calls of `ArcIntern` and in `ArcIntern`'s own values. -/
theorem C77_refcount {cfg : Cfg A K V} (hv : cfg.arc.Valid) (lay : cfg.pool.Layout) {s : State A K V} (h : Reach cfg s) {p : Arc.Addr}
    (hp : p ∈ Arc.allHandles cfg.arc s.arc) :
    Arc.refcount s.arc p = some (s.prog.count p + ((s.pool.values cfg.byVal).flatMap fun y => cfg.kids y.2).count p +
      (s.arc.threads.flatMap (Arc.Thread.owned cfg.arc)).count p + (Arc.storedHandles cfg.arc s.arc.heap).count p) := by
  rw [Arc.C03_refcount_exact hv h.arc hp, Arc.allHandles, List.count_append, List.count_append, h.split lay p]
  rfl

/-- **C77.** When `ArcIntern` is idle and no user code panicked in one of its drops: an object is registered exactly when it can be reached
from a handle in the hands of the program or inside a value in the care of `Intern` or `Arena`. -/
theorem C77_reclaimed {cfg : Cfg A K V} (hv : cfg.arc.Valid) (lay : cfg.pool.Layout) {s : State A K V} (h : Reach cfg s)
    (hd : Arc.ReachND cfg.arc s.arc) (hq : Arc.Quiescent s.arc) (q : Arc.Addr) :
    q ∈ s.arc.table ↔ ∃ p, (p ∈ s.prog ∨ ∃ y ∈ s.pool.values cfg.byVal, p ∈ cfg.kids y.2) ∧ Arc.Points cfg.arc s.arc p q := by
  rw [Arc.C16_nested_exact hv hd hq q]
  have key : ∀ p, p ∈ s.arc.handles ↔ (p ∈ s.prog ∨ ∃ y ∈ s.pool.values cfg.byVal, p ∈ cfg.kids y.2) := by
    intro p
    rw [(C77_owned lay h).mem_iff, List.mem_append, List.mem_flatMap]
  constructor
  · rintro ⟨p, hp, hq⟩; exact ⟨p, (key p).mp hp, hq⟩
  · rintro ⟨p, hp, hq⟩; exact ⟨p, (key p).mpr hp, hq⟩

/-- **C77.** If handles were only given to arenas and all of them have been dropped, and the program has dropped its own handles, then
nothing is left of `ArcIntern`'s objects. -/
theorem C77_nothing_leaks {cfg : Cfg A K V} (hv : cfg.arc.Valid) (lay : cfg.pool.Layout) {s : State A K V} (h : Reach cfg s)
    (hd : Arc.ReachND cfg.arc s.arc) (hq : Arc.Quiescent s.arc) (hp : s.prog = [])
    (hg : ∀ y ∈ s.pool.values cfg.byVal, y.1 ∉ s.pool.base.gone → cfg.kids y.2 = []) : s.arc.table = [] := by
  obtain ⟨sup, des, hl⟩ := Reach.pool h
  rw [List.eq_nil_iff_forall_not_mem]
  intro q hqt
  obtain ⟨p, hp' | ⟨y, hy, hk⟩, _⟩ := (C77_reclaimed hv lay h hd hq q).mp hqt
  · rw [hp] at hp'; cases hp'
  · by_cases hgy : y.1 ∈ s.pool.base.gone
    · have B := hl.books lay
      obtain ⟨g1, g2, g3, g4⟩ := B.gone _ hgy
      have h1 : y ∈ (s.pool.values cfg.byVal).filter fun z => decide (z.1 = y.1) := List.mem_filter.mpr ⟨hy, by simp⟩
      rw [Pool.filter_values g3 g4] at h1
      have h2 := (B.elements lay g1 g3).mem_iff.mp h1
      rw [g2] at h2
      cases h2
    · rw [hg y hy hgy] at hk; cases hk

theorem Steps.kept {cfg : Cfg A K V} {s s' : State A K V} (h : Steps cfg s s') {o : Pool.Obj K V} (ho : o ∈ s.pool.base.heap)
    (hk : cfg.pool.owns o.pool = false) : o ∈ s'.pool.base.heap := by
  induction h with
  | refl => exact ho
  | tail _ hs ih =>
    cases hs with
    | arc _ _ _ _ _ => exact ih
    | pool _ hs _ => exact Pool.C76_intern_kept hs ih hk

theorem Steps.trans {cfg : Cfg A K V} {s s' s'' : State A K V} (h : Steps cfg s s') (h' : Steps cfg s' s'') : Steps cfg s s'' := by
  induction h' with
  | refl => exact h
  | tail _ hs ih => exact ih.tail hs

/-- **C77 (`Intern`).** A handle inside a value interned with `Intern` keeps its object alive for ever, with the same value and at least
one in its count. -/
theorem C77_intern_pins {cfg : Cfg A K V} (hv : cfg.arc.Valid) (lay : cfg.pool.Layout) {s s' : State A K V} (h : Reach cfg s)
    (h' : Steps cfg s s') {o : Pool.Obj K V} (ho : o ∈ s.pool.base.heap) (hk : cfg.pool.owns o.pool = false) {p : Arc.Addr}
    (hp : p ∈ cfg.kids o.val) :
    (Arc.deref s'.arc p).isSome = true ∧ Arc.deref s'.arc p = Arc.deref s.arc p ∧ ∃ n, Arc.refcount s'.arc p = some n ∧ 0 < n := by
  have stay : ∀ {u : State A K V}, Steps cfg s u → p ∈ Arc.allHandles cfg.arc u.arc := fun {u} hu =>
    mem_allHandles (Reach.inside_mem lay (Steps.trans h hu) (hu.kept ho hk) hp)
  have ex : Arc.ExecIn cfg.arc (fun u => p ∈ Arc.allHandles cfg.arc u) s.arc s'.arc := by
    clear ho
    induction h' with
    | refl => exact .refl (stay .refl)
    | tail h0 hs ih =>
      have hn := stay (h0.tail hs)
      cases hs with
      | arc h1 h2 h3 _ _ => exact ih.step h1 h2 h3 hn
      | pool _ _ _ => exact ih
  obtain ⟨h1, h2⟩ := Arc.C07_value_stable hv h.arc ex
  refine ⟨by rw [h2]; exact h1, h2, _, Arc.C03_refcount_exact hv (Reach.arc (Steps.trans h h')) (stay h'), ?_⟩
  exact List.count_pos_iff.mpr (stay h')

end

/-! ### Hash-consing across interners -/
section
open Arc (Node Tree UnfoldsAll)
variable {L M : Type} [BEq L] [LawfulBEq L] [Hashable (Node L)] [LawfulHashable (Node L)]
  [BEq M] [LawfulBEq M] [Hashable (Node M)] [LawfulHashable (Node M)]

/-- The handle `p` of pool `k` represents the tree with label `m` and subtrees `ts`: the value behind it is a node with this label whose
`ArcIntern` children represent `ts`. -/
def Represents (s : State (Node L) K (Node M)) (k : K) (p : Pool.Ptr) (m : M) (ts : List (Tree L)) : Prop :=
  ∃ ks, Pool.deref s.pool.base k p = some ⟨m, ks⟩ ∧ UnfoldsAll s.arc ks ts

/-- **C77.** Nodes with `ArcIntern` children in an arena (or `Intern`): two handles are equal exactly when they represent the same tree,
as long as the arena exists. -/
theorem C77_hash_consing {cfg : Cfg (Node L) K (Node M)} (hv : cfg.arc.Valid) (lay : cfg.pool.Layout)
    (hka : ∀ n, cfg.arc.kids n = n.kids) (hkp : ∀ n, cfg.kids n = n.kids) {s : State (Node L) K (Node M)} (h : Reach cfg s)
    (hl : Pool.LateReach cfg.pool s.pool) {k : K} (hk : k ∉ s.pool.base.gone) {v w : Node M} {p p' : Pool.Ptr}
    (hp : Pool.Returned s.pool.base k v p) (hp' : Pool.Returned s.pool.base k w p') :
    ∃ m ts m' ts', (∀ n us, Represents s k p n us ↔ n = m ∧ us = ts) ∧ (∀ n us, Represents s k p' n us ↔ n = m' ∧ us = ts') ∧
      (p = p' ↔ m = m' ∧ ts = ts') := by
  obtain ⟨y, z, hy, hz, _, _, heq, _⟩ := Pool.C75_handles lay hl .refl hk hp hp'
  have alive : ∀ {p : Pool.Ptr} {y : Node M}, Pool.deref s.pool.base k p = some y → ∀ q ∈ y.kids, q ∈ Arc.allHandles cfg.arc s.arc := by
    intro p y hy q hq
    rw [Pool.deref, Option.map_eq_some_iff] at hy
    obtain ⟨o, ho, rfl⟩ := hy
    exact mem_allHandles (h.inside_mem lay (List.mem_of_find?_eq_some ho) (by rw [hkp]; exact hq))
  have tree : ∀ {y : Node M}, (∀ q ∈ y.kids, q ∈ Arc.allHandles cfg.arc s.arc) → ∃ ts, UnfoldsAll s.arc y.kids ts := by
    intro y hal
    apply Arc.unfoldsAll_exists
    intro q hq
    obtain ⟨t, _, ht, _⟩ := Arc.C15_hash_consing hv hka h.arc (hal q hq) (hal q hq)
    exact ⟨t, (ht t).mpr rfl⟩
  have rep : ∀ {p : Pool.Ptr} {y : Node M} {ts : List (Tree L)}, Pool.deref s.pool.base k p = some y → UnfoldsAll s.arc y.kids ts →
      ∀ n us, Represents s k p n us ↔ n = y.label ∧ us = ts := by
    intro p y ts hy hts n us
    constructor
    · rintro ⟨ks, h1, h2⟩
      rw [hy] at h1
      cases h1
      exact ⟨rfl, Arc.unfoldsAll_fun h2 hts⟩
    · rintro ⟨rfl, rfl⟩
      exact ⟨y.kids, hy, hts⟩
  obtain ⟨ts, hts⟩ := tree (alive hy)
  obtain ⟨us, hus⟩ := tree (alive hz)
  refine ⟨y.label, ts, z.label, us, rep hy hts, rep hz hus, heq.trans ((Node.beq_iff y z).trans (and_congr_right fun _ => ?_))⟩
  constructor
  · intro e
    rw [e] at hts
    exact Arc.unfoldsAll_fun hts hus
  · rintro rfl
    exact Arc.unfoldsAll_inj hka (Arc.reach_inv hv h.arc) (alive hy) (alive hz) hts hus

end

/-! ### Non-vacuity -/
namespace Demo
open Arc (Node)

/-- Pools 0 and 1 are `Intern` pools, the others arenas. -/
def poolCfg : Pool.Cfg Nat (Node Nat) where
  lockOf k := k
  owns k := decide (2 ≤ k)
  zst _ _ := false
  info _ _ := 0
  dangle _ _ := 8

theorem poolLayout : poolCfg.Layout where
  size _ _ _ _ := rfl
  unique _ _ _ h := nomatch h

def cfg : Cfg (Node Nat) Nat (Node Nat) where
  arc := Arc.nodeCfg
  pool := poolCfg
  byVal _ := true
  kids := Node.kids

inductive Cmd where
  | arc (a : Arc.Act (Node Nat)) (got : List Arc.Addr)
  | spawn
  | intern (t : Nat) (k : Nat) (v : Node Nat)
  | run (t : Nat) (a : Nat)
  | dropArena (k : Nat)

def poolAct : Cmd → Option (Pool.Act Nat (Node Nat))
  | .arc _ _ => none
  | .spawn => some .spawn
  | .intern t k v => some (.call t (.intern k (.ofVal v) v))
  | .run t a => some (.run t a)
  | .dropArena k => some (.dropArena k)

def go (s : State (Node Nat) Nat (Node Nat)) (c : Cmd) : Option (State (Node Nat) Nat (Node Nat)) :=
  match c with
  | .arc a got => match Arc.step cfg.arc s.arc a with
    | .ok arc' =>
      if a.plain && decide ((Arc.allHandles cfg.arc arc').length < cfg.arc.W) && Arc.ownsAll s.prog (takes cfg.arc.kids a) &&
          decide (arc'.handles = got ++ Arc.eraseAll s.arc.handles (takes cfg.arc.kids a)) then
        some { s with arc := arc', prog := got ++ Arc.eraseAll s.prog (takes cfg.arc.kids a) }
      else none
    | _ => none
  | c => match poolAct c with
    | none => none
    | some a => match Pool.lateStep cfg.pool s.pool a with
      | .ok pool' =>
        if Arc.ownsAll s.prog (cfg.inside (Pool.supplies cfg.byVal s.pool a)) then
          some { s with
            pool := pool'
            prog := cfg.inside (Pool.destroys cfg.byVal (Pool.honestAnswer s.pool a) cfg.pool s.pool a) ++
              Arc.eraseAll s.prog (cfg.inside (Pool.supplies cfg.byVal s.pool a)) }
        else none
      | _ => none

/-- Everything the theorems ask for. -/
def Good (s : State (Node Nat) Nat (Node Nat)) : Prop :=
  Reach cfg s ∧ Arc.ReachND cfg.arc s.arc ∧ Pool.LateReach cfg.pool s.pool

theorem go_pool {s s' : State (Node Nat) Nat (Node Nat)} {a : Pool.Act Nat (Node Nat)} {c : Cmd} (hc : poolAct c = some a)
    (hn : ∀ a got, c ≠ .arc a got) (h : go s c = some s') (g : Good s) : Good s' := by
  have hla : a.Lawful := by
    cases c with
    | arc a got => exact absurd rfl (hn a got)
    | intern t k v => cases hc; exact Pool.lawful_new k v
    | _ => cases hc; exact True.intro
  have h' : (match Pool.lateStep cfg.pool s.pool a with
      | .ok pool' =>
        if Arc.ownsAll s.prog (cfg.inside (Pool.supplies cfg.byVal s.pool a)) then
          some { s with
            pool := pool'
            prog := cfg.inside (Pool.destroys cfg.byVal (Pool.honestAnswer s.pool a) cfg.pool s.pool a) ++
              Arc.eraseAll s.prog (cfg.inside (Pool.supplies cfg.byVal s.pool a)) }
        else none
      | _ => none) = some s' := by
    cases c with
    | arc a got => exact absurd rfl (hn a got)
    | _ => cases hc; exact h
  cases hs : Pool.lateStep cfg.pool s.pool a with
  | ok pool' =>
    rw [hs] at h'
    dsimp only at h'
    split at h'
    · rename_i ho
      cases h'
      have hh := Pool.lateStepWith_honest cfg.pool s.pool a
      exact ⟨g.1.tail (.pool hh.1 (hh.2.trans hs) ho), g.2.1, g.2.2.step hla hs⟩
    · cases h'
  | blocked => rw [hs] at h'; cases h'
  | ub => rw [hs] at h'; cases h'

theorem go_good {s s' : State (Node Nat) Nat (Node Nat)} {c : Cmd} (h : go s c = some s') (g : Good s) : Good s' := by
  cases c with
  | arc a got =>
    simp only [go] at h
    split at h
    · rename_i arc' hs
      split at h
      · rename_i hc
        simp only [Bool.and_eq_true, decide_eq_true_eq] at hc
        obtain ⟨⟨⟨h1, h2⟩, h3⟩, h4⟩ := hc
        cases h
        have hsane : a.Sane := by cases a <;> simp_all [Arc.Act.Sane, Arc.Act.plain]
        have hnd : ¬ Arc.dropPanic s.arc a := by cases a <;> simp_all [Arc.dropPanic, Arc.Act.plain]
        exact ⟨g.1.tail (.arc hsane hs (Arc.small_of_length h2) h3 h4), g.2.1.step hsane hnd hs (Arc.small_of_length h2), g.2.2⟩
      · cases h
    · cases h
  | _ => exact go_pool rfl (by intro _ _ e; cases e) h g

def goAll (s : State (Node Nat) Nat (Node Nat)) : List Cmd → Option (State (Node Nat) Nat (Node Nat))
  | [] => some s
  | c :: l => match go s c with
    | some s' => goAll s' l
    | none => none

theorem goAll_good : ∀ (l : List Cmd) {s s' : State (Node Nat) Nat (Node Nat)}, goAll s l = some s' → Good s → Good s'
  | [], _, _, h, g => by cases h; exact g
  | c :: l, s, s', h, g => by
    simp only [goAll] at h
    split at h
    · rename_i s1 h1
      exact goAll_good l h (go_good h1 g)
    · cases h

theorem good_init : Good (init : State (Node Nat) Nat (Node Nat)) := ⟨.refl, .init, .init⟩

/-- A leaf is interned with `ArcIntern` and cloned four times; a node of arena 2 takes two of the handles; an equal node takes two more
and is found to be a duplicate, so that its handles are given back; a node in `Intern` pool 0 takes one. -/
def script : List Cmd :=
  [.arc .spawn [], .spawn,
   .arc (.new 0 ⟨1, []⟩ false) [], .arc (.run 0 0) [], .arc (.run 0 10) [], .arc (.run 0 0) [], .arc (.run 0 0) [], .arc (.run 0 0) [],
   .arc (.run 0 0) [10], .arc (.clone 0 [10]) [10], .arc (.clone 0 [10]) [10], .arc (.clone 0 [10]) [10], .arc (.clone 0 [10]) [10],
   .intern 0 2 ⟨7, [10, 10]⟩, .run 0 0, .run 0 0, .run 0 1000, .run 0 0, .run 0 0,
   .intern 0 2 ⟨7, [10, 10]⟩, .run 0 0, .run 0 0, .run 0 0, .run 0 0,
   .intern 0 0 ⟨8, [10]⟩, .run 0 0, .run 0 0, .run 0 2000, .run 0 0, .run 0 0]

example : ∃ s, Good s ∧ s.prog = [10, 10] ∧ s.pool.base.heap.map Pool.Obj.kv = [(0, ⟨8, [10]⟩), (2, ⟨7, [10, 10]⟩)] ∧
    Arc.refcount s.arc 10 = some 5 ∧ s.pool.base.done.length = 3 ∧ s.pool.base.gone = [] ∧ (∀ th ∈ s.arc.threads, th.isIdle = true) := by
  have h : ∃ s, goAll init script = some s ∧ s.prog = [10, 10] ∧
      s.pool.base.heap.map Pool.Obj.kv = [(0, ⟨8, [10]⟩), (2, ⟨7, [10, 10]⟩)] ∧
      Arc.refcount s.arc 10 = some 5 ∧ s.pool.base.done.length = 3 ∧ s.pool.base.gone = [] ∧
      (∀ th ∈ s.arc.threads, th.isIdle = true) := by
    refine ⟨_, rfl, rfl, rfl, rfl, rfl, rfl, by decide⟩
  obtain ⟨s, h1, h2⟩ := h
  exact ⟨s, goAll_good _ h1 good_init, h2⟩

/-- With an arena only: after the arena and the program's own handles have been dropped nothing is left. -/
def script2 : List Cmd :=
  [.arc .spawn [], .spawn,
   .arc (.new 0 ⟨1, []⟩ false) [], .arc (.run 0 0) [], .arc (.run 0 10) [], .arc (.run 0 0) [], .arc (.run 0 0) [], .arc (.run 0 0) [],
   .arc (.run 0 0) [10], .arc (.clone 0 [10]) [10],
   .intern 0 2 ⟨7, [10, 10]⟩, .run 0 0, .run 0 0, .run 0 1000, .run 0 0, .run 0 0,
   .arc (.clone 0 [10]) [10], .arc (.drop 0 10) [], .arc (.run 0 0) [],
   .dropArena 2, .arc (.drop 0 10) [], .arc (.run 0 0) [], .arc (.drop 0 10) [], .arc (.run 0 0) [], .arc (.run 0 0) [], .arc (.run 0 0) []]

example : ∃ s, Good s ∧ s.prog = [] ∧ s.pool.values cfg.byVal = [] ∧ 2 ∈ s.pool.base.gone ∧ (∀ th ∈ s.arc.threads, th.isIdle = true) := by
  have h : ∃ s, goAll init script2 = some s ∧ s.prog = [] ∧ s.pool.values cfg.byVal = [] ∧ 2 ∈ s.pool.base.gone ∧
      (∀ th ∈ s.arc.threads, th.isIdle = true) := by
    refine ⟨_, rfl, rfl, rfl, by decide, by decide⟩
  obtain ⟨s, h1, h2⟩ := h
  exact ⟨s, goAll_good _ h1 good_init, h2⟩

end Demo

end Mix
