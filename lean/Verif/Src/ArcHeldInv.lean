import Verif.Src.ArcHeldSpec
import Verif.Src.ArcNestAcct
import Verif.Src.ArcNestMain
/-
Locks of lookups in progress.
-/
namespace Src.ArcHeld
open Arc (Addr Tid Cell Cfg Res Thread Pc)
open Src.ArcCode (Var Val Op Glue Mem Stack lang Rel Winds dataOf)
open Src.ArcNest (Running Few Good)

variable {V : Type} [BEq V] [Hashable V] {cfg : Cfg V}

/-! ### What a step of a function does to memory -/

/-- Values of objects that stay do not change, and only a lookup takes a lock. -/
structure Effect (m m' : Mem V) (sh : Option Nat) : Prop where
  data : ∀ b v w, dataOf m.heap b = some v → dataOf m'.heap b = some w → w = v
  locks : ∀ i, m'.locks i = m.locks i ∨ m'.locks i = none ∨ sh = some i

omit [BEq V] [Hashable V] in
theorem Effect.keep {m m' : Mem V} {sh : Option Nat} (h : m'.heap = m.heap)
    (hl : ∀ i, m'.locks i = m.locks i ∨ m'.locks i = none ∨ sh = some i) : Effect m m' sh :=
  ⟨fun b v w h1 h2 => by rw [h, h1] at h2; cases h2; rfl, hl⟩

omit [BEq V] [Hashable V] in
theorem Effect.count (m : Mem V) (b : Addr) (n : Nat) (sh : Option Nat) : Effect m { m with heap := Arc.setCount m.heap b n } sh := by
  refine ⟨fun p v w h h' => ?_, fun _ => .inl rfl⟩
  have := (ArcCode.sameData_setCount m.heap b n).2 p
  simp only [dataOf] at h h'
  rw [h, h'] at this
  exact Option.some.inj this

omit [BEq V] [Hashable V] in
theorem Effect.alloc {m : Mem V} {a : Addr} (ha : ¬ (a = 0 ∨ a ∈ Arc.keys m.heap)) (n : Nat) (v : V) (sh : Option Nat) :
    Effect m { m with heap := (a, ⟨n, v⟩) :: m.heap } sh := by
  refine ⟨fun p v w h h' => ?_, fun _ => .inl rfl⟩
  have hne : p ≠ a := by
    rintro rfl
    simp only [dataOf, Option.map_eq_some_iff] at h
    obtain ⟨x, h, _⟩ := h
    exact ha (.inr (Arc.mem_keys_of_get h))
  rw [ArcCode.dataOf_cons hne, h] at h'
  cases h'; rfl

omit [BEq V] [Hashable V] in
theorem Effect.free (m : Mem V) (b : Addr) (sh : Option Nat) : Effect m { m with heap := Arc.free m.heap b } sh := by
  refine ⟨fun p v w h h' => ?_, fun _ => .inl rfl⟩
  by_cases hne : p = b
  · subst hne
    simp [dataOf, Arc.get_free] at h'
  · simp only at h'
    rw [ArcCode.dataOf_free hne, h] at h'
    cases h'; rfl

omit [BEq V] [Hashable V] in
theorem lock_locks (m : Mem V) (i : Nat) (t : Tid) (j : Nat) : (m.lock i t).locks j = m.locks j ∨ (m.lock i t).locks j = none ∨ some i = some j := by
  simp only [Mem.lock]
  by_cases h : j = i
  · exact .inr (.inr (by rw [h]))
  · exact .inl (if_neg h)

omit [BEq V] [Hashable V] in
theorem unlock_locks (m : Mem V) (i : Nat) (sh : Option Nat) (j : Nat) :
    (m.unlock i).locks j = m.locks j ∨ (m.unlock i).locks j = none ∨ sh = some j := by
  simp only [Mem.unlock]
  by_cases h : j = i
  · exact .inr (.inl (if_pos h))
  · exact .inl (if_neg h)

theorem exec_effect {m : Mem V} {t : Tid} {a : Addr} {sc : Scopes Var (Val V)} {op : Op} {d : Done (Mem V) Var (Val V)}
    (h : ArcCode.exec cfg m t a sc op = .ok d) : Effect m d.mem (opShard cfg m sc op) := by
  have stay : ∀ sh, Effect m m sh := fun sh => .keep rfl fun _ => .inl rfl
  cases op with
  | getMut x =>
    simp only [ArcCode.exec] at h
    (repeat' split at h) <;> first | (cases h; done) | (cases h; exact stay _) | skip
    all_goals
      cases h
      refine .keep rfl fun i => ?_
      simp only [opShard, *]
      exact lock_locks _ _ _ _
  | entry x =>
    simp only [ArcCode.exec] at h
    split at h
    · rename_i b hx
      split at h
      · cases h
      · rename_i c hc
        have e : opShard cfg m sc (.entry x) = some (cfg.shardOf c.data) := by simp only [opShard, hx, shardAt, hc, Option.map_some]
        rw [e]
        (repeat' split at h) <;> first | (cases h; done) | (cases h; exact .keep rfl fun i => lock_locks _ _ _ _)
    · cases h
  | remove x =>
    simp only [ArcCode.exec] at h
    (repeat' split at h) <;> first | (cases h; done) | (cases h; exact .keep rfl fun _ => .inl rfl)
  | boxNew x =>
    simp only [ArcCode.exec] at h
    (repeat' split at h) <;> first | (cases h; done) | (cases h; exact .alloc (by assumption) _ _ _)
  | takeOrNew c x =>
    simp only [ArcCode.exec] at h
    (repeat' split at h) <;> first | (cases h; done) | (cases h; exact stay _) | (cases h; exact .alloc (by assumption) _ _ _)
  | fetchAdd x =>
    simp only [ArcCode.exec] at h
    (repeat' split at h) <;> first | (cases h; done) | (cases h; exact .count _ _ _ _)
  | fetchSub x =>
    simp only [ArcCode.exec] at h
    (repeat' split at h) <;> first | (cases h; done) | (cases h; exact .count _ _ _ _)
  | insert x =>
    simp only [ArcCode.exec] at h
    (repeat' split at h) <;> first | (cases h; done) | (cases h; exact .keep rfl fun _ => .inl rfl)
  | intoKey x =>
    simp only [ArcCode.exec] at h
    (repeat' split at h) <;> first | (cases h; done) | (cases h; exact .keep rfl fun i => unlock_locks _ _ _ _)
  | intoInner x =>
    simp only [ArcCode.exec] at h
    (repeat' split at h) <;> first | (cases h; done) | (cases h; exact .free _ _ _)
  | _ =>
    simp only [ArcCode.exec] at h
    (repeat' split at h) <;> first | (cases h; done) | (cases h; exact stay _)

omit [BEq V] [Hashable V] in
theorem drop_effect {m m' : Mem V} {g : Glue V} {l : List (Glue V)} {f : Option (Frame Var (Val V) Op (Glue V))} {sh : Option Nat}
    (h : ArcCode.drop cfg m g = .ok (m', l, f)) : Effect m m' sh := by
  have stay : Effect m m sh := .keep rfl fun _ => .inl rfl
  cases g <;> simp only [ArcCode.drop] at h <;> (repeat' split at h) <;>
    first
    | (cases h; done)
    | (cases h; exact stay)
    | (cases h; exact .keep rfl fun i => unlock_locks _ _ _ _)
    | (cases h; exact .free _ _ _)

/-- The shard of the lookup that a function is going to do. -/
def frameShard (cfg : Cfg V) (m : Mem V) (f : Frame Var (Val V) Op (Glue V)) : Option Nat := (nextOp cfg f).bind (opShard cfg m f.scopes)

theorem run_effect {m m' : Mem V} {t : Tid} {a : Addr} {f : Frame Var (Val V) Op (Glue V)} {fs fs' : Stack V} {r : Option (Val V)}
    (h : (lang cfg).run m t a (f :: fs) = .ok (m', fs', r)) : Effect m m' (frameShard cfg m f) := by
  have stay : ∀ sh, Effect m m sh := fun sh => .keep rfl fun _ => .inl rfl
  simp only [Lang.run] at h
  split at h
  · split at h <;> (cases h; exact stay _)
  · split at h
    · rename_i hd
      cases h
      exact drop_effect hd
    · cases h
    · cases h
  · split at h
    · cases h; exact stay _
    · cases h
  · split at h <;> (cases h; exact stay _)
  · rename_i s l hi
    split at h
    · cases h; exact stay _
    · rename_i he
      have key : ∀ op d, (lang cfg).opOf s = some op → (lang cfg).exec m t a f.scopes op = .ok d → Effect m d.mem (frameShard cfg m f) := by
        intro op d h1 h2
        have : frameShard cfg m f = opShard cfg m f.scopes op := by
          simp only [frameShard, nextOp, if_neg he, hi, h1, Option.bind_some]
        rw [this]
        exact exec_effect h2
      cases s with
      | uninit x => simp only [Lang.stmt] at h; cases h; exact stay _
      | block l => simp only [Lang.stmt] at h; cases h; exact stay _
      | loop l => simp only [Lang.stmt] at h; cases h; exact stay _
      | _ =>
        simp only [Lang.stmt] at h
        split at h
        · rename_i h2
          split at h2
          · rename_i hd
            cases h2; cases h
            exact key _ _ rfl hd
          · cases h2
          · cases h2
        · cases h
        · cases h

/-- A function waits only for a lock, or for an address. -/
theorem run_blocked {m : Mem V} {t : Tid} {a : Addr} {f : Frame Var (Val V) Op (Glue V)} {fs : Stack V}
    (h : (lang cfg).run m t a (f :: fs) = .blocked) :
    (a = 0 ∨ a ∈ Arc.keys m.heap) ∨ ∃ sh, frameShard cfg m f = some sh ∧ (m.locks sh).isSome = true := by
  simp only [Lang.run] at h
  split at h
  · split at h <;> cases h
  · split at h
    · cases h
    · rename_i g _ _ hd
      cases g <;> simp only [ArcCode.drop] at hd <;> (repeat' split at hd) <;> cases hd
    · cases h
  · split at h <;> cases h
  · split at h <;> cases h
  · rename_i s l hi
    split at h
    · cases h
    · rename_i he
      have key : ∀ op, (lang cfg).opOf s = some op → ArcCode.exec cfg m t a f.scopes op = .blocked →
          (a = 0 ∨ a ∈ Arc.keys m.heap) ∨ ∃ sh, frameShard cfg m f = some sh ∧ (m.locks sh).isSome = true := by
        intro op h1 h2
        have e : frameShard cfg m f = opShard cfg m f.scopes op := by
          simp only [frameShard, nextOp, if_neg he, hi, h1, Option.bind_some]
        rw [e]
        cases op <;> simp only [ArcCode.exec] at h2 <;> (repeat' split at h2) <;>
          first
          | (cases h2; done)
          | (exact .inl (by assumption))
          | (refine .inr ⟨_, ?_, by assumption⟩; simp only [opShard, shardAt, *, Option.map_some])
      cases s with
      | uninit x => simp only [Lang.stmt] at h; cases h
      | block l => simp only [Lang.stmt] at h; cases h
      | loop l => simp only [Lang.stmt] at h; cases h
      | _ =>
        simp only [Lang.stmt] at h
        split at h
        · cases h
        · rename_i h2
          split at h2
          · cases h2
          · rename_i hd
            exact key _ rfl hd
          · cases h2
        · cases h

/-! ### Steps -/

theorem lookup_eq {m : Mem V} {c : Running V} {f : Frame Var (Val V) Op (Glue V)} {fs : Stack V} (h : c.stack = f :: fs) :
    lookup cfg m c = frameShard cfg m f := by
  simp only [lookup, frameShard, h, List.head?_cons, Option.bind_some]

variable {can : List (Running V) → Bool}

theorem step_mem {N N' : ArcNest.State V} {act : ArcNest.Act V} (e : ArcNest.step cfg N act can = .ok N') :
    Effect N.mem N'.mem none ∨ ∃ t a c cs, act = .run t a ∧ N.threads[t]? = some (c :: cs) ∧ Effect N.mem N'.mem (lookup cfg N.mem c) := by
  have stay : ∀ m : Mem V, Effect m m none := fun m => .keep rfl fun _ => .inl rfl
  cases act with
  | run t a =>
    simp only [ArcNest.step] at e
    split at e
    · rename_i c cs ht
      cases hst : c.stack with
      | nil => rw [hst] at e; simp [Lang.run] at e
      | cons f fs =>
        rw [hst] at e
        refine .inr ⟨t, a, c, cs, rfl, ht, ?_⟩
        rw [lookup_eq hst]
        split at e
        · rename_i hr; cases e; exact run_effect hr
        · rename_i hr; cases e; exact run_effect hr
        · cases e
        · cases e
    · cases e
  | clone t path =>
    left
    simp only [ArcNest.step] at e
    (repeat' split at e) <;> first | (cases e; done) | (cases e; exact .count _ _ _ _)
  | _ =>
    left
    simp only [ArcNest.step] at e
    (repeat' split at e) <;> first | (cases e; done) | (cases e; exact stay _)

theorem step_keep {N N' : ArcNest.State V} {act : ArcNest.Act V} (e : ArcNest.step cfg N act can = .ok N') {cs : List (Running V)}
    (hcs : cs ∈ N.threads) {c : Running V} (hc : c ∈ cs) :
    (∃ cs' ∈ N'.threads, c ∈ cs') ∨ ∃ t rest, N.threads[t]? = some (c :: rest) ∧
      (act = .panic t ∨ (∃ a, act = .run t a) ∨ lookup cfg N.mem c = none) := by
  obtain ⟨u, hu⟩ := List.getElem?_of_mem hcs
  have set : ∀ (t : Tid) (new old : List (Running V)), N.threads[t]? = some old → N'.threads = N.threads.set t new → (u = t → c ∈ new) →
      ∃ cs' ∈ N'.threads, c ∈ cs' := by
    intro t new old ht h1 h2
    have hlt : t < N.threads.length := (List.getElem?_eq_some_iff.mp ht).1
    by_cases hut : u = t
    · exact ⟨new, by rw [h1]; exact List.mem_of_getElem? (i := t) (by simp [hlt]), h2 hut⟩
    · exact ⟨cs, by rw [h1]; exact List.mem_of_getElem? (i := u) (by rw [List.getElem?_set_ne (Ne.symm hut)]; exact hu), hc⟩
  cases act with
  | spawn => cases e; exact .inl ⟨cs, List.mem_append_left _ hcs, hc⟩
  | new t v dst =>
    simp only [ArcNest.step] at e
    split at e
    · rename_i cs0 ht
      split at e
      · cases e
        refine .inl (set t _ _ ht rfl fun hut => ?_)
        subst hut; rw [hu] at ht; cases ht; exact List.mem_cons_of_mem _ hc
      · cases e
    · cases e
  | drop t v =>
    simp only [ArcNest.step] at e
    split at e
    · rename_i cs0 ht
      split at e
      · cases e
        refine .inl (set t _ _ ht rfl fun hut => ?_)
        subst hut; rw [hu] at ht; cases ht; exact List.mem_cons_of_mem _ hc
      · cases e
    · cases e
  | clone t path =>
    simp only [ArcNest.step] at e
    (repeat' split at e) <;> first | (cases e; done) | (cases e; exact .inl ⟨cs, hcs, hc⟩)
  | read t path =>
    simp only [ArcNest.step] at e
    (repeat' split at e) <;> first | (cases e; done) | (cases e; exact .inl ⟨cs, hcs, hc⟩)
  | take t p =>
    simp only [ArcNest.step] at e
    split at e
    · rename_i id call f fs cs0 ht
      split at e
      · rename_i v l hi
        split at e
        · cases e
          by_cases hh : u = t ∧ c = { id, call, stack := f :: fs }
          · obtain ⟨rfl, rfl⟩ := hh
            refine .inr ⟨u, cs0, ht, .inr (.inr ?_)⟩
            simp [lookup, nextOp, hi]
          · refine .inl (set t _ _ ht rfl fun hut => ?_)
            subst hut; rw [hu] at ht; cases ht
            rcases List.mem_cons.mp hc with rfl | hc
            · exact absurd ⟨rfl, rfl⟩ hh
            · exact List.mem_cons_of_mem _ hc
        · cases e
      · cases e
    · cases e
  | put t p =>
    simp only [ArcNest.step] at e
    split at e
    · rename_i id call f fs cs0 ht
      split at e
      · rename_i v l hi
        split at e
        · cases e
          by_cases hh : u = t ∧ c = { id, call, stack := f :: fs }
          · obtain ⟨rfl, rfl⟩ := hh
            refine .inr ⟨u, cs0, ht, .inr (.inr ?_)⟩
            simp [lookup, nextOp, hi]
          · refine .inl (set t _ _ ht rfl fun hut => ?_)
            subst hut; rw [hu] at ht; cases ht
            rcases List.mem_cons.mp hc with rfl | hc
            · exact absurd ⟨rfl, rfl⟩ hh
            · exact List.mem_cons_of_mem _ hc
        · cases e
      · cases e
    · cases e
  | run t a =>
    simp only [ArcNest.step] at e
    split at e
    · rename_i c0 cs0 ht
      by_cases hh : u = t ∧ c = c0
      · obtain ⟨rfl, rfl⟩ := hh
        exact .inr ⟨u, cs0, ht, .inr (.inl ⟨a, rfl⟩)⟩
      · have hin : u = t → c ∈ cs0 := by
          intro hut
          subst hut; rw [hu] at ht; cases ht
          rcases List.mem_cons.mp hc with rfl | hc
          · exact absurd ⟨rfl, rfl⟩ hh
          · exact hc
        split at e
        · cases e; exact .inl (set t _ _ ht rfl hin)
        · cases e; exact .inl (set t _ _ ht rfl fun h => List.mem_cons_of_mem _ (hin h))
        · cases e
        · cases e
    · cases e
  | panic t =>
    simp only [ArcNest.step] at e
    split at e
    · rename_i c0 cs0 ht
      by_cases hh : u = t ∧ c = c0
      · obtain ⟨rfl, rfl⟩ := hh
        exact .inr ⟨u, cs0, ht, .inl rfl⟩
      · have hin : u = t → c ∈ cs0 := by
          intro hut
          subst hut; rw [hu] at ht; cases ht
          rcases List.mem_cons.mp hc with rfl | hc
          · exact absurd ⟨rfl, rfl⟩ hh
          · exact hc
        split at e
        · cases e; exact .inl (set t _ _ ht rfl fun h => List.mem_cons_of_mem _ (hin h))
        · cases e
        · cases e
    · cases e

/-! ### Lookups stay in their shard -/

/-- A lookup. -/
def isLookup : Op → Bool
  | .getMut _ | .entry _ | .remove _ => true
  | _ => false

/-- The argument of a lookup is alive. -/
theorem lookup_alive [EquivBEq V] [LawfulHashable V] (hv : cfg.Valid) {N : ArcNest.State V} {l : List (ArcNest.Mark V)} {S : ArcCode.State V}
    {s : Arc.State V} (h : Good cfg N l S s) {cs : List (Running V)} (hcs : cs ∈ N.threads) {c : Running V} (hc : c ∈ cs)
    {f : Frame Var (Val V) Op (Glue V)} {fs : Stack V} (hst : c.stack = f :: fs) {op : Op} (ho : nextOp cfg f = some op)
    (hl : isLookup op = true) : opShard cfg N.mem f.scopes op ≠ none := by
  obtain ⟨hget, _⟩ := h.flat.run cs hcs c hc
  have h1 := (ArcCode.sim_step h.sim (fun a ha => (Arc.step_kept hv h.inv ha).1) (.run c.id 1) trivial).1
  simp only [ArcCode.step, hget, h.flat.mem, hst] at h1
  intro hn
  apply h1
  unfold nextOp at ho
  split at ho
  · cases ho
  · rename_i he
    split at ho
    · rename_i st l hi
      have hx : ArcCode.exec cfg N.mem c.id 1 f.scopes op = .ub := by
        have dead : ∀ b, shardAt cfg N.mem b = none → Arc.get N.mem.heap b = none := by
          intro b hb; simpa [shardAt] using hb
        cases op <;> simp only [isLookup] at hl <;> try (cases hl; done)
        all_goals
          rename_i x
          simp only [opShard] at hn
          simp only [ArcCode.exec]
          cases hx : Scopes.get x f.scopes with
          | none => rfl
          | some v => cases v <;> simp only [hx] at hn ⊢ <;> first | (cases hn; done) | rw [dead _ hn]
      have hr : (lang cfg).run N.mem c.id 1 (f :: fs) = .ub := by
        cases st with
        | uninit x => cases ho
        | block l => cases ho
        | loop l => cases ho
        | _ =>
          simp only [Lang.opOf, Option.some.injEq] at ho
          subst ho
          simp only [Lang.run, hi, if_neg he, Lang.stmt, hx]
      rw [hr]
    · cases ho

omit [BEq V] in
theorem opShard_stay {m m' : Mem V} {sc : Scopes Var (Val V)} {op : Op} {sh : Nat}
    (hd : ∀ b v w, dataOf m.heap b = some v → dataOf m'.heap b = some w → w = v) (h : opShard cfg m sc op = some sh)
    (h' : opShard cfg m' sc op ≠ none) : opShard cfg m' sc op = some sh := by
  have key : ∀ b, shardAt cfg m b = some sh → shardAt cfg m' b ≠ none → shardAt cfg m' b = some sh := by
    intro b h1 h2
    have e : ∀ m : Mem V, shardAt cfg m b = (dataOf m.heap b).map cfg.shardOf := by
      intro m; simp only [shardAt, dataOf, Option.map_map]; rfl
    rw [e] at h1 h2 ⊢
    obtain ⟨v, g1, g2⟩ := Option.map_eq_some_iff.mp h1
    cases hw : dataOf m'.heap b with
    | none => rw [hw] at h2; exact absurd rfl h2
    | some w => rw [hd b v w g1 hw, Option.map_some, g2]
  cases op <;> simp only [opShard] at h h' ⊢ <;> try (cases h; done)
  · exact h
  all_goals
    split at h
    · simp only [*] at h' ⊢
      exact key _ h h'
    · cases h

omit [BEq V] in
theorem opShard_isLookup {m : Mem V} {sc : Scopes Var (Val V)} {op : Op} {sh : Nat} (h : opShard cfg m sc op = some sh) : isLookup op = true := by
  cases op <;> first | rfl | cases h

/-- A call that a step does not touch stays in its lookup. -/
theorem lookup_stay [EquivBEq V] [LawfulHashable V] (hv : cfg.Valid) {m : Mem V} {N' : ArcNest.State V} {l : List (ArcNest.Mark V)} {S : ArcCode.State V}
    {s : Arc.State V} (h : Good cfg N' l S s) {o : Option Nat} (he : Effect m N'.mem o) {cs : List (Running V)} (hcs : cs ∈ N'.threads) {c : Running V}
    (hc : c ∈ cs) {sh : Nat} (hl : lookup cfg m c = some sh) : lookup cfg N'.mem c = some sh := by
  cases hst : c.stack with
  | nil => simp [lookup, hst] at hl
  | cons f fs =>
    rw [lookup_eq hst] at hl ⊢
    simp only [frameShard] at hl ⊢
    cases ho : nextOp cfg f with
    | none => rw [ho] at hl; cases hl
    | some op =>
      rw [ho] at hl
      exact opShard_stay he.data hl (lookup_alive hv h hcs hc hst ho (opShard_isLookup hl))

/-! ### The invariant -/

/-- The locks of lookups in progress: each shard is locked at most once, by a call that is looking a value up in it. -/
structure Held (cfg : Cfg V) (X : State V) : Prop where
  nodup : (X.held.map (·.1)).Nodup
  free : ∀ h ∈ X.held, X.base.mem.locks h.1 = none
  run : ∀ h ∈ X.held, ∃ cs ∈ X.base.threads, ∃ c ∈ cs, c.id = h.2 ∧ lookup cfg X.base.mem c = some h.1

theorem needs_head {N : ArcNest.State V} {t : Tid} {c : Running V} {cs : List (Running V)} (ht : N.threads[t]? = some (c :: cs)) :
    needs cfg N t = (lookup cfg N.mem c).map fun sh => (sh, c.id) := by
  simp only [needs, ht]

theorem needs_some {N : ArcNest.State V} {t : Tid} {h : Nat × Nat} (e : needs cfg N t = some h) :
    ∃ c cs, N.threads[t]? = some (c :: cs) ∧ c.id = h.2 ∧ lookup cfg N.mem c = some h.1 := by
  unfold needs at e
  split at e
  · rename_i c cs ht
    obtain ⟨sh, h1, rfl⟩ := Option.map_eq_some_iff.mp e
    exact ⟨c, cs, ht, rfl, h1⟩
  · cases e

theorem lift_ok {X X' : State V} {a : ArcNest.Act V} {hs : List (Nat × Nat)} (e : lift cfg X a hs = .ok X') :
    ArcNest.step cfg X.base a mayCall = .ok X'.base ∧ X'.held = hs := by
  unfold lift at e
  split at e
  · cases e; exact ⟨by assumption, rfl⟩
  · cases e
  · cases e

/-- A step of the program is one of `Verif/Src/ArcNest.lean`, or takes a lock. -/
theorem step_base {X X' : State V} {act : Act V} (e : step cfg X act = .ok X') :
    (∃ t h, act = .lock t ∧ needs cfg X.base t = some h ∧ X.taken h.1 = false ∧ X' = { X with held := h :: X.held }) ∨
    ∃ a, act = .act a ∧ ArcNest.step cfg X.base a mayCall = .ok X'.base ∧
      (X'.held = X.held ∧ (∀ t, (a = .panic t ∨ ∃ b, a = .run t b) → needs cfg X.base t = none) ∨
        ∃ t h, needs cfg X.base t = some h ∧ X'.held = X.held.erase h ∧ (a = .panic t ∨ (h ∈ X.held ∧ ∃ b, a = .run t b))) := by
  unfold step at e
  split at e
  · rename_i t
    split at e
    · rename_i h hn
      split at e
      · cases e
      · rename_i ht
        cases e
        exact .inl ⟨t, h, rfl, hn, by simpa using ht, rfl⟩
    · cases e
  · rename_i t a
    right
    split at e
    · rename_i h hn
      split at e
      · rename_i hm
        obtain ⟨e1, e2⟩ := lift_ok e
        exact ⟨_, rfl, e1, .inr ⟨t, h, hn, e2, .inr ⟨hm, a, rfl⟩⟩⟩
      · cases e
    · rename_i hn
      obtain ⟨e1, e2⟩ := lift_ok e
      refine ⟨_, rfl, e1, .inl ⟨e2, fun u hu => ?_⟩⟩
      rcases hu with hu | ⟨_, hu⟩ <;> cases hu; exact hn
  · rename_i t
    right
    split at e
    · rename_i h hn
      obtain ⟨e1, e2⟩ := lift_ok e
      exact ⟨_, rfl, e1, .inr ⟨t, h, hn, e2, .inl rfl⟩⟩
    · rename_i hn
      obtain ⟨e1, e2⟩ := lift_ok e
      refine ⟨_, rfl, e1, .inl ⟨e2, fun u hu => ?_⟩⟩
      rcases hu with hu | ⟨_, hu⟩ <;> cases hu; exact hn
  · rename_i a h1 h2
    obtain ⟨e1, e2⟩ := lift_ok e
    refine .inr ⟨a, rfl, e1, .inl ⟨e2, fun u hu => ?_⟩⟩
    rcases hu with hu | ⟨b, hu⟩
    · exact absurd hu (h2 u)
    · exact absurd hu (h1 u b)

omit [BEq V] [Hashable V] in
theorem taken_false {X : State V} {sh : Nat} (h : X.taken sh = false) : X.base.mem.locks sh = none ∧ ∀ h ∈ X.held, h.1 ≠ sh := by
  simp only [State.taken, Bool.or_eq_false_iff, List.any_eq_false, beq_iff_eq] at h
  exact ⟨by simpa using h.1, h.2⟩

omit [BEq V] [Hashable V] in
theorem fst_inj {α β : Type} : ∀ {l : List (α × β)}, (l.map (·.1)).Nodup → ∀ {x y : α × β}, x ∈ l → y ∈ l → x.1 = y.1 → x = y
  | [], _, _, _, h, _, _ => by cases h
  | z :: l, hn, x, y, hx, hy, e => by
    simp only [List.map_cons, List.nodup_cons] at hn
    rcases List.mem_cons.mp hx with hx1 | hx1 <;> rcases List.mem_cons.mp hy with hy1 | hy1
    · rw [hx1, hy1]
    · exact absurd (List.mem_map.mpr ⟨y, hy1, by rw [← e, hx1]⟩) hn.1
    · exact absurd (List.mem_map.mpr ⟨x, hx1, by rw [e, hy1]⟩) hn.1
    · exact fst_inj hn.2 hx1 hy1 e

theorem held_step [EquivBEq V] [LawfulHashable V] (hv : cfg.Valid) {X X' : State V} (hI : Held cfg X) {act : Act V} (e : step cfg X act = .ok X')
    {l' : List (ArcNest.Mark V)} {S' : ArcCode.State V} {s' : Arc.State V} (hg' : Good cfg X'.base l' S' s') : Held cfg X' := by
  have nd : X.held.Nodup := List.Pairwise.of_map _ (fun a b h heq => h (congrArg _ heq)) hI.nodup
  rcases step_base e with ⟨t, h, rfl, hn, ht, rfl⟩ | ⟨a, rfl, e, hh⟩
  · obtain ⟨h1, h2⟩ := taken_false ht
    obtain ⟨c, cs, g1, g2, g3⟩ := needs_some hn
    refine ⟨?_, ?_, ?_⟩
    · simp only [List.map_cons, List.nodup_cons]
      refine ⟨fun hm => ?_, hI.nodup⟩
      obtain ⟨k, k1, k2⟩ := List.mem_map.mp hm
      exact h2 k k1 k2
    · intro k hk
      rcases List.mem_cons.mp hk with rfl | hk
      · exact h1
      · exact hI.free k hk
    · intro k hk
      rcases List.mem_cons.mp hk with rfl | hk
      · exact ⟨_, List.mem_of_getElem? g1, c, List.mem_cons_self, g2, g3⟩
      · exact hI.run k hk
  · have hsub : X'.held.Sublist X.held := by
      rcases hh with ⟨h, _⟩ | ⟨_, _, _, h, _⟩ <;> rw [h]
      · exact List.Sublist.refl _
      · exact List.erase_sublist
    -- the call that the step touches is not in a lookup that goes on
    have off : ∀ k ∈ X'.held, ∀ t c cs, X.base.threads[t]? = some (c :: cs) → (a = .panic t ∧ c.id = k.2 ∨ ∃ b, a = .run t b) →
        lookup cfg X.base.mem c = some k.1 → False := by
      intro k hk t c cs ht ha hlk
      have ha' : a = .panic t ∨ ∃ b, a = .run t b := ha.imp (·.1) id
      have hnd := needs_head (cfg := cfg) ht
      rw [hlk, Option.map_some] at hnd
      rcases hh with ⟨_, h⟩ | ⟨u, h, h1, h2, h3⟩
      · rw [h t ha'] at hnd; cases hnd
      · have : u = t := by
          rcases h3 with rfl | ⟨_, b, rfl⟩ <;> rcases ha' with ha | ⟨_, ha⟩ <;> cases ha <;> rfl
        subst this
        rw [h1] at hnd; cases hnd
        rw [h2] at hk
        have hk' := List.mem_of_mem_erase hk
        have hne : k ≠ (k.1, c.id) := by
          intro heq
          rw [heq] at hk
          exact (List.Nodup.not_mem_erase nd) hk
        rcases h3 with rfl | ⟨hm, _⟩
        · rcases ha with ⟨_, ha⟩ | ⟨_, ha⟩
          · exact hne (by rw [ha])
          · cases ha
        · exact hne (fst_inj hI.nodup hk' hm rfl)
    refine ⟨(hsub.map _).nodup hI.nodup, ?_, ?_⟩
    · intro k hk
      have hk0 := hI.free k (hsub.subset hk)
      rcases step_mem e with h | ⟨t, b, c, cs, rfl, ht, h⟩
      · rcases h.locks k.1 with h | h | h
        · rw [h, hk0]
        · exact h
        · cases h
      · rcases h.locks k.1 with h | h | h
        · rw [h, hk0]
        · exact h
        · exact (off k hk t c cs ht (.inr ⟨b, rfl⟩) h).elim
    · intro k hk
      obtain ⟨cs, q1, c, q2, q3, q4⟩ := hI.run k (hsub.subset hk)
      have heff : ∃ o, Effect X.base.mem X'.base.mem o := by
        rcases step_mem e with h | ⟨_, _, _, _, _, _, h⟩ <;> exact ⟨_, h⟩
      obtain ⟨o, heff⟩ := heff
      rcases step_keep e q1 q2 with ⟨cs', r1, r2⟩ | ⟨t, rest, r1, r2⟩
      · exact ⟨cs', r1, c, r2, q3, lookup_stay hv hg' heff r1 r2 q4⟩
      · rcases r2 with r2 | r2 | r2
        · exact (off k hk t c rest r1 (.inl ⟨r2, q3⟩) q4).elim
        · exact (off k hk t c rest r1 (.inr r2) q4).elim
        · rw [r2] at q4; cases q4

theorem held_init : Held cfg (init : State V) := ⟨by simp [init], fun _ hh => (List.not_mem_nil hh).elim, fun _ hh => (List.not_mem_nil hh).elim⟩

/-- All states. -/
theorem good_reach [EquivBEq V] [LawfulHashable V] (hv : cfg.Valid) {X : State V} (h : Reach cfg X) :
    (∃ l S s, Good cfg X.base l S s) ∧ Held cfg X := by
  induction h with
  | init => exact ⟨ArcNest.good_reach hv .init, held_init⟩
  | @step X X' act _ e hf ih =>
    obtain ⟨⟨l, S, s, hg⟩, hI⟩ := ih
    have hg' : ∃ l S s, Good cfg X'.base l S s := by
      rcases step_base e with ⟨_, _, _, _, _, rfl⟩ | ⟨a, _, e, _⟩
      · exact ⟨l, S, s, hg⟩
      · obtain ⟨l', S', s', h', _⟩ := ArcNest.good_step hv hg e hf
        exact ⟨l', S', s', h'⟩
    obtain ⟨l', S', s', h'⟩ := hg'
    exact ⟨⟨l', S', s', h'⟩, held_step hv hI e h'⟩

theorem good_reachND [EquivBEq V] [LawfulHashable V] (hv : cfg.Valid) {X : State V} (h : ReachND cfg X) :
    ∃ l S s, Good cfg X.base l S s ∧ s.zombies = [] := by
  induction h with
  | init => exact ArcNest.good_reachND hv .init
  | step _ hnd e hf ih =>
    obtain ⟨l, S, s, hg, hz⟩ := ih
    rcases step_base e with ⟨_, _, _, _, _, rfl⟩ | ⟨a, rfl, e, _⟩
    · exact ⟨l, S, s, hg, hz⟩
    · obtain ⟨l', S', s', h', h2, _⟩ := ArcNest.good_step hv hg e hf
      exact ⟨l', S', s', h', h2 hnd hz⟩

theorem ReachND.reach {X : State V} (h : ReachND cfg X) : Reach cfg X := by
  induction h with
  | init => exact .init
  | step _ _ e hf ih => exact .step ih e hf

/-- A step is undefined behaviour only if it is one of `Verif/Src/ArcNest.lean`. -/
theorem no_ub [EquivBEq V] [LawfulHashable V] (hv : cfg.Valid) {X : State V} {l : List (ArcNest.Mark V)} {S : ArcCode.State V} {s : Arc.State V}
    (hg : Good cfg X.base l S s) (act : Act V) : step cfg X act ≠ .ub := by
  have hl : ∀ a hs, lift cfg X a hs ≠ .ub := by
    intro a hs
    unfold lift
    split
    · simp
    · simp
    · rename_i h; exact absurd h (ArcNest.good_no_ub hv hg a)
  unfold step
  split
  · split
    · split <;> simp
    · simp
  · split
    · split
      · exact hl _ _
      · simp
    · exact hl _ _
  · split <;> exact hl _ _
  · exact hl _ _

/-! ### Locks -/

/-- The shard in whose lookup a function of the model is. -/
theorem lookup_no_lock {m : Mem V} {c : Running V} {th : Thread V} (h : Rel cfg c.stack th) {sh : Nat} (hl : lookup cfg m c = some sh) :
    th.pc.holds = none := by
  cases hst : c.stack with
  | nil => simp [lookup, hst] at hl
  | cons f fs =>
    rw [lookup_eq hst] at hl
    rw [hst] at h
    simp only [frameShard] at hl
    cases ho : nextOp cfg f with
    | none => rw [ho] at hl; cases hl
    | some op =>
      rw [ho] at hl
      have hL := opShard_isLookup hl
      unfold nextOp at ho
      split at ho
      · cases ho
      · rename_i he
        split at ho
        · rename_i st l hi
          have no : ∀ {G : List (Glue V)} {r : Option Addr}, Winds cfg (f :: fs) G r → False := by
            intro G r hw
            obtain ⟨g, _, _, h1, _⟩ := hw.tail
            rw [hi] at h1
            have : f.exiting = false := by simpa using he
            rw [this] at h1
            exact ArcCode.wind_no_stmt h1
          cases h with
          | leave hw _ => exact (no hw).elim
          | destroy hw _ => exact (no hw).elim
          | unlock hw _ => exact (no hw).elim
          | drop hA =>
            cases hA with
            | @test b n => by_cases e : n = 1 <;> simp [e, Pc.holds]
            | _ => rfl
          | new hA =>
            cases hA with
            | look _ => rfl
            | miss2 _ _ => rfl
            | miss1 hc =>
              rename_i c
              obtain ⟨v, dst, conv⟩ := c
              cases conv <;> rfl
            | conv _ => rfl
            | loop _ => rfl
            | block _ => rfl
            | cont _ => rfl
            | yield _ => rfl
            | endBlock _ => rfl
            | again _ => rfl
            | _ =>
              exfalso
              have hi' := congrArg List.head? hi
              simp [ArcCode.found, ArcCode.rest, ArcCode.after] at hi' <;>
              subst hi' <;>
              first | (cases ho; cases hL; done) | (split at ho <;> (cases ho; cases hL))
        · cases ho

/-- The call that has taken a lock is not going to do a lookup. -/
theorem lock_owner [EquivBEq V] [LawfulHashable V] {N : ArcNest.State V} {l : List (ArcNest.Mark V)} {S : ArcCode.State V} {s : Arc.State V}
    (h : Good cfg N l S s) {i j : Nat} (hl : N.mem.locks i = some j) :
    ∃ cs ∈ N.threads, ∃ c ∈ cs, c.id = j ∧ lookup cfg N.mem c = none := by
  rw [← h.flat.mem, ← h.sim.shared.locks] at hl
  obtain ⟨th, h1, h2⟩ := (h.inv.lk i j).mp hl
  have hlt : j < S.threads.length := by rw [← h.sim.len]; exact (List.getElem?_eq_some_iff.mp h1).1
  have hget : S.threads[j]? = some S.threads[j] := List.getElem?_eq_getElem hlt
  have hR := h.sim.th j _ th hget h1
  have hne : S.threads[j] ≠ [] := by
    intro e
    rw [e] at hR
    have := Arc.holds_notIdle h2
    rw [hR.idle] at this; cases this
  have hm : j ∈ ArcNest.ids N := by
    by_cases hm : j ∈ ArcNest.ids N
    · exact hm
    · have := h.flat.idle j (by rw [← h.flat.len]; exact hlt) hm
      rw [hget] at this
      exact absurd (Option.some.inj this) hne
  obtain ⟨cs, hcs, c, hc, rfl⟩ := ArcNest.mem_ids.mp hm
  refine ⟨cs, hcs, c, hc, rfl, ?_⟩
  cases hlk : lookup cfg N.mem c with
  | none => rfl
  | some sh =>
    have := (h.flat.run cs hcs c hc).1
    rw [hget] at this
    rw [Option.some.inj this] at hR
    rw [lookup_no_lock hR hlk] at h2; cases h2

/-- The innermost call of a thread can go on, unless it waits for a lock. -/
theorem head_runs [EquivBEq V] [LawfulHashable V] (hv : cfg.Valid) {X : State V} {l : List (ArcNest.Mark V)} {S : ArcCode.State V} {s : Arc.State V}
    (hg : Good cfg X.base l S s) (hI : Held cfg X) {t : Tid} {c : Running V} {cs : List (Running V)} (ht : X.base.threads[t]? = some (c :: cs))
    (h : ∀ sh, lookup cfg X.base.mem c = some sh → (sh, c.id) ∈ X.held) {a : Addr} (a1 : a ≠ 0) (a2 : a ∉ Arc.keys X.base.mem.heap) :
    ∃ X', step cfg X (.act (.run t a)) = .ok X' := by
  have hr : ∃ N', ArcNest.step cfg X.base (.run t a) mayCall = .ok N' := by
    have hub := ArcNest.good_no_ub (can := mayCall) hv hg (.run t a)
    obtain ⟨_, hne⟩ := hg.flat.head ht
    cases hst : c.stack with
    | nil => exact absurd hst hne
    | cons f fs =>
      cases hs : ArcNest.step cfg X.base (.run t a) mayCall with
      | ok N' => exact ⟨N', rfl⟩
      | ub => exact absurd hs hub
      | blocked =>
        exfalso
        simp only [ArcNest.step, ht, hst] at hs
        split at hs
        · cases hs
        · cases hs
        · rename_i hb
          rcases run_blocked hb with hb | ⟨sh, h1, h2⟩
          · exact hb.elim a1 a2
          · rw [← lookup_eq hst] at h1
            rw [hI.free _ (h sh h1)] at h2; cases h2
        · cases hs
  obtain ⟨N', hr⟩ := hr
  simp only [step, needs_head ht]
  cases hlk : lookup cfg X.base.mem c with
  | none => simp only [Option.map_none, lift, hr]; exact ⟨_, rfl⟩
  | some sh =>
    simp only [Option.map_some, lift, hr]
    rw [if_pos (h sh hlk)]; exact ⟨_, rfl⟩

/-- A call that cannot go on waits for a lock that some call holds. -/
theorem head_waits [EquivBEq V] [LawfulHashable V] (hv : cfg.Valid) {X : State V} {l : List (ArcNest.Mark V)} {S : ArcCode.State V} {s : Arc.State V}
    (hg : Good cfg X.base l S s) (hI : Held cfg X) {t : Tid} {c : Running V} {cs : List (Running V)} (ht : X.base.threads[t]? = some (c :: cs)) :
    CanRun cfg X t ∨ ∃ sh j, lookup cfg X.base.mem c = some sh ∧ Holds X j sh := by
  cases hlk : lookup cfg X.base.mem c with
  | none =>
    refine .inl (.inr fun a a1 a2 => head_runs hv hg hI ht (fun sh h => ?_) a1 a2)
    rw [hlk] at h; cases h
  | some sh =>
    by_cases hm : (sh, c.id) ∈ X.held
    · refine .inl (.inr fun a a1 a2 => head_runs hv hg hI ht (fun sh' h => ?_) a1 a2)
      rw [hlk] at h; cases h; exact hm
    · cases htk : X.taken sh with
      | false =>
        refine .inl (.inl ⟨{ X with held := (sh, c.id) :: X.held }, ?_⟩)
        simp [step, needs_head ht, hlk, htk]
      | true =>
        right
        simp only [State.taken, Bool.or_eq_true, List.any_eq_true, beq_iff_eq] at htk
        rcases htk with htk | ⟨⟨i, j⟩, h1, h2⟩
        · obtain ⟨j, hj⟩ := Option.isSome_iff_exists.mp htk
          exact ⟨sh, j, rfl, .inr hj⟩
        · simp only at h2; subst h2
          exact ⟨i, j, rfl, .inl h1⟩

/-- Some thread can go on, if some lock is held. -/
theorem holder_runs [EquivBEq V] [LawfulHashable V] (hv : cfg.Valid) {X : State V} {l : List (ArcNest.Mark V)} {S : ArcCode.State V} {s : Arc.State V}
    (hg : Good cfg X.base l S s) (hI : Held cfg X) {rank : Nat → Nat} (ho : Ordered cfg rank X) :
    ∀ (n sh j : Nat), rank sh < n → Holds X j sh → ∃ t, CanRun cfg X t := by
  intro n
  induction n with
  | zero => intro sh j h; omega
  | succ n ih =>
    intro sh j hn hh
    have own : ∃ cs ∈ X.base.threads, ∃ c ∈ cs, c.id = j ∧ ∀ sh', lookup cfg X.base.mem c = some sh' → (sh', c.id) ∈ X.held := by
      rcases hh with hh | hh
      · obtain ⟨cs, h1, c, h2, h3, h4⟩ := hI.run _ hh
        refine ⟨cs, h1, c, h2, h3, fun sh' h => ?_⟩
        rw [h4] at h; cases h; simp only at h3; rw [h3]; exact hh
      · obtain ⟨cs, h1, c, h2, h3, h4⟩ := lock_owner hg hh
        refine ⟨cs, h1, c, h2, h3, fun sh' h => ?_⟩
        rw [h4] at h; cases h
    obtain ⟨cs, hcs, c, hc, rfl, hrun⟩ := own
    obtain ⟨t, ht⟩ := List.getElem?_of_mem hcs
    cases cs with
    | nil => cases hc
    | cons c0 cs =>
      rcases List.mem_cons.mp hc with rfl | hc
      · exact ⟨t, .inr fun a a1 a2 => head_runs hv hg hI ht hrun a1 a2⟩
      · rcases head_waits hv hg hI ht with h | ⟨sh', j', h1, h2⟩
        · exact ⟨t, h⟩
        · exact ih sh' j' (by have := ho c0 cs hcs sh' h1 c hc sh hh; omega) h2

/-- At most one call holds the lock of a shard. -/
theorem holds_unique {X : State V} (hI : Held cfg X) {sh j j' : Nat} (h : Holds X j sh) (h' : Holds X j' sh) : j = j' := by
  rcases h with h | h <;> rcases h' with h' | h'
  · exact (Prod.mk.inj (fst_inj hI.nodup h h' rfl)).2
  · have := hI.free _ h; rw [h'] at this; cases this
  · have := hI.free _ h'; rw [h] at this; cases this
  · rw [h] at h'; exact Option.some.inj h'

/-! ### Values -/

theorem Ledger.reach {X : State V} {L : List (Nat × ArcCode.Move V)} (h : Ledger cfg X L) : Reach cfg X := by
  induction h with
  | init => exact .init
  | lock _ e hf ih => exact .step ih e hf
  | act _ e hf ih => exact .step ih e hf

theorem Ledger.acct [EquivBEq V] [LawfulHashable V] (hv : cfg.Valid) {X : State V} {L : List (Nat × ArcCode.Move V)} (h : Ledger cfg X L) :
    ArcNest.Acct X.base L := by
  induction h with
  | init => exact ArcNest.acct_init
  | lock _ e _ ih =>
    rcases step_base e with ⟨_, _, _, _, _, rfl⟩ | ⟨_, h, _⟩
    · exact ih
    · cases h
  | act h e _ ih =>
    rcases step_base e with ⟨_, _, h, _⟩ | ⟨a, h1, e, _⟩
    · cases h
    · cases h1
      exact ArcNest.acct_step hv (good_reach hv h.reach).1 ih e

end Src.ArcHeld
