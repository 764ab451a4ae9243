import Verif.Src.ArcHeldInv
/-
Locks protect the entries of a shard.
-/
namespace Src.ArcHeld
open Arc (Addr Tid Cell Cfg Res Thread Pc)
open Src.ArcCode (Var Val Op Glue Mem Stack lang Rel Winds dataOf)
open Src.ArcNest (Running Few Good)

variable {V : Type} [BEq V] [Hashable V] {cfg : Cfg V}

/-- What a step of a function does to the table. -/
inductive Turn (cfg : Cfg V) (m m' : Mem V) (f : Frame Var (Val V) Op (Glue V)) : Prop
  | same : m'.table = m.table → Turn cfg m m' f
  | insert (x : Var) (sh : Nat) (b : Addr) : nextOp cfg f = some (.insert x) → f.scopes.get x = some (.vacant sh b) → m'.table = b :: m.table →
      m'.heap = m.heap → Turn cfg m m' f
  | remove (r : Addr) (y : Cell V) : Arc.get m.heap r = some y → frameShard cfg m f = some (cfg.shardOf y.data) → m'.table = m.table.erase r → Turn cfg m m' f

theorem find_shard {s : Arc.State V} {v : V} {r : Addr} (h : Arc.find s v = some r) :
    ∃ x, Arc.get s.heap r = some x ∧ cfg.shardOf x.data = cfg.shardOf v := by
  have h2 := List.find?_some h
  cases hg : Arc.get s.heap r with
  | none => simp [hg] at h2
  | some x => simp [hg, Arc.keyEq] at h2; exact ⟨x, rfl, by unfold Cfg.shardOf; rw [h2.1]⟩

theorem exec_turn {m : Mem V} {t : Tid} {a : Addr} {f : Frame Var (Val V) Op (Glue V)} {op : Op} {d : Done (Mem V) Var (Val V)}
    (hn : nextOp cfg f = some op) (h : ArcCode.exec cfg m t a f.scopes op = .ok d) : Turn cfg m d.mem f := by
  cases op with
  | insert x =>
    simp only [ArcCode.exec] at h
    split at h
    · rename_i hx; cases h; exact .insert _ _ _ hn hx rfl rfl
    · cases h
  | remove x =>
    simp only [ArcCode.exec] at h
    split at h
    · rename_i b hx
      split at h
      · cases h
      · rename_i c hc
        split at h
        · cases h
        · split at h
          · cases h
          · split at h
            · rename_i r hr
              cases h
              obtain ⟨y, h1, h2⟩ := find_shard (cfg := cfg) hr
              refine .remove r y h1 ?_ rfl
              simp only [frameShard, hn, Option.bind_some, opShard, hx, shardAt, hc, Option.map_some, h2]
            · cases h; exact .same rfl
    · cases h
  | _ =>
    refine .same ?_
    simp only [ArcCode.exec] at h
    (repeat' split at h) <;> first | (cases h; done) | (cases h; rfl)

theorem run_turn {m m' : Mem V} {t : Tid} {a : Addr} {f : Frame Var (Val V) Op (Glue V)} {fs fs' : Stack V} {r : Option (Val V)}
    (h : (lang cfg).run m t a (f :: fs) = .ok (m', fs', r)) : Turn cfg m m' f := by
  simp only [Lang.run] at h
  split at h
  · split at h <;> (cases h; exact .same rfl)
  · split at h
    · rename_i g _ _ _ _ _ hd
      cases h
      refine .same ?_
      cases g <;> simp only [ArcCode.drop] at hd <;> (repeat' split at hd) <;> first | (cases hd; done) | (cases hd; rfl)
    · cases h
    · cases h
  · split at h
    · cases h; exact .same rfl
    · cases h
  · split at h <;> (cases h; exact .same rfl)
  · rename_i s l hi
    split at h
    · cases h; exact .same rfl
    · rename_i he
      have key : ∀ op d, (lang cfg).opOf s = some op → (lang cfg).exec m t a f.scopes op = .ok d → Turn cfg m d.mem f := by
        intro op d h1 h2
        refine exec_turn ?_ h2
        simp only [nextOp, if_neg he, hi, h1]
      cases s with
      | uninit x => simp only [Lang.stmt] at h; cases h; exact .same rfl
      | block l => simp only [Lang.stmt] at h; cases h; exact .same rfl
      | loop l => simp only [Lang.stmt] at h; cases h; exact .same rfl
      | _ =>
        simp only [Lang.stmt] at h
        split at h
        · rename_i h2
          split at h2
          · rename_i hd
            cases h2; cases h
            exact key _ _ rfl hd
          · cases h2
          · cases h2
        · cases h
        · cases h

/-- A function that inserts is at the insertion of the model. -/
theorem rel_insert {f : Frame Var (Val V) Op (Glue V)} {fs : Stack V} {th : Thread V} (h : Rel cfg (f :: fs) th) {x : Var} {sh : Nat} {b : Addr}
    (ho : nextOp cfg f = some (.insert x)) (hx : f.scopes.get x = some (.vacant sh b)) : ∃ c, th.pc = .newVacant c sh b := by
  unfold nextOp at ho
  split at ho
  · cases ho
  · rename_i he
    split at ho
    · rename_i st l hi
      have no : ∀ {G : List (Glue V)} {r : Option Addr}, Winds cfg (f :: fs) G r → False := by
        intro G r hw
        obtain ⟨g, _, _, h1, _⟩ := hw.tail
        rw [hi] at h1
        have : f.exiting = false := by simpa using he
        rw [this] at h1
        exact ArcCode.wind_no_stmt h1
      cases h with
      | leave hw _ => exact (no hw).elim
      | destroy hw _ => exact (no hw).elim
      | unlock hw _ => exact (no hw).elim
      | drop hA =>
        exfalso
        cases hA <;> (have hi' := congrArg List.head? hi; simp [ArcCode.dropCode] at hi' <;> subst hi' <;> cases ho)
      | new hA =>
        cases hA with
        | vac2 _ _ =>
          rename_i c sh' b' _ _
          have hi' := congrArg List.head? hi
          simp at hi'
          subst hi'
          cases ho
          simp [Scopes.get] at hx
          obtain ⟨rfl, rfl⟩ := hx
          exact ⟨c, rfl⟩
        | @miss1 c _ =>
          exfalso
          obtain ⟨v, dst, conv⟩ := c
          have hi' := congrArg List.head? hi
          cases dst <;> simp [ArcCode.missing] at hi' <;> subst hi' <;> cases ho
        | @miss2 c _ _ _ =>
          exfalso
          obtain ⟨v, dst, conv⟩ := c
          have hi' := congrArg List.head? hi
          cases dst <;> simp [ArcCode.missing] at hi' <;> subst hi' <;> cases ho
        | _ =>
          exfalso
          have hi' := congrArg List.head? hi
          simp [ArcCode.found, ArcCode.rest, ArcCode.after] at hi' <;>
          subst hi' <;>
          first | (cases ho; done) | (split at ho <;> cases ho)
    · cases ho

theorem step_turn {can : List (Running V) → Bool} {N N' : ArcNest.State V} {act : ArcNest.Act V} (e : ArcNest.step cfg N act can = .ok N') :
    N'.mem.table = N.mem.table ∨ ∃ t a c cs f fs, act = .run t a ∧ N.threads[t]? = some (c :: cs) ∧ c.stack = f :: fs ∧ Turn cfg N.mem N'.mem f := by
  cases act with
  | run t a =>
    simp only [ArcNest.step] at e
    split at e
    · rename_i c cs ht
      cases hst : c.stack with
      | nil => rw [hst] at e; simp [Lang.run] at e
      | cons f fs =>
        rw [hst] at e
        refine .inr ⟨t, a, c, cs, f, fs, rfl, ht, hst, ?_⟩
        split at e
        · rename_i hr; cases e; exact run_turn hr
        · rename_i hr; cases e; exact run_turn hr
        · cases e
        · cases e
    · cases e
  | _ =>
    left
    simp only [ArcNest.step] at e
    (repeat' split at e) <;> first | (cases e; done) | (cases e; rfl)

omit [BEq V] in
theorem filterMap_erase {α β : Type} [DecidableEq α] (g : α → Option β) {r : α} (hr : g r = none) : ∀ l : List α, (l.erase r).filterMap g = l.filterMap g
  | [] => rfl
  | x :: l => by
    by_cases h : x = r
    · subst h; simp [hr]
    · rw [List.erase_cons_tail (by simpa using h)]
      simp only [List.filterMap_cons, filterMap_erase g hr l]

theorem entries_step [EquivBEq V] [LawfulHashable V] (hv : cfg.Valid) {X X' : State V} {l : List (ArcNest.Mark V)} {S : ArcCode.State V}
    {s : Arc.State V} (hg : Good cfg X.base l S s) (hI : Held cfg X) {act : Act V} (e : step cfg X act = .ok X') (hf : Few cfg X'.base)
    {j sh : Nat} (hh : Holds X j sh)
    (hj : ∀ t a c cs, act = .act (.run t a) → X.base.threads[t]? = some (c :: cs) → c.id ≠ j) : entries cfg X' sh = entries cfg X sh := by
  rcases step_base e with ⟨_, _, _, _, _, rfl⟩ | ⟨a, rfl, e, hb⟩
  · rfl
  · obtain ⟨l', S', s', hg', _, hd⟩ := ArcNest.good_step hv hg e hf
    have data : ∀ b ∈ X.base.mem.table, ArcNest.deref X'.base b = ArcNest.deref X.base b := by
      intro b hb
      have hb' : b ∈ s.table := by rw [hg.sim.shared.table, hg.flat.mem]; exact hb
      obtain ⟨x, hx⟩ := Arc.exists_get (hg.inv.mem_keys hb')
      have e1 : Arc.deref s b = some x.data := by simp [Arc.deref, hx]
      have e2 : Arc.deref s' b = some x.data := by rw [hd b hb']; exact e1
      have d1 := hg.sim.deref e1
      have d2 := hg'.sim.deref e2
      simp only [ArcCode.deref, hg.flat.mem] at d1
      simp only [ArcCode.deref, hg'.flat.mem] at d2
      exact d2.trans d1.symm
    have same : ∀ L : List Addr, (∀ b ∈ L, b ∈ X.base.mem.table) →
        (L.filterMap fun b => (ArcNest.deref X'.base b).bind fun v => if cfg.shardOf v = sh then some (b, v) else none) =
        L.filterMap fun b => (ArcNest.deref X.base b).bind fun v => if cfg.shardOf v = sh then some (b, v) else none := by
      intro L hL
      induction L with
      | nil => rfl
      | cons b L ih =>
        simp only [List.filterMap_cons, data b (hL b (by simp)), ih fun b h => hL b (List.mem_cons_of_mem _ h)]
    simp only [entries]
    rcases step_turn e with h | ⟨t, a, c, cs, f, fs, rfl, ht, hst, h⟩
    · rw [h]; exact same _ fun _ h => h
    · have hne : c.id ≠ j := hj t a c cs rfl ht
      cases h with
      | same h => rw [h]; exact same _ fun _ h => h
      | insert x sh' b h1 h2 h3 h4 =>
        obtain ⟨th, hth, hR⟩ := hg.sim.thread (hg.flat.head ht).1
        rw [hst] at hR
        obtain ⟨k, hpc⟩ := rel_insert hR h1 h2
        have hp := (hg.inv.th c.id th hth).pc
        simp only [hpc, Arc.PcInv] at hp
        have hlk : X.base.mem.locks sh' = some c.id := by
          rw [← hg.flat.mem, ← hg.sim.shared.locks]
          exact (hg.inv.lk sh' c.id).mpr ⟨th, hth, by rw [hpc]; rfl⟩
        have hs : sh' ≠ sh := by
          rintro rfl
          exact hne (holds_unique hI (.inr hlk) hh)
        have hb := (hg.sim.shared.get hp.2.2.1).1
        rw [hg.flat.mem] at hb
        rw [h3, List.filterMap_cons]
        have : ArcNest.deref X'.base b = some k.val := by simp only [ArcNest.deref, h4, hb, Option.map_some]
        rw [this, Option.bind_some, if_neg (by rw [← hp.2.2.2.1]; exact hs)]
        exact same _ fun _ h => h
      | remove r y h1 h2 h3 =>
        have hs : cfg.shardOf y.data ≠ sh := by
          intro hs
          rw [← lookup_eq hst, hs] at h2
          rcases hb with ⟨_, hb⟩ | ⟨u, k, k1, _, k3⟩
          · have := hb t (.inr ⟨a, rfl⟩)
            rw [needs_head ht, h2] at this; cases this
          · rcases k3 with k3 | ⟨hm, b, k3⟩
            · cases k3
            · cases k3
              rw [needs_head ht, h2] at k1
              cases k1
              exact hne (holds_unique hI (.inl hm) hh)
        rw [h3, same _ fun b hb => List.mem_of_mem_erase hb]
        refine filterMap_erase _ ?_ _
        have : ArcNest.deref X.base r = some y.data := by simp only [ArcNest.deref, h1, Option.map_some]
        rw [this, Option.bind_some, if_neg hs]

end Src.ArcHeld
