import Verif.TypeMap.Inv
/-
Properties C28 (types are isolated) and C29 (shard selection), about container.rs.
-/
namespace TypeMap
variable {cfg : Cfg}

/-! ### C29 -/

/-- **C29, total**: whatever `TypeId`'s `Hash` writes, on every target the shard index is in bounds. -/
theorem C29_in_bounds (w : Nat) (l : List Write) : shardIndex w (hashWrites l) < 32 := shardIndex_lt w _

/-- **C29, the access succeeds** in every reachable state. -/
theorem C29_shard_exists {s : State cfg} (h : Reach s) (t : cfg.Ty) : ∃ v, s.shards[cfg.shard t]? = some v := by
  have hlt : cfg.shard t < s.shards.length := by rw [h.inv.len]; exact shardIndex_lt _ _
  exact ⟨_, List.getElem?_eq_getElem hlt⟩

/-- **C29, target independent**: the same shard with 16-, 32- and 64-bit `usize` (any width from 5 bits up): it is given by
the low five bits of the hash. -/
theorem C29_same_on_all_targets (w : Nat) (hw : 5 ≤ w) (h : UInt64) : shardIndex w h = h.toNat % 32 :=
  Nat.mod_mod_of_dvd _ (Nat.pow_dvd_pow 2 hw)

/-- **C29, write sequences**: a `write_u64` overrides everything before it; splitting a byte string over several `write`
calls does not matter. -/
theorem C29_last_u64_wins (l : List Write) (v : UInt64) : hashWrites (l ++ [.u64 v]) = v := by
  simp [hashWrites, Write.apply]

theorem C29_split_writes (l : List Write) (a b : List UInt8) :
    hashWrites (l ++ [.bytes a, .bytes b]) = hashWrites (l ++ [.bytes (a ++ b)]) := by
  simp [hashWrites, Write.apply, List.foldl_append]

/-- **C29, same shard every time**: a thread working on type `t` holds the mutex of the one shard of `t`. -/
theorem C29_same_shard_every_time {s : State cfg} (h : Reach s) {u : Tid} {t : cfg.Ty} {orig k : Code (cfg.C t) (cfg.R t)}
    {n pos : Nat} (hu : s.threads[u]? = some (.inside t orig n k pos)) : s.lock (cfg.shard t) = some u :=
  h.inv.holder u _ _ hu rfl

example : shardIndex 32 (hashWrites [.bytes [1, 2, 3]]) = 2 ∧ shardIndex 64 (hashWrites [.bytes [1], .u64 0xdeadbeef12345678]) = 24 := by
  decide

/-! ### C28 -/

/-- The contents of the table of type `t`: the first table of that type in its shard, or the default if there is none
yet. -/
def content (s : State cfg) (t : cfg.Ty) : cfg.C t :=
  match (s.shards[cfg.shard t]?).bind (fun v => v.findSome? (downcast t)) with
  | some c => c
  | none => cfg.dflt t

theorem content_of_holds {s : State cfg} (I : Inv s) {t : cfg.Ty} {pos : Nat} {c : cfg.C t}
    (h : Holds s (cfg.shard t) pos t c) : content s t = c := by
  obtain ⟨v, hv, hp⟩ := h
  unfold content
  rw [hv]
  simp only [Option.bind_some]
  cases hf : v.findSome? (downcast t) with
  | none =>
    rw [List.findSome?_eq_none_iff] at hf
    have := hf _ (List.mem_of_getElem? hp)
    rw [downcast_mk] at this
    cases this
  | some d =>
    obtain ⟨x, hx, hd⟩ := List.exists_of_findSome?_eq_some hf
    have := downcast_some hd
    subst this
    obtain ⟨a, ha, e⟩ := List.mem_iff_getElem.mp hx
    have ha' : v[a]? = some ⟨t, d⟩ := by rw [List.getElem?_eq_getElem ha, e]
    have := I.uniq _ _ _ _ _ _ hv hp ha' rfl
    subst this
    rw [hp] at ha'
    cases ha'
    rfl

theorem content_of_none {s : State cfg} {t : cfg.Ty} (h : ∀ pos c, ¬ Holds s (cfg.shard t) pos t c) :
    content s t = cfg.dflt t := by
  unfold content
  cases hv : s.shards[cfg.shard t]? with
  | none => rfl
  | some v =>
    simp only [Option.bind_some]
    cases hf : v.findSome? (downcast t) with
    | none => rfl
    | some d =>
      obtain ⟨x, hx, hd⟩ := List.exists_of_findSome?_eq_some hf
      have := downcast_some hd
      subst this
      obtain ⟨a, ha, e⟩ := List.mem_iff_getElem.mp hx
      exact absurd ⟨v, hv, by rw [List.getElem?_eq_getElem ha, e]⟩ (h a d)

/-- **C28, one atomic table per type.** In every reachable state, for every type no call of which is in progress, running
the finished calls of that type alone, one after the other on a default table, gives the contents of its table and the
results that were returned. -/
theorem C28_history {s : State cfg} (h : Reach s) (t : cfg.Ty)
    (hq : ∀ (u : Tid) orig n k pos, s.threads[u]? ≠ some (.inside t orig n k pos)) :
    Replay (cfg.dflt t) (s.log t) (content s t) := by
  have I := h.inv
  have hr := I.rest t hq
  by_cases hex : ∃ pos c, Holds s (cfg.shard t) pos t c
  · obtain ⟨pos, c, hh⟩ := hex
    rw [content_of_holds I hh]
    exact hr.1 pos c hh
  · have hno : ∀ pos c, ¬ Holds s (cfg.shard t) pos t c := fun pos c hh => hex ⟨pos, c, hh⟩
    rw [content_of_none hno]
    exact hr.2 hno

/-- C28, calls in progress: a thread that has executed part of its closure sees exactly the finished calls of the same
type followed by its own steps. -/
theorem C28_in_progress {s : State cfg} (h : Reach s) {u : Tid} {t : cfg.Ty} {orig k : Code (cfg.C t) (cfg.R t)}
    {n pos : Nat} (hu : s.threads[u]? = some (.inside t orig n k pos)) :
    ∃ c0, Replay (cfg.dflt t) (s.log t) c0 ∧ orig.steps n c0 = (content s t, k) := by
  obtain ⟨c, c0, h1, h2, h3⟩ := h.inv.inside u t orig n k pos hu
  exact ⟨c0, h2, by rw [content_of_holds h.inv h1]; exact h3⟩

/-- **C28, isolation.** What the calls of type `t` return, and what its table contains, is determined by the calls of type
`t` alone: in two executions with the same calls of that type, whatever else happens in them, all results agree. -/
theorem C28_isolated {s s' : State cfg} (h : Reach s) (h' : Reach s') (t : cfg.Ty)
    (hq : ∀ (u : Tid) orig n k pos, s.threads[u]? ≠ some (.inside t orig n k pos))
    (hq' : ∀ (u : Tid) orig n k pos, s'.threads[u]? ≠ some (.inside t orig n k pos))
    (same : (s.log t).map (fun x => (x.code, x.steps, x.res.isSome)) =
      (s'.log t).map (fun x => (x.code, x.steps, x.res.isSome))) :
    (s.log t).map (·.res) = (s'.log t).map (·.res) ∧ content s t = content s' t := by
  have := (C28_history h t hq).det (C28_history h' t hq') same
  exact ⟨by rw [this.1], this.2⟩

/-- **C28, exactly one table**: a type never has two tables, in whatever shards ... -/
theorem C28_one_table {s : State cfg} (h : Reach s) {t : cfg.Ty} {i j a b : Nat} {c d : cfg.C t} (h1 : Holds s i a t c)
    (h2 : Holds s j b t d) : i = j ∧ a = b ∧ c = d := by
  obtain ⟨v, hv, hp⟩ := h1
  obtain ⟨v', hv', hp'⟩ := h2
  have e1 := h.inv.place _ _ _ _ hv hp
  have e2 := h.inv.place _ _ _ _ hv' hp'
  simp only at e1 e2
  have e : i = j := by rw [← e1, ← e2]
  subst e
  rw [hv] at hv'
  cases hv'
  have := h.inv.uniq _ _ _ _ _ _ hv hp hp' rfl
  subst this
  rw [hp] at hp'
  cases hp'
  exact ⟨rfl, rfl, rfl⟩

/-- ... and once it exists it stays where it is for ever. -/
theorem C28_table_stays {s s' : State cfg} (h : Reach s) {a : Act cfg} (hs : step s a = .ok s') {t : cfg.Ty} {i pos : Nat}
    {c : cfg.C t} (hh : Holds s i pos t c) : ∃ c', Holds s' i pos t c' := by
  have I := h.inv
  obtain ⟨v, hv, hp⟩ := hh
  cases a with
  | spawn => cases hs; exact ⟨c, v, hv, hp⟩
  | call u t' code =>
    simp only [step] at hs
    cases hu : s.threads[u]? with
    | none => rw [hu] at hs; cases hs
    | some pc =>
      rw [hu] at hs
      cases pc with
      | idle => cases hs; exact ⟨c, v, hv, hp⟩
      | _ => cases hs
  | run u =>
    simp only [step] at hs
    cases hu : s.threads[u]? with
    | none => rw [hu] at hs; cases hs
    | some pc =>
      rw [hu] at hs
      simp only at hs
      cases pc with
      | idle => cases hs
      | want t' code =>
        simp only [run] at hs
        cases hv' : s.shards[cfg.shard t']? with
        | none => rw [hv'] at hs; cases hs
        | some v' =>
          rw [hv'] at hs
          simp only at hs
          split at hs
          · cases hs
          · rcases getTypeMut_spec v' t' with ⟨p, d, _, hg⟩ | ⟨_, hg⟩
            · rw [hg] at hs
              cases hs
              refine ⟨c, (Holds.set_iff hv').mpr ?_⟩
              by_cases e : i = cfg.shard t'
              · subst e
                rw [hv] at hv'
                cases hv'
                exact .inl ⟨rfl, hp⟩
              · exact .inr ⟨e, v, hv, hp⟩
            · rw [hg] at hs
              cases hs
              refine ⟨c, (Holds.set_iff hv').mpr ?_⟩
              by_cases e : i = cfg.shard t'
              · subst e
                rw [hv] at hv'
                cases hv'
                exact .inl ⟨rfl, snoc_left hp⟩
              · exact .inr ⟨e, v, hv, hp⟩
      | inside t' orig n k p =>
        cases k with
        | ret r => cases hs; exact ⟨c, v, hv, hp⟩
        | next f k =>
          obtain ⟨d, d0, ⟨v', hv', hq⟩, _, _⟩ := I.inside _ _ _ _ _ _ hu
          simp only [run, hv', hq, downcast_mk] at hs
          cases hs
          by_cases e : i = cfg.shard t'
          · subst e
            rw [hv] at hv'
            cases hv'
            by_cases e : pos = p
            · subst e
              rw [hp] at hq
              cases hq
              exact ⟨f c, (Holds.set_iff hv).mpr (.inl ⟨rfl, set_self hp⟩)⟩
            · exact ⟨c, (Holds.set_iff hv).mpr (.inl ⟨rfl, by rw [set_other e]; exact hp⟩)⟩
          · exact ⟨c, (Holds.set_iff hv').mpr (.inr ⟨e, v, hv, hp⟩)⟩
  | panic u =>
    simp only [step] at hs
    cases hu : s.threads[u]? with
    | none => rw [hu] at hs; cases hs
    | some pc =>
      rw [hu] at hs
      cases pc with
      | inside t' orig n k p => cases hs; exact ⟨c, v, hv, hp⟩
      | _ => cases hs

/-- **C28, no internal panic**: no `unwrap`, index or downcast in container.rs ever fails. -/
theorem C28_no_internal_panic {s : State cfg} (h : Reach s) (a : Act cfg) : step s a ≠ .bug := by
  intro e
  rcases h.inv.step a with h | ⟨s', h, _⟩ <;> rw [e] at h <;> cases h

/-- C28, no deadlock: closures that do not call back into the interner always get to the end: a thread inside can step,
and a waiting thread is only blocked by a thread that can step. -/
theorem C28_progress {s : State cfg} (h : Reach s) {u : Tid} {pc : Pc cfg} (hu : s.threads[u]? = some pc) (hi : pc ≠ .idle) :
    ∃ u' s', step s (.run u') = .ok s' := by
  have inner : ∀ (u : Tid) pc i, s.threads[u]? = some pc → pc.holds = some i → ∃ s', step s (.run u) = .ok s' := by
    intro u pc i hu hh
    rcases h.inv.step (.run u) with hb | ⟨s', e, _⟩
    · exfalso
      simp only [step, hu] at hb
      cases pc with
      | inside t orig n k pos =>
        cases k with
        | ret r => cases hb
        | next f k =>
          obtain ⟨d, d0, ⟨v', hv', hq⟩, _, _⟩ := h.inv.inside _ _ _ _ _ _ hu
          simp only [run, hv', hq, downcast_mk] at hb
          cases hb
      | _ => cases hh
    · exact ⟨s', e⟩
  cases pc with
  | idle => exact absurd rfl hi
  | inside t orig n k pos =>
    obtain ⟨s', e⟩ := inner u _ _ hu rfl
    exact ⟨u, s', e⟩
  | want t code =>
    cases hl : s.lock (cfg.shard t) with
    | some u' =>
      obtain ⟨pc, h1, h2⟩ := h.inv.held _ _ hl
      obtain ⟨s', e⟩ := inner u' _ _ h1 h2
      exact ⟨u', s', e⟩
    | none =>
      rcases h.inv.step (.run u) with hb | ⟨s', e, _⟩
      · exfalso
        obtain ⟨v, hv⟩ := C29_shard_exists h t
        simp only [step, hu, run, hv, hl, Option.isSome_none, Bool.false_eq_true, if_false] at hb
        rcases getTypeMut_spec v t with ⟨p, d, _, hg⟩ | ⟨_, hg⟩ <;> rw [hg] at hb <;> cases hb
      · exact ⟨u, s', e⟩

/-! A concrete configuration: two types that hash to the same shard. -/
namespace Demo

abbrev demo : Cfg where
  Ty := Bool
  C _ := List Nat
  dflt _ := []
  R _ := Nat
  writes _ := [.u64 37]
  w := 64

/-- Push a number and return the number of elements. -/
def push (n : Nat) : Code (List Nat) Nat := .next (n :: ·) fun c => .ret (c.length + 1)

def script : List (Act demo) :=
  [.spawn, .spawn, .call 0 true (push 5), .call 1 false (push 7), .run 0, .run 0, .run 0, .run 1, .run 1, .run 1,
   .call 0 false (push 8), .call 1 true (push 9), .run 0, .panic 0, .run 1, .run 1, .run 1]

def exec (s : State demo) : List (Act demo) → Option (State demo)
  | [] => some s
  | a :: l => match step s a with
    | .ok s' => exec s' l
    | _ => none

theorem exec_reach {s s' : State demo} {l : List (Act demo)} (h : exec s l = some s') (r : Reach s) : Reach s' := by
  induction l generalizing s with
  | nil => cases h; exact r
  | cons a l ih =>
    simp only [exec] at h
    cases hs : step s a with
    | ok s1 => rw [hs] at h; exact ih h (r.step hs)
    | blocked => rw [hs] at h; cases h
    | bug => rw [hs] at h; cases h

/-- Both types live in shard 5; each has its own table and its own results. -/
example : ∃ s : State demo, Reach s ∧ demo.shard true = demo.shard false ∧
    (s.log true).map (·.res) = [some (2 : Nat), some (1 : Nat)] ∧
    (s.log false).map (·.res) = [none, some (1 : Nat)] ∧ content s true = ([9, 5] : List Nat) ∧
    content s false = ([7] : List Nat) ∧
    (∀ (t : demo.Ty) (u : Tid) orig n k pos, s.threads[u]? ≠ some (.inside t orig n k pos)) := by
  refine ⟨_, exec_reach (l := script) rfl .init, rfl, rfl, rfl, rfl, rfl, ?_⟩
  intro t u orig n k pos h
  rcases u with _ | _ | u <;> cases h

end Demo
end TypeMap
