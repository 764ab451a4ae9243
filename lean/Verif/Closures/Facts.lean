import Verif.Closures.Model
/-! What a sequence of interning closures does to the set of a type. -/
namespace Closures
open TypeMap (Code Entry Replay)
open Pool (Ptr Query)

variable {V : Type} [BEq V] [Hashable V] [EquivBEq V] [LawfulHashable V]

/-- Elements are pairwise different, as values and as pointers; metadata and address fit the value. -/
structure Good (L : Lay V) (m : Table V) : Prop where
  vals : m.Pairwise fun a b => (a.2 == b.2) = false
  ptrs : m.Pairwise fun a b => a.1 ≠ b.1
  info : ∀ e ∈ m, e.1.info = L.info e.2
  zst : ∀ e ∈ m, L.zst e.2 = true → e.1.addr = L.dangle e.2

theorem get_some {m : Table V} {q : Query V} {p : Ptr} (h : get m q = some p) :
    ∃ x, (p, x) ∈ m ∧ q.eq x = true := by
  unfold get at h
  cases hf : m.find? (fun e => hash e.2 == q.hash && q.eq e.2) with
  | none => rw [hf] at h; cases h
  | some e =>
    rw [hf] at h
    cases h
    refine ⟨e.2, List.mem_of_find?_eq_some hf, ?_⟩
    have := List.find?_some hf
    simp only [Bool.and_eq_true] at this
    exact this.2

theorem get_none {m : Table V} {q : Query V} (h : get m q = none) {x : V} {p : Ptr} (hx : (p, x) ∈ m)
    (hh : hash x = q.hash) : q.eq x = false := by
  unfold get at h
  rw [Option.map_eq_none_iff, List.find?_eq_none] at h
  have := h _ hx
  simpa [hh] using this

theorem get_ofVal_none {m : Table V} {v : V} (h : get m (.ofVal v) = none) {e : Ptr × V} (he : e ∈ m) : (e.2 == v) = false := by
  cases hc : (e.2 == v) with
  | false => rfl
  | true =>
    have h1 := get_none h (x := e.2) (p := e.1) he (LawfulHashable.hash_eq _ _ hc)
    simp only [Query.ofVal] at h1
    rw [hc] at h1; cases h1

theorem pairwise_unique {m : Table V} (h : m.Pairwise fun a b => (a.2 == b.2) = false) {a b : Ptr × V} (ha : a ∈ m) (hb : b ∈ m)
    (e : (a.2 == b.2) = true) : a = b := by
  induction m with
  | nil => cases ha
  | cons c m ih =>
    rw [List.pairwise_cons] at h
    rcases List.mem_cons.mp ha with ha' | ha' <;> rcases List.mem_cons.mp hb with hb' | hb'
    · rw [ha', hb']
    · subst ha'; rw [h.1 _ hb'] at e; cases e
    · subst hb'
      have := h.1 _ ha'
      rw [PartialEquivBEq.symm e] at this; cases this
    · exact ih h.2 ha' hb'

theorem pairwise_unique_ptr {m : Table V} (h : m.Pairwise fun a b => a.1 ≠ b.1) {a b : Ptr × V} (ha : a ∈ m) (hb : b ∈ m)
    (e : a.1 = b.1) : a = b := by
  induction m with
  | nil => cases ha
  | cons c m ih =>
    rw [List.pairwise_cons] at h
    rcases List.mem_cons.mp ha with ha' | ha' <;> rcases List.mem_cons.mp hb with hb' | hb'
    · rw [ha', hb']
    · subst ha'; exact absurd e (h.1 _ hb')
    · subst hb'; exact absurd e.symm (h.1 _ ha')
    · exact ih h.2 ha' hb'

theorem Good.insert {L : Lay V} (ok : L.Ok) {m : Table V} (g : Good L m) {v : V} {al : List Nat → Nat} (hal : ∀ l, al l ∉ l)
    (hn : get m (.ofVal v) = none) : Good L ((newPtr L m v al, v) :: m) where
  vals := by
    rw [List.pairwise_cons]
    refine ⟨fun e he => ?_, g.vals⟩
    cases hc : (v == e.2) with
    | false => rfl
    | true => rw [← get_ofVal_none hn he, PartialEquivBEq.symm hc]
  ptrs := by
    rw [List.pairwise_cons]
    refine ⟨fun e he hp => ?_, g.ptrs⟩
    have hinf : L.info v = L.info e.2 := by
      rw [← g.info e he]
      have : (newPtr L m v al).info = L.info v := by unfold newPtr; split <;> rfl
      rw [← this]
      exact congrArg Ptr.info hp
    have hz := ok.size _ _ hinf
    cases hzv : L.zst v with
    | true =>
      have := ok.unique _ _ hzv (hz ▸ hzv) hinf
      have h1 := get_ofVal_none hn he
      rw [← this] at h1
      rw [ReflBEq.rfl] at h1; cases h1
    | false =>
      have h1 : e.1.addr ∈ (m.filter fun e => !L.zst e.2).map fun e => e.1.addr :=
        List.mem_map.mpr ⟨e, List.mem_filter.mpr ⟨he, by rw [← hz, hzv]; rfl⟩, rfl⟩
      have h2 := congrArg Ptr.addr hp
      simp only [newPtr, hzv] at h2
      rw [← h2] at h1
      exact hal _ h1
  info e he := by
    rcases List.mem_cons.mp he with rfl | he
    · unfold newPtr; split <;> rfl
    · exact g.info e he
  zst e he hz := by
    rcases List.mem_cons.mp he with rfl | he
    · simp only at hz; simp [newPtr, hz]
    · exact g.zst e he hz

/-- What any number of steps of a lawful closure do: the set stays as it is, or gets one new element with the value of the
argument; a result, once there, is right. -/
inductive Effect (L : Lay V) (o : Op V) (m : Table V) : Table V → Code (Table V) Ret → Prop where
  | same {k} : (∀ r, k = .ret r → match o, r with
      | .intern _ v _, .ptr p => ∃ x, (p, x) ∈ m ∧ (x == v) = true
      | .query q, .bool b => b = m.any fun e => q.eq e.2
      | .len, .num n => n = m.length
      | _, _ => False) → Effect L o m m k
  | added {q v al k} : o = .intern q v al → get m (.ofVal v) = none →
      (∀ r, k = .ret r → r = .ptr (newPtr L m v al)) → Effect L o m ((newPtr L m v al, v) :: m) k

theorem steps_ret {C R : Type} (n : Nat) (r : R) (c : C) : (Code.ret r : Code C R).steps n c = (c, .ret r) := by
  cases n <;> rfl

theorem effect {L : Lay V} {o : Op V} (ho : o.Lawful) (m : Table V) (n : Nat) :
    Effect L o m ((o.code L).steps n m).1 ((o.code L).steps n m).2 := by
  cases n with
  | zero =>
    refine .same fun r h => ?_
    cases o <;> cases h
  | succ n =>
    cases o with
    | len =>
      simp only [Op.code, Code.steps, steps_ret]
      exact .same fun r h => by cases h; rfl
    | query q =>
      simp only [Op.code, Code.steps, steps_ret]
      refine .same fun r h => ?_
      cases h
      show (get m q).isSome = m.any fun e => q.eq e.2
      cases hg : get m q with
      | some p =>
        obtain ⟨x, hx, hq⟩ := get_some hg
        exact (List.any_eq_true.mpr ⟨_, hx, hq⟩).symm
      | none =>
        symm
        rw [Option.isSome_none, List.any_eq_false]
        intro e he hq
        have := get_none hg (x := e.2) (p := e.1) he (ho.1 _ hq)
        rw [this] at hq; cases hq
    | intern q v al =>
      obtain ⟨h1, h2, h3⟩ := ho
      have hq : q = .ofVal v := by
        cases q
        simp only [Query.ofVal] at h1 h2 ⊢
        rw [h1]
        congr 1
        funext x; exact h2 x
      subst hq
      simp only [Op.code, Code.steps]
      cases hg : get m (.ofVal v) with
      | some p =>
        obtain ⟨x, hx, hq⟩ := get_some hg
        cases n with
        | zero => exact .same fun r h => by cases h
        | succ n =>
          simp only [id, Code.steps, steps_ret]
          exact .same fun r h => by cases h; exact ⟨x, hx, hq⟩
      | none =>
        cases n with
        | zero => exact .same fun r h => by cases h
        | succ n =>
          simp only [id, Code.steps]
          cases n with
          | zero => exact .same fun r h => by cases h
          | succ n =>
            simp only [Code.steps, steps_ret]
            have : insert m (newPtr L m v al) v = (newPtr L m v al, v) :: m := by
              simp [insert, hg]
            rw [this]
            exact .added rfl hg fun r h => by cases h; rfl

/-- The calls of a history are lawful interning calls. -/
def Ops (L : Lay V) (l : List (Entry (Table V) Ret)) : Prop := ∀ e ∈ l, ∃ o : Op V, o.Lawful ∧ e.code = o.code L

/-- The set after a history is good. -/
theorem replay_good {L : Lay V} (ok : L.Ok) {l : List (Entry (Table V) Ret)} {m : Table V} (r : Replay [] l m)
    (h : Ops L l) : Good L m := by
  have step : ∀ {c c' : Table V} {o : Op V} {k}, Good L c → o.Lawful → Effect L o c c' k → Good L c' := by
    intro c c' o k g ho e
    cases e with
    | same _ => exact g
    | added ho' hn _ => subst ho'; exact g.insert ok ho.2.2 hn
  induction r with
  | nil => exact ⟨.nil, .nil, by simp, by simp⟩
  | @ret l c c' code n r' _ hs ih =>
    obtain ⟨o, ho, hc⟩ := h _ List.mem_cons_self
    simp only at hc
    subst hc
    have e := effect (L := L) ho c n
    rw [hs] at e
    exact step (ih fun e he => h e (List.mem_cons_of_mem _ he)) ho e
  | @panic l c c' code n k _ hs ih =>
    obtain ⟨o, ho, hc⟩ := h _ List.mem_cons_self
    simp only at hc
    subst hc
    have e := effect (L := L) ho c n
    rw [hs] at e
    exact step (ih fun e he => h e (List.mem_cons_of_mem _ he)) ho e

/-- Sets only grow. -/
theorem replay_suffix {L : Lay V} {l older newer : List (Entry (Table V) Ret)} {m : Table V} (r : Replay [] l m)
    (h : Ops L l) (e : l = newer ++ older) : ∃ m0 more, Replay [] older m0 ∧ m = more ++ m0 := by
  induction r generalizing newer with
  | nil =>
    have := List.append_eq_nil_iff.mp e.symm
    rw [this.2]
    exact ⟨[], [], .nil, rfl⟩
  | @ret l c c' code n r' h1 hs ih =>
    cases newer with
    | nil => rw [List.nil_append] at e; subst e; exact ⟨_, [], Replay.ret h1 hs, rfl⟩
    | cons a newer =>
      injection e with e1 e2
      obtain ⟨m0, more, h2, h3⟩ := ih (fun e he => h e (List.mem_cons_of_mem _ he)) e2
      obtain ⟨o, ho, hc⟩ := h _ List.mem_cons_self
      simp only at hc
      subst hc
      have ef := effect (L := L) ho c n
      rw [hs] at ef
      cases ef with
      | same _ => exact ⟨m0, more, h2, h3⟩
      | added _ _ _ => exact ⟨m0, _ :: more, h2, by rw [h3]; rfl⟩
  | @panic l c c' code n k h1 hs ih =>
    cases newer with
    | nil => rw [List.nil_append] at e; subst e; exact ⟨_, [], Replay.panic h1 hs, rfl⟩
    | cons a newer =>
      injection e with e1 e2
      obtain ⟨m0, more, h2, h3⟩ := ih (fun e he => h e (List.mem_cons_of_mem _ he)) e2
      obtain ⟨o, ho, hc⟩ := h _ List.mem_cons_self
      simp only at hc
      subst hc
      have ef := effect (L := L) ho c n
      rw [hs] at ef
      cases ef with
      | same _ => exact ⟨m0, more, h2, h3⟩
      | added _ _ _ => exact ⟨m0, _ :: more, h2, by rw [h3]; rfl⟩

/-- Every result is right for the set at that time, and the value interned is in the set afterwards. -/
theorem replay_entry {L : Lay V} {l older newer : List (Entry (Table V) Ret)} {m : Table V} (r : Replay [] l m)
    (h : Ops L l) {o : Op V} (ho : o.Lawful) {n : Nat} {a : Ret} (e : l = newer ++ ⟨o.code L, n, some a⟩ :: older) :
    ∃ m0 m1 more, Replay [] older m0 ∧ m = more ++ m1 ∧ Effect L o m0 m1 (.ret a) := by
  obtain ⟨m1, more, h1, h2⟩ := replay_suffix r h e
  cases h1 with
  | @ret _ c _ _ _ _ h3 hs =>
    have ef := effect (L := L) ho c n
    rw [hs] at ef
    exact ⟨_, m1, more, h3, h2, ef⟩

theorem Ops.sub {L : Lay V} {older newer : List (Entry (Table V) Ret)} (h : Ops L (newer ++ older)) : Ops L older :=
  fun e he => h e (List.mem_append_right _ he)

/-- A returned handle is in the set, with a value equal to the argument. -/
theorem replay_handle {L : Lay V} {l : List (Entry (Table V) Ret)} {m : Table V} (r : Replay [] l m)
    (h : Ops L l) {q : Query V} {v : V} {al : List Nat → Nat} (ho : (Op.intern q v al).Lawful) {n : Nat} {a : Ret}
    (e : ⟨(Op.intern q v al).code L, n, some a⟩ ∈ l) : ∃ p x, a = .ptr p ∧ (p, x) ∈ m ∧ (x == v) = true := by
  obtain ⟨newer, older, e⟩ := List.append_of_mem e
  obtain ⟨m0, m1, more, h1, h2, h3⟩ := replay_entry r h ho e
  subst h2
  cases h3 with
  | same hr =>
    have := hr a rfl
    cases a with
    | ptr p =>
      obtain ⟨x, hx, hv⟩ := this
      exact ⟨p, x, rfl, List.mem_append_right _ hx, hv⟩
    | _ => exact this.elim
  | added e1 hn hr =>
    cases e1
    exact ⟨_, v, hr a rfl, List.mem_append_right _ List.mem_cons_self, ReflBEq.rfl⟩

end Closures
