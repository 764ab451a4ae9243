import Verif.Pool.ChaosInv
import Verif.Pool.Demo
import Verif.Arc.Demo
import Verif.Arc.Insert
/-!
C61: what survives when the user's `Hash`, `Eq` and `Borrow` keep no contract (they are safe traits, so safe code may break
every rule about them), or when an interned value is changed through interior mutability.

`Intern`: memory safety survives completely; only canonicality is lost. `ArcIntern`: memory safety is lost.
(`Arena`: C37.)
-/
namespace Pool
variable {K V : Type} [DecidableEq K]

/-- Whatever `BEq` and `Hashable` are, lawful or not, every step of the model of `Intern` and `Arena` is a step of the model
with arbitrary lookup answers. -/
theorem C61_all_user_code_covered [BEq V] [Hashable V] {cfg : Cfg K V} {s : State K V} (a : Act K V) :
    ∃ found, Answer s found a ∧ stepWith found cfg s a = step cfg s a := by
  cases a with
  | run t b =>
    cases hpc : s.threads[t]? with
    | none => exact ⟨none, (fun p hp => nomatch hp), by simp only [stepWith, step, hpc]⟩
    | some pc =>
      refine ⟨honest s pc, fun p hp pc' hpc' k hk => ?_, by simp only [stepWith, step, hpc, runWith_honest]⟩
      rw [hpc] at hpc'
      cases hpc'
      cases pc with
      | inside o =>
        cases o with
        | intern k' q mk => cases hk; exact List.mem_of_find?_eq_some hp
        | query k' q => cases hk; exact List.mem_of_find?_eq_some hp
        | _ => cases hp
      | insert k' q mk p' => cases hk; exact List.mem_of_find?_eq_some hp
      | _ => cases hp
  | _ => exact ⟨none, trivial, rfl⟩

/-- So every execution of that model, lawful or not, is covered. -/
theorem exec_chaos [BEq V] [Hashable V] {cfg : Cfg K V} {s s' : State K V} {l : List (Act K V)}
    (h : exec cfg s l = .ok s') (h0 : Chaos cfg s) : Chaos cfg s' := by
  induction l generalizing s with
  | nil => cases h; exact h0
  | cons a l ih =>
    simp only [exec] at h
    cases hs : step cfg s a with
    | ok s1 =>
      rw [hs] at h
      obtain ⟨found, ha, e⟩ := C61_all_user_code_covered (cfg := cfg) (s := s) a
      exact ih h (h0.step ha (e.trans hs))
    | blocked => rw [hs] at h; cases h
    | ub => rw [hs] at h; cases h

/-- **C61 (positive part, `Intern`).** With arbitrary user code, panics anywhere and `clear` at any time: a handle that any
interning call on an `Intern` pool returned points to a value that some call of the same pool supplied and that this handle
was returned for, and it points to this value for ever after. -/
theorem C61_intern_handles_live_for_ever {cfg : Cfg K V} (lay : cfg.Layout) {s : State K V} (h : Chaos cfg s)
    {k : K} (hk : cfg.owns k = false) {e : Entry K V} (he : e ∈ s.done) {q : Query V} {v : V} {p : Ptr}
    (hop : e.op = .intern k q v) (hret : e.ret = .ptr p) :
    ∃ x, (∃ e' ∈ s.log, ∃ q', e'.op = .intern k q' x ∧ e'.ret = .ptr p) ∧
      ∀ s', ChaosSteps cfg s s' → deref s' k p = some x := by
  have I := h.inv
  have hk' : cfg.owns e.op.pool = false := by rw [hop]; exact hk
  obtain ⟨x, hx, he'⟩ := I.done e he hk' k q v p hop hret
  refine ⟨x, he', fun s' hs' => ?_⟩
  obtain ⟨I', g⟩ := hs'.inv I
  exact I'.deref lay (g.1 _ hx hk)

/-- **C61 (positive part, `Intern`).** No step of a call on an `Intern` pool touches freed memory, and neither does a read
through a handle that was returned. -/
theorem C61_intern_no_ub {cfg : Cfg K V} (lay : cfg.Layout) {s : State K V} (h : Chaos cfg s) {k : K}
    (hk : cfg.owns k = false) :
    (∀ t a found pc, s.threads[t]? = some pc → pc.pool? = some k → stepWith found cfg s (.run t a) ≠ .ub) ∧
    (∀ t found, stepWith found cfg s (.panic t) ≠ .ub) ∧
    (∀ e ∈ s.done, ∀ q v p, e.op = .intern k q v → e.ret = .ptr p → ∀ found,
      stepWith found cfg s (.read k p) = .ok s) := by
  refine ⟨fun t a found pc hpc hp hu => ?_, fun t found hu => ?_, fun e he q v p hop hret found => ?_⟩
  · simp only [stepWith, hpc] at hu
    cases pc with
    | idle => cases hu
    | want o => simp only [runWith] at hu; split at hu <;> cases hu
    | inside o =>
      injection hp with hp
      simp only [runWith] at hu
      rw [hp, h.inv.tableOk hk] at hu
      simp only [if_true] at hu
      cases o with
      | intern k' q mk => cases found <;> cases hu
      | query k' q => cases hu
      | len k' => cases hu
      | clear k' => simp only at hu; split at hu <;> cases hu
    | build k' q mk => simp only [runWith] at hu; split at hu <;> cases hu
    | insert k' q mk p' =>
      injection hp with hp
      subst hp
      simp only [runWith] at hu
      rw [h.inv.tableOk hk] at hu
      simp only [if_true] at hu
      cases found <;> cases hu
    | dropArg k' q mk p' => cases hu
    | leave o r => cases hu
  · simp only [stepWith] at hu
    split at hu
    · rename_i pc _
      cases pc <;> cases hu
    · cases hu
  · obtain ⟨x, _, hx⟩ := C61_intern_handles_live_for_ever lay h hk he hop hret
    simp only [stepWith, hx s .refl]

/-! An `Eq` that is never true (as for a floating-point wrapper whose NaN is not equal to itself). -/
namespace Unequal
structure Nan where
  bits : Nat
  deriving DecidableEq
instance : BEq Nan := ⟨fun _ _ => false⟩
instance : Hashable Nan := ⟨fun _ => 0⟩

def cfg : Cfg Nat Nan where
  lockOf _ := 0
  owns k := decide (2 ≤ k)
  zst _ _ := false
  info _ _ := 0
  dangle _ _ := 8
theorem layout : cfg.Layout := ⟨fun _ _ _ _ => rfl, fun _ _ _ h => nomatch h⟩

/-- One thread interns the same value twice, clears the pool and interns it again. -/
def script : List (Act Nat Nan) :=
  [.spawn, .call 0 (.intern 0 (.ofVal ⟨7⟩) ⟨7⟩), .run 0 0, .run 0 0, .run 0 1000, .run 0 0, .run 0 0,
   .call 0 (.intern 0 (.ofVal ⟨7⟩) ⟨7⟩), .run 0 0, .run 0 0, .run 0 2000, .run 0 0, .run 0 0,
   .call 0 (.clear 0), .run 0 0, .run 0 0, .run 0 0,
   .call 0 (.intern 0 (.ofVal ⟨7⟩) ⟨7⟩), .run 0 0, .run 0 0, .run 0 3000, .run 0 0, .run 0 0]

/-- **C61 (negative part, `Intern`).** Only canonicality is lost: the same value gets two handles. -/
theorem C61_intern_duplicates : ∃ s, Chaos cfg s ∧ ∃ e ∈ s.done, ∃ e' ∈ s.done, ∃ p p',
    e.op = e'.op ∧ e.ret = .ptr p ∧ e'.ret = .ptr p' ∧ p ≠ p' := by
  obtain ⟨s, h, c⟩ := exec_check (cfg := cfg) (l := script.take 13) (fun s =>
    s.done.map (·.ret) == [.ptr ⟨2000, 0⟩, .ptr ⟨1000, 0⟩] && decide (s.done.length = 2)) (by decide)
  refine ⟨s, exec_chaos h .init, ?_⟩
  have hd : s.done = [⟨0, .intern 0 (.ofVal ⟨7⟩) ⟨7⟩, .ptr ⟨2000, 0⟩⟩, ⟨0, .intern 0 (.ofVal ⟨7⟩) ⟨7⟩, .ptr ⟨1000, 0⟩⟩] := by
    have : exec cfg init (script.take 13) = .ok s := h
    simp only [script, List.take] at this
    injection this with this
    rw [← this]
    rfl
  rw [hd]
  exact ⟨_, List.mem_cons_self, _, List.mem_cons_of_mem _ List.mem_cons_self, _, _, rfl, rfl, rfl, by decide⟩

/-- The whole script: all three handles, two of them given out before `clear`, are live, and the hypotheses of the positive
theorems are met. -/
example : ∃ s, Chaos cfg s ∧ cfg.owns 0 = false ∧ s.done.length = 4 ∧
    deref s 0 ⟨1000, 0⟩ = some (⟨7⟩ : Nan) ∧ deref s 0 ⟨2000, 0⟩ = some (⟨7⟩ : Nan) ∧
    deref s 0 ⟨3000, 0⟩ = some (⟨7⟩ : Nan) := by
  obtain ⟨s, h, c⟩ := exec_check (cfg := cfg) (l := script) (fun s => decide (s.done.length = 4 ∧
    deref s 0 ⟨1000, 0⟩ = some (⟨7⟩ : Nan) ∧ deref s 0 ⟨2000, 0⟩ = some (⟨7⟩ : Nan) ∧
    deref s 0 ⟨3000, 0⟩ = some (⟨7⟩ : Nan))) (by decide)
  rw [decide_eq_true_eq] at c
  exact ⟨s, exec_chaos h .init, rfl, c⟩

end Unequal

namespace Loose
/-- A type whose `Eq` is not transitive: values are "equal" if they differ by at most one. -/
structure Near where
  bits : Nat
  deriving DecidableEq
instance : BEq Near := ⟨fun a b => decide (a.bits ≤ b.bits + 1) && decide (b.bits ≤ a.bits + 1)⟩
instance : Hashable Near := ⟨fun _ => 0⟩

def cfg : Cfg Nat Near where
  lockOf _ := 0
  owns k := decide (2 ≤ k)
  zst _ _ := false
  info _ _ := 0
  dangle _ _ := 8

/-- One thread interns 7, 8 and 6, in this order. -/
def script : List (Act Nat Near) :=
  [.spawn, .call 0 (.intern 0 (.ofVal ⟨7⟩) ⟨7⟩), .run 0 0, .run 0 0, .run 0 1000, .run 0 0, .run 0 0,
   .call 0 (.intern 0 (.ofVal ⟨8⟩) ⟨8⟩), .run 0 0, .run 0 0, .run 0 0, .run 0 0,
   .call 0 (.intern 0 (.ofVal ⟨6⟩) ⟨6⟩), .run 0 0, .run 0 0, .run 0 0, .run 0 0]

/-- **C61 (negative part, `Intern`).** And equal handles may have been returned for values that are not equal. -/
theorem C61_intern_conflates : ∃ s, Chaos cfg s ∧ ∃ e ∈ s.done, ∃ e' ∈ s.done, ∃ v w p,
    e.op = .intern 0 (.ofVal v) v ∧ e'.op = .intern 0 (.ofVal w) w ∧ e.ret = .ptr p ∧ e'.ret = .ptr p ∧ (v == w) = false := by
  obtain ⟨s, h, _⟩ := exec_check (cfg := cfg) (l := script) (fun s => decide (s.done.length = 3)) (by decide)
  refine ⟨s, exec_chaos h .init, ?_⟩
  have hd : s.done = [⟨0, .intern 0 (.ofVal ⟨6⟩) ⟨6⟩, .ptr ⟨1000, 0⟩⟩, ⟨0, .intern 0 (.ofVal ⟨8⟩) ⟨8⟩, .ptr ⟨1000, 0⟩⟩,
      ⟨0, .intern 0 (.ofVal ⟨7⟩) ⟨7⟩, .ptr ⟨1000, 0⟩⟩] := by
    have : exec cfg init script = .ok s := h
    simp only [script] at this
    injection this with this
    rw [← this]
    rfl
  rw [hd]
  exact ⟨_, List.mem_cons_self, _, List.mem_cons_of_mem _ List.mem_cons_self, _, _, _, rfl, rfl, rfl, rfl, by decide⟩
end Loose

/-- Run a list of actions with given lookup answers, checking that these are elements of the table. -/
def execWith (cfg : Cfg K V) (s : State K V) : List (Option Ptr × Act K V) → Option (State K V)
  | [] => some s
  | (found, a) :: l =>
    let ok := match found, a with
      | some p, .run t _ => (s.threads[t]?.bind Pc.pool?).any fun k => decide (p ∈ s.table k)
      | some _, _ => false
      | none, _ => true
    match ok, stepWith found cfg s a with
    | true, .ok s' => execWith cfg s' l
    | _, _ => none

theorem execWith_chaos {cfg : Cfg K V} {l : List (Option Ptr × Act K V)} {s s' : State K V}
    (h : execWith cfg s l = some s') (h0 : Chaos cfg s) : Chaos cfg s' := by
  induction l generalizing s with
  | nil => cases h; exact h0
  | cons fa l ih =>
    obtain ⟨found, a⟩ := fa
    simp only [execWith] at h
    split at h
    · rename_i s1 hok hs
      refine ih h (h0.step ?_ hs)
      cases found with
      | none => cases a <;> first | trivial | exact fun p hp => nomatch hp
      | some p =>
        cases a with
        | run t b =>
          intro p' hp' pc hpc k hk
          cases hp'
          have hpc : s.threads[t]? = some pc := hpc
          have hk : pc.pool? = some k := hk
          simpa [hpc, hk] using hok
        | _ => cases hok
    · cases h

/-- An execution that no `Eq` explains: the lookup misses, then the second lookup of the same call (in the insertion) hits an
unrelated value, and a third call is given that unrelated value. The handles are live all the same. -/
example : ∃ s : State Nat Demo.Val, Chaos Demo.cfg s ∧
    s.done.map (·.ret) = [.ptr ⟨1000, 0⟩, .ptr ⟨2000, 0⟩, .ptr ⟨1000, 0⟩] ∧
    deref s 0 ⟨1000, 0⟩ = some ⟨5, 1⟩ ∧ deref s 0 ⟨2000, 0⟩ = some ⟨6, 1⟩ := by
  have h : ((execWith Demo.cfg init
    [(none, .spawn), (none, .call 0 (.intern 0 (.ofVal ⟨5, 1⟩) ⟨5, 1⟩)), (none, .run 0 0), (none, .run 0 0),
     (none, .run 0 1000), (none, .run 0 0), (none, .run 0 0),
     (none, .call 0 (.intern 0 (.ofVal ⟨6, 1⟩) ⟨6, 1⟩)), (none, .run 0 0), (none, .run 0 0),
     (none, .run 0 2000), (some ⟨1000, 0⟩, .run 0 0), (none, .run 0 0),
     (none, .call 0 (.intern 0 (.ofVal ⟨8, 1⟩) ⟨8, 1⟩)), (none, .run 0 0), (some ⟨1000, 0⟩, .run 0 0),
     (none, .run 0 0), (none, .run 0 0)]).any fun s => decide (
      s.done.map (·.ret) = [.ptr ⟨1000, 0⟩, .ptr ⟨2000, 0⟩, .ptr ⟨1000, 0⟩] ∧
      deref s 0 ⟨1000, 0⟩ = some (⟨5, 1⟩ : Demo.Val) ∧ deref s 0 ⟨2000, 0⟩ = some (⟨6, 1⟩ : Demo.Val))) = true := by
    decide
  obtain ⟨s, hs, c⟩ := (Option.any_eq_true ..).mp h
  rw [decide_eq_true_eq] at c
  exact ⟨s, execWith_chaos hs .init, c⟩

end Pool

namespace Arc

/-! ### `ArcIntern` with an `Eq` that is not symmetric -/
namespace OneWay

/-- A type whose `Eq` is `≤` and whose `Hash` is constant. -/
structure Val where
  n : Nat
  deriving DecidableEq
instance : BEq Val := ⟨fun a b => decide (a.n ≤ b.n)⟩
instance : Hashable Val := ⟨fun _ => 0⟩

def cfg : Cfg Val := { kids := fun _ => [], shards := 1, pick := fun _ => 0, W := 2 ^ 64 }
theorem valid : cfg.Valid := ⟨fun _ => Nat.zero_lt_one, by decide⟩

/-- Intern 1 (at address 10), intern 0 (at address 20), drop the first handle. -/
def script : List (Act Val) :=
  [.spawn, .new 0 ⟨1⟩ false, .run 0 0, .run 0 10, .run 0 0, .run 0 0, .run 0 0, .run 0 0,
   .new 0 ⟨0⟩ false, .run 0 0, .run 0 20, .run 0 0, .run 0 0, .run 0 0, .run 0 0,
   .drop 0 10, .run 0 0, .run 0 0, .run 0 0]

end OneWay

/-- **C61 (negative part, `ArcIntern`), `Eq`.** One thread, two `new`, one `drop`, no panic, no overflow: the drop of the
last handle to one object removes and frees the *other* object (removal is by value, arc.rs:321-322), whose handle the client
still holds; reading through it is undefined behaviour. -/
theorem C61_arc_unlawful_eq_dangles : ∃ s p, Ins.exec OneWay.cfg init OneWay.script = .ok s ∧ Small OneWay.cfg s ∧
    p ∈ s.handles ∧ get s.heap p = none ∧ Ins.step OneWay.cfg s (.read 0 [p]) = .ub := by
  have h : (match Ins.exec OneWay.cfg init OneWay.script with
    | .ok s => decide (s.handles = [20] ∧ s.heap.map (·.1) = [10] ∧ (allHandles OneWay.cfg s).length < OneWay.cfg.W ∧
        get s.heap 20 = none) &&
      (match Ins.step OneWay.cfg s (.read 0 [20]) with | .ub => true | _ => false)
    | _ => false) = true := by decide
  split at h
  · rename_i s hs
    rw [Bool.and_eq_true, decide_eq_true_eq] at h
    obtain ⟨⟨h1, _, h3, h4⟩, h5⟩ := h
    refine ⟨s, 20, hs, small_of_length h3, by rw [h1]; exact List.mem_singleton_self _, h4, ?_⟩
    split at h5
    · rename_i e; exact e
    · cases h5
  · cases h

/-! ### `ArcIntern` with values changed through interior mutability -/
section
variable {V : Type}

/-- Actions of clients of a type with interior mutability. -/
inductive MutAct (V : Type) where
  | act (a : Act V)
  /-- an idle thread changes the value behind a handle the client holds. -/
  | store (t : Tid) (p : Addr) (v : V)

def mutStep [BEq V] [Hashable V] (cfg : Cfg V) (s : State V) : MutAct V → Res (State V)
  | .act a => Ins.step cfg s a
  | .store t p v => match s.threads[t]? with
    | none => .blocked
    | some th =>
      if th.isIdle && p ∈ s.handles then
        match get s.heap p with
        | none => .ub
        | some _ => .ok { s with heap := setData s.heap p v }
      else .blocked

def mutExec [BEq V] [Hashable V] (cfg : Cfg V) (s : State V) : List (MutAct V) → Res (State V)
  | [] => .ok s
  | a :: as => match mutStep cfg s a with
    | .ok s' => mutExec cfg s' as
    | .blocked => .blocked
    | .ub => .ub

/-- A whole uncontended `new(v)` that allocates at `a`. -/
def newAt (v : V) (a : Addr) : List (MutAct V) :=
  [.act (.new 0 v false), .act (.run 0 0), .act (.run 0 a), .act (.run 0 0), .act (.run 0 0), .act (.run 0 0), .act (.run 0 0)]

/-- **C61 (negative part, `ArcIntern`), interior mutability.** For every type, with lawful `Eq` and `Hash`, and any two unequal
values `v`, `w` of it: intern `v` (box 1), intern `w` (box 2), overwrite the first value with `w` through its handle, drop that
handle. This frees box 2, whose handle the client still holds, and reading through that handle is undefined behaviour. -/
theorem C61_arc_interior_mutability_dangles [BEq V] [Hashable V] [EquivBEq V] [LawfulHashable V] {cfg : Cfg V} (hc : cfg.Valid)
    {v w : V} (hv : cfg.kids v = []) (hw : cfg.kids w = []) (hne : (v == w) = false) :
    ∃ s, mutExec cfg init ([.act .spawn] ++ newAt v 1 ++ newAt w 2 ++
        [.store 0 1 w, .act (.drop 0 1), .act (.run 0 0), .act (.run 0 0), .act (.run 0 0)]) = .ok s ∧
      s.handles = [2] ∧ Small cfg s ∧ Ins.step cfg s (.read 0 [2]) = .ub := by
  have hkey : keyEq v w = false := by simp [keyEq, hne]
  have hkey' : keyEq w w = true := by simp [keyEq]
  have hkey'' : keyEq v v = true := by simp [keyEq]
  have hdec : cfg.dec 1 = 0 := by
    have := hc.W_ge
    unfold Cfg.dec
    rw [show 1 + (cfg.W - 1) = cfg.W by omega, Nat.mod_self]
  by_cases hs : cfg.shardOf w = cfg.shardOf v <;>
  simp [hs, mutExec, mutStep, newAt, Ins.step, Ins.run, Ins.insert, step, init, Thread.isIdle, ownsAll, hv, hw, eraseAll, run, State.setThread, tableOk, find,
    keys, get, State.lock, State.unlock, hkey, hkey', hkey'', setData, setCount, hdec, free, borrow, follow]
  all_goals
    refine small_of_length ?_
    have := hc.W_ge
    simp [allHandles, hw, Thread.owned, Pc.owned, storedHandles]
    omega

/-- Such values exist. -/
example : ∃ s : State Val, mutExec demoCfg init ([.act .spawn] ++ newAt { key := 1 } 1 ++ newAt { key := 2 } 2 ++
        [.store 0 1 { key := 2 }, .act (.drop 0 1), .act (.run 0 0), .act (.run 0 0), .act (.run 0 0)]) = .ok s ∧
      s.handles = [2] ∧ Small demoCfg s ∧ Ins.step demoCfg s (.read 0 [2]) = .ub :=
  C61_arc_interior_mutability_dangles demoCfg_valid rfl rfl (by decide)
end
end Arc
