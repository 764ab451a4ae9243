import Verif.Client.ArcLaws
import Verif.Client.PoolLaws
import Verif.Client.Demo
/-
C90: handles can be used in place of values. A program with any number of threads, which interns values, clones, drops, compares and reads
handles, and sends them to other threads, does only what the same program could do if it kept the values themselves.

`Verif/Client/Lang.lean` has the programs, their executions with values (`VRun`) and with an interner (`WRun`), and the words that are used
here. The interners are the functions as they are written, with user code that calls them too, other parts of the process that use them, and
panics. `M.Lawful` (C40): the order of the values agrees with `==`.
-/
namespace Client
open Traits (Methods)

section
variable {V R : Type} [BEq V] [Hashable V] [EquivBEq V] [LawfulHashable V] {M : Methods V} {ps : List (Prog V R)} {n : Nat}

/-! ### `ArcIntern` -/

section
variable {cfg : Arc.Cfg V} {w w' : World (arc cfg) R}

/-- **C90, `ArcIntern`**: for every execution there is one of the same program with values, in which all threads have got to the same place in
their code, and all variables and all that was sent correspond. -/
theorem C90_arc_refines (hv : cfg.Valid) (hM : M.Lawful) (h : Starts ps n w) (hr : WRun M w w') :
    ∃ c, VRun M (start ps n) c ∧ c.progs = w'.conf.progs ∧ Same w' c :=
  refines (arc_laws hv) hM h hr

/-- **C90, `ArcIntern`**: the result of a thread that neither sends nor receives is the result computed with values, whatever the rest of the
process does. -/
theorem C90_arc_result (hv : cfg.Valid) (hM : M.Lawful) (h : Starts ps n w) (hr : WRun M w w') {t : Nat} {p : Prog V R} (hp : ps[t]? = some p)
    (ha : p.Alone) {r : R} (hd : w'.conf.progs[t]? = some (.done r)) : p.eval M [] = some r :=
  evaluates (arc_laws hv) hM h hr hp ha hd

/-- **C90, `ArcIntern`**: comparing and reading always works for handles that a thread has. -/
theorem C90_arc_usable (hv : cfg.Valid) (hM : M.Lawful) (h : Starts ps n w) (hr : WRun M w w') {t : Nat} {th : Thread V R Arc.Addr}
    (ht : w'.conf.threads[t]? = some th) (hu : th.usable) :
    ∃ th', Look ((arc cfg).view M w'.state) th w'.conf.queues th' w'.conf.queues :=
  usable_looks (arc_laws hv) hM h hr ht hu

end

/-! ### `Intern`, `ArenaIntern` -/

section
variable {K : Type} [DecidableEq K] {cfg : Pool.Cfg K V} {k : K} {w w' : World (pool cfg k) R}

/-- **C90, `Intern` and `ArenaIntern`**: for every execution there is one of the same program with values. -/
theorem C90_pool_refines (lay : cfg.Layout) (hM : M.Lawful) (h : Starts ps n w) (hr : WRun M w w') :
    ∃ c, VRun M (start ps n) c ∧ c.progs = w'.conf.progs ∧ Same w' c :=
  refines (pool_laws lay) hM h hr

/-- **C90, `Intern` and `ArenaIntern`**: the result of a thread is the result computed with values. -/
theorem C90_pool_result (lay : cfg.Layout) (hM : M.Lawful) (h : Starts ps n w) (hr : WRun M w w') {t : Nat} {p : Prog V R}
    (hp : ps[t]? = some p) (ha : p.Alone) {r : R} (hd : w'.conf.progs[t]? = some (.done r)) : p.eval M [] = some r :=
  evaluates (pool_laws lay) hM h hr hp ha hd

/-- **C90, `Intern` and `ArenaIntern`**: comparing and reading always works. -/
theorem C90_pool_usable (lay : cfg.Layout) (hM : M.Lawful) (h : Starts ps n w) (hr : WRun M w w') {t : Nat} {th : Thread V R Pool.Ptr}
    (ht : w'.conf.threads[t]? = some th) (hu : th.usable) :
    ∃ th', Look ((pool cfg k).view M w'.state) th w'.conf.queues th' w'.conf.queues :=
  usable_looks (pool_laws lay) hM h hr ht hu

end

/-! ### The `Intern` of typearena.rs -/

section
variable {K : Type} [DecidableEq K] {cfg : Src.NewCode.Cfg K V} {k : K} {w w' : World (newIntern cfg k) R}

/-- **C90, typearena.rs**: for every execution there is one of the same program with values. -/
theorem C90_new_refines (lay : cfg.Layout) (hM : M.Lawful) (h : Starts ps n w) (hr : WRun M w w') :
    ∃ c, VRun M (start ps n) c ∧ c.progs = w'.conf.progs ∧ Same w' c :=
  refines (new_laws lay) hM h hr

/-- **C90, typearena.rs**: the result of a thread is the result computed with values. -/
theorem C90_new_result (lay : cfg.Layout) (hM : M.Lawful) (h : Starts ps n w) (hr : WRun M w w') {t : Nat} {p : Prog V R}
    (hp : ps[t]? = some p) (ha : p.Alone) {r : R} (hd : w'.conf.progs[t]? = some (.done r)) : p.eval M [] = some r :=
  evaluates (new_laws lay) hM h hr hp ha hd

/-- **C90, typearena.rs**: comparing and reading always works. -/
theorem C90_new_usable (lay : cfg.Layout) (hM : M.Lawful) (h : Starts ps n w) (hr : WRun M w w') {t : Nat} {th : Thread V R Pool.Ptr}
    (ht : w'.conf.threads[t]? = some th) (hu : th.usable) :
    ∃ th', Look ((newIntern cfg k).view M w'.state) th w'.conf.queues th' w'.conf.queues :=
  usable_looks (new_laws lay) hM h hr ht hu

end
end

/-! ### The hypotheses are met -/

/-- The results of the threads that have ended. -/
def Conf.results {V R H : Type} (c : Conf V R H) : List (Option R) := c.threads.map fun th => match th.prog with
  | .done r => some r
  | _ => none

theorem results_done {V R H : Type} {c : Conf V R H} {t : Nat} {r : R} (h : c.results[t]? = some (some r)) : c.progs[t]? = some (.done r) := by
  simp only [Conf.results, Conf.progs, List.getElem?_map, Option.map_eq_some_iff] at h ⊢
  obtain ⟨th, h1, h2⟩ := h
  refine ⟨th, h1, ?_⟩
  split at h2
  · rename_i e
    rw [e]; simp_all
  · cases h2

section
open Arc (demoCfg)

/-- Thread 0 interns a value, clones the handle, drops one and sends the other. -/
def sender : Prog Arc.Val (Bool × Ordering × Nat) := .intern ⟨5, 1, []⟩ (.clone 0 (.drop 0 (.give 0 1 (.done (false, .lt, 0)))))

/-- Thread 1 interns an equal value, receives a handle, and compares both. -/
def receiver : Prog Arc.Val (Bool × Ordering × Nat) :=
  .intern ⟨5, 2, []⟩ (.take 0 (.eq 0 1 fun b => .cmp 0 1 fun o => .read 1 fun x => .done (b, o, x.key)))

/-- Thread 2 works alone: it interns two different values. -/
def loner : Prog Arc.Val (Bool × Ordering × Nat) :=
  .intern ⟨6, 1, []⟩ (.intern ⟨5, 3, []⟩ (.eq 0 1 fun b => .cmp 0 1 fun o => .read 1 fun x => .done (b, o, x.key)))

theorem loner_alone : loner.Alone := by
  refine .intern (.intern (.eq fun b => .cmp fun o => .read (fun x => .done _) fun x y h => ?_))
  rw [Arc.Val.beq_iff] at h
  rw [h.1]

def arcStart : World (arc demoCfg) (Bool × Ordering × Nat) :=
  ⟨Src.ArcHeld.demo [.act .spawn, .act .spawn, .act .spawn], start [sender, receiver, loner] 1⟩

theorem arcStart_starts : Starts [sender, receiver, loner] 1 arcStart where
  conf := rfl
  reach := (Src.ArcHeld.demo_reach _).reach
  owns := fun _ => Nat.zero_le _
  idle := by
    intro t ht
    have : ∀ t < 3, empty (arcStart.state.base.threads[t]?) = true := by decide +kernel
    exact empty_iff.mp (this t ht)

def by_ (t a : Nat) : List (Src.ArcHeld.Act Arc.Val) := [.lock t, .act (.run t a)]

/-- All calls are made at the same time. -/
def arcEnd : World (arc demoCfg) (Bool × Ordering × Nat) := after arcMachine Traits.demoMethods arcStart
  [([], .call 0), ([], .call 1), ([], .call 2), (by_ 0 10, .ret 0 10), (by_ 1 20, .ret 1 20), ([], .clone 0), ([], .drop 0), (by_ 0 0, .dropped 0),
    ([], .look 0), ([], .look 1), (by_ 2 20, .ret 2 20), ([], .look 1), ([], .call 2), ([], .look 1), (by_ 2 30, .ret 2 30), ([], .look 1),
    ([], .look 2), ([], .look 2), ([], .look 2)]

/-- A program that ends, with the results that values would give. -/
example : Starts [sender, receiver, loner] 1 arcStart ∧ WRun Traits.demoMethods arcStart arcEnd ∧ Traits.demoMethods.Lawful ∧
    arcEnd.conf.results = [some (false, .lt, 0), some (true, .eq, 5), some (false, .gt, 5)] ∧
    loner.eval Traits.demoMethods [] = some (false, .gt, 5) :=
  ⟨arcStart_starts, after_run .., Traits.demoMethods_lawful, by decide +kernel,
    C90_arc_result Arc.demoCfg_valid Traits.demoMethods_lawful arcStart_starts (after_run ..) (t := 2) rfl loner_alone
      (results_done (c := arcEnd.conf) (by decide +kernel))⟩

/-- A thread between two looks. -/
example : ∃ th, (after arcMachine Traits.demoMethods arcStart [([], .call 2), (by_ 2 20, .ret 2 20), ([], .call 2), (by_ 2 30, .ret 2 30)]).conf.threads[2]? =
    some th ∧ th.usable :=
  ⟨⟨.eq 0 1 fun b => .cmp 0 1 fun o => .read 1 fun x => .done (b, o, x.key), [some 20, some 30], .own⟩, by rfl, ⟨20, rfl⟩, ⟨30, rfl⟩⟩

/-- A thread that keeps a value alive. -/
def keeper : Prog Arc.Val Nat := .intern ⟨5, 1, []⟩ (.read 0 fun x => .done x.tag)

/-- A thread that looks at a part of a value that `==` does not look at. -/
def curious : Prog Arc.Val Nat := .intern ⟨5, 2, []⟩ (.read 0 fun x => .done x.tag)

def tagStart : World (arc demoCfg) Nat := ⟨Src.ArcHeld.demo [.act .spawn, .act .spawn], start [keeper, curious] 0⟩

theorem tagStart_starts : Starts [keeper, curious] 0 tagStart where
  conf := rfl
  reach := (Src.ArcHeld.demo_reach _).reach
  owns := fun _ => Nat.zero_le _
  idle := by
    intro t ht
    have : ∀ t < 2, empty (tagStart.state.base.threads[t]?) = true := by decide +kernel
    exact empty_iff.mp (this t ht)

def tagEnd : World (arc demoCfg) Nat := after arcMachine Traits.demoMethods tagStart
  [([], .call 0), (by_ 0 10, .ret 0 10), ([], .call 1), (by_ 1 20, .ret 1 20), ([], .look 1)]

/-- **C90, why equal values may not be distinguished**: if they are, a thread can have another result than with values. -/
theorem C90_distinguishing : ∃ (ps : List (Prog Arc.Val Nat)) (n : Nat) (w w' : World (arc demoCfg) Nat) (p : Prog Arc.Val Nat) (r : Nat),
    Starts ps n w ∧ WRun Traits.demoMethods w w' ∧ ps[1]? = some p ∧ w'.conf.progs[1]? = some (.done r) ∧
    ∃ r', p.eval Traits.demoMethods [] = some r' ∧ r' ≠ r :=
  ⟨[keeper, curious], 0, tagStart, tagEnd, curious, 1, tagStart_starts, after_run .., rfl, results_done (c := tagEnd.conf) (by decide +kernel),
    2, rfl, by decide⟩

end

section
open Pool.Demo (cfg)

theorem poolMethods_lawful : poolMethods.Lawful where
  eq x y := by
    show compare x.cls y.cls = .eq ↔ (x.cls == y.cls) = true
    rw [Std.compare_eq_iff_eq, beq_iff_eq]
  swap x y := by
    show compare y.cls x.cls = (compare x.cls y.cls).swap
    rw [← Std.OrientedOrd.eq_swap]
  trans x y z h1 h2 := Std.TransCmp.lt_trans (cmp := compare) (a := x.cls) (b := y.cls) (c := z.cls) h1 h2
  partial_ x y := rfl
  lt x y := by simp [poolMethods]
  le x y := by simp [poolMethods]
  gt x y := by simp [poolMethods]
  ge x y := by simp [poolMethods]

/-- The same threads for the other interners. -/
def sender' : Prog Pool.Demo.Val (Bool × Ordering × Nat) := .intern ⟨5, 1⟩ (.clone 0 (.drop 0 (.give 0 1 (.done (false, .lt, 0)))))

def receiver' : Prog Pool.Demo.Val (Bool × Ordering × Nat) :=
  .intern ⟨5, 2⟩ (.take 0 (.eq 0 1 fun b => .cmp 0 1 fun o => .read 1 fun x => .done (b, o, x.cls)))

def loner' : Prog Pool.Demo.Val (Bool × Ordering × Nat) :=
  .intern ⟨6, 1⟩ (.intern ⟨5, 3⟩ (.eq 0 1 fun b => .cmp 0 1 fun o => .read 1 fun x => .done (b, o, x.cls)))

theorem loner'_alone : loner'.Alone := by
  refine .intern (.intern (.eq fun b => .cmp fun o => .read (fun x => .done _) fun x y h => ?_))
  have h : (x.cls == y.cls) = true := h
  rw [eq_of_beq h]

def poolStart (k : Nat) : World (pool cfg k) (Bool × Ordering × Nat) :=
  ⟨Src.PoolCode.demo [.spawn, .spawn, .spawn], start [sender', receiver', loner'] 1⟩

theorem poolStart_starts {k : Nat} : Starts [sender', receiver', loner'] 1 (poolStart k) where
  conf := rfl
  reach := Src.PoolCode.demo_reach (l := [.spawn, .spawn, .spawn]) (by decide +kernel)
  owns := ⟨by
    have : (Src.PoolCode.demo [.spawn, .spawn, .spawn]).gone = [] := by decide +kernel
    show k ∉ (Src.PoolCode.demo [.spawn, .spawn, .spawn]).gone
    rw [this]; exact List.not_mem_nil, fun _ h => (Nat.lt_irrefl _ h).elim⟩
  idle := by
    intro t ht
    have : ∀ t < 3, empty ((Src.PoolCode.demo [.spawn, .spawn, .spawn]).threads[t]?) = true := by decide +kernel
    exact empty_iff.mp (this t ht)

def poolEnd (k : Nat) : World (pool cfg k) (Bool × Ordering × Nat) := after (poolMachine k) poolMethods (poolStart k)
  [([], .call 0), ([], .call 1), ([], .call 2), ([.run 0 10], .ret 0 10), ([.run 1 20], .ret 1 20), ([], .clone 0), ([], .drop 0), ([], .dropped 0),
    ([], .look 0), ([], .look 1), ([.run 2 30], .ret 2 30), ([], .look 1), ([], .call 2), ([], .look 1), ([.run 2 40], .ret 2 40), ([], .look 1),
    ([], .look 2), ([], .look 2), ([], .look 2)]

/-- With an `Intern`, and with an arena. -/
example : ∀ k ∈ [0, 2], Starts [sender', receiver', loner'] 1 (poolStart k) ∧ WRun poolMethods (poolStart k) (poolEnd k) ∧ poolMethods.Lawful ∧
    (poolEnd k).conf.results = [some (false, .lt, 0), some (true, .eq, 5), some (false, .gt, 5)] ∧ loner'.eval poolMethods [] = some (false, .gt, 5) := by
  intro k hk
  have h : (poolEnd k).conf.results = [some (false, .lt, 0), some (true, .eq, 5), some (false, .gt, 5)] := by
    have : ∀ k ∈ [0, 2], (poolEnd k).conf.results = [some (false, .lt, 0), some (true, .eq, 5), some (false, .gt, 5)] := by decide +kernel
    exact this k hk
  exact ⟨poolStart_starts, after_run .., poolMethods_lawful, h,
    C90_pool_result Pool.Demo.layout poolMethods_lawful poolStart_starts (after_run ..) (t := 2) rfl loner'_alone
      (results_done (c := (poolEnd k).conf) (by rw [h]; rfl))⟩

open Src.NewCode (dcfg dlayout)

def newStart : World (newIntern dcfg 0) (Bool × Ordering × Nat) :=
  ⟨Src.NewCode.demo [.spawn, .spawn, .spawn], start [sender', receiver', loner'] 1⟩

theorem newStart_starts : Starts [sender', receiver', loner'] 1 newStart where
  conf := rfl
  reach := Src.NewCode.demo_reach (l := [.spawn, .spawn, .spawn]) (by decide +kernel)
  owns := fun _ h => (Nat.lt_irrefl _ h).elim
  idle := by
    intro t ht
    have : ∀ t < 3, empty ((Src.NewCode.demo [.spawn, .spawn, .spawn]).threads[t]?) = true := by decide +kernel
    exact empty_iff.mp (this t ht)

def in_ (t a : Nat) : List Src.NewCode.Cmd := [.run t a, .run t 0, .run t 1, .run t 2, .run t 3, .run t 4]

def newEnd : World (newIntern dcfg 0) (Bool × Ordering × Nat) := after (newMachine 0) poolMethods newStart
  [([], .call 0), ([], .call 1), ([], .call 2), (in_ 0 10, .ret 0 10), (in_ 1 20, .ret 1 20), ([], .clone 0), ([], .drop 0), ([], .dropped 0),
    ([], .look 0), ([], .look 1), (in_ 2 30, .ret 2 30), ([], .look 1), ([], .call 2), ([], .look 1), (in_ 2 40, .ret 2 40), ([], .look 1),
    ([], .look 2), ([], .look 2), ([], .look 2)]

/-- With the `Intern` of typearena.rs. -/
example : Starts [sender', receiver', loner'] 1 newStart ∧ WRun poolMethods newStart newEnd ∧
    newEnd.conf.results = [some (false, .lt, 0), some (true, .eq, 5), some (false, .gt, 5)] ∧ loner'.eval poolMethods [] = some (false, .gt, 5) :=
  ⟨newStart_starts, after_run .., by decide +kernel,
    C90_new_result dlayout poolMethods_lawful newStart_starts (after_run ..) (t := 2) rfl loner'_alone
      (results_done (c := newEnd.conf) (by decide +kernel))⟩

end
end Client
