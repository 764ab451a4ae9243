import Verif.Client.ArcAble
import Verif.Client.NewAble
import Verif.Client.ManyAble
import Verif.Client.AbleEval
import Verif.Props.TransparentMany
/-
C92: whatever a program can do with values, it can also do with handles. The converse of C90 and C91: interning refuses nothing, blocks nothing
for ever, and rules out no order in which threads can work.
-/
namespace Client
open Traits (Methods)

section
variable {V R : Type} [BEq V] [Hashable V] [EquivBEq V] [LawfulHashable V] {M : Methods V} {ps : List (Prog V R)} {m : Nat}

/-- **C92** for `ArcIntern`: if the values contain no handles themselves, no other thread is inside a call, no removal has been abandoned by a
panic (C20), and the program never owns so many values at a time that a counter could overflow. -/
theorem C92_arc {cfg : Arc.Cfg V} (hv : cfg.Valid) (hk : ∀ v, cfg.kids v = []) (hM : M.Lawful) {w : World (arc cfg) R} (h : Starts ps m w)
    (hnd : Src.ArcHeld.ReachND cfg w.state) (hq : Src.ArcNest.Quiet w.state.base) {N : Nat}
    (hW : w.state.base.handles.length + N + 4 < cfg.W) (hp : ∀ g ∈ ps, g.Plain fun _ => True) {c : Conf V R V}
    (hr : VRunUpTo M N (start ps m) c) : ∃ w', WRun M w w' ∧ w'.conf.progs = c.progs ∧ Same w' c :=
  achieves (arc_laws hv) hM (arc_able hv hk N) h ⟨hnd, hq, hW⟩ hp hr

end

section
variable {K V R : Type} [DecidableEq K] [BEq V] [Hashable V] [EquivBEq V] [LawfulHashable V] {M : Methods (K × V)} {ps : List (Prog (K × V) R)}
  {m : Nat}

/-- **C92** for the `Intern`s and the arenas in `ks`: if no other thread is inside a call. -/
theorem C92_pools {cfg : Pool.Cfg K V} (lay : cfg.Layout) {ks : K → Prop} (hM : M.Lawful) {w : World (pools cfg ks) R} (h : Starts ps m w)
    (hq : Src.PoolCode.Quiet w.state) (hp : ∀ g ∈ ps, g.Plain fun x => ks x.1) {c : Conf (K × V) R (K × V)} (hr : VRun M (start ps m) c) :
    ∃ w', WRun M w w' ∧ w'.conf.progs = c.progs ∧ Same w' c :=
  hr.upTo.elim fun N hr => achieves (pools_laws lay) hM (pools_able lay N) h hq hp hr

/-- **C92** for the `Intern`s of typearena.rs: if no other thread is inside a call, and no mutex of a type that the program uses is poisoned
(C47). -/
theorem C92_newInterns {cfg : Src.NewCode.Cfg K V} (lay : cfg.Layout) {ks : K → Prop} (hM : M.Lawful) {w : World (newInterns cfg) R}
    (h : Starts ps m w) (hq : Src.NewCode.Quiet w.state) (hn : ∀ k, ks k → ¬ Src.NewCode.Poisoned cfg w.state k)
    (hp : ∀ g ∈ ps, g.Plain fun x => ks x.1) {c : Conf (K × V) R (K × V)} (hr : VRun M (start ps m) c) :
    ∃ w', WRun M w w' ∧ w'.conf.progs = c.progs ∧ Same w' c :=
  hr.upTo.elim fun N hr => achieves (newInterns_laws lay) hM (newInterns_able lay ks N) h ⟨hq, hn⟩ hp hr

end

section
variable {A B K L V W R : Type} [DecidableEq K] [DecidableEq L] [BEq A] [Hashable A] [BEq B] [Hashable B] [BEq V] [Hashable V] [BEq W] [Hashable W]

/-- Nothing is in the way of a program that uses all these interners, and owns at most `N` handles at a time. -/
structure Clear (a : Arc.Cfg A) (b : Arc.Cfg B) (n : Src.NewCode.Cfg L W) (ls : L → Prop) (N : Nat) (x : Src.ArcHeld.State A)
    (y : Src.ArcHeld.State B) (s : Src.PoolCode.State K V) (u : Src.NewCode.State L W) : Prop where
  /-- the values that are reference-counted contain no handles. -/
  plainA : ∀ v, a.kids v = []
  plainB : ∀ v, b.kids v = []
  /-- no removal has been abandoned by a panic (C20). -/
  neverA : Src.ArcHeld.ReachND a x
  neverB : Src.ArcHeld.ReachND b y
  /-- nobody is inside a call. -/
  quietA : Src.ArcNest.Quiet x.base
  quietB : Src.ArcNest.Quiet y.base
  quietP : Src.PoolCode.Quiet s
  quietN : Src.NewCode.Quiet u
  /-- reference counters have room. -/
  roomA : x.base.handles.length + N + 4 < a.W
  roomB : y.base.handles.length + N + 4 < b.W
  /-- the types of typearena.rs that the program uses are not poisoned (C47). -/
  whole : ∀ k, ls k → ¬ Src.NewCode.Poisoned n u k

/-- The values that the program interns are in arenas that exist, and in types that are not poisoned. -/
def served (ks : K → Prop) (ls : L → Prop) : ((A ⊕ B) ⊕ ((K × V) ⊕ (L × W))) → Prop
  | .inl _ => True
  | .inr (.inl x) => ks x.1
  | .inr (.inr x) => ls x.1

variable [EquivBEq A] [LawfulHashable A] [EquivBEq B] [LawfulHashable B] [EquivBEq V] [LawfulHashable V] [EquivBEq W] [LawfulHashable W]
  {a : Arc.Cfg A} {b : Arc.Cfg B} {p : Pool.Cfg K V} {ks : K → Prop} {n : Src.NewCode.Cfg L W} {ls : L → Prop}
  {M : Methods ((A ⊕ B) ⊕ ((K × V) ⊕ (L × W)))} {ps : List (Prog ((A ⊕ B) ⊕ ((K × V) ⊕ (L × W))) R)} {m : Nat}
  {w : World (everything a b p ks n) R}

/-- **C92** for programs that use all of them at once. -/
theorem C92_everything (ha : a.Valid) (hb : b.Valid) (hp : p.Layout) (hn : n.Layout) (hM : M.Lawful) (h : Starts ps m w) {N : Nat}
    (hc : Clear (K := K) (V := V) a b n ls N w.state.fst.fst w.state.fst.snd w.state.snd.fst w.state.snd.snd)
    (hg : ∀ g ∈ ps, g.Plain (served ks ls)) {c : Conf _ R ((A ⊕ B) ⊕ ((K × V) ⊕ (L × W)))} (hr : VRunUpTo M N (start ps m) c) :
    ∃ w', WRun M w w' ∧ w'.conf.progs = c.progs ∧ Same w' c := by
  refine achieves (prod_laws (prod_laws (arc_laws ha) (arc_laws hb)) (prod_laws (pools_laws hp) (newInterns_laws hn))) hM
    (prod_able (prod_laws (arc_laws ha) (arc_laws hb)) (prod_laws (pools_laws hp) (newInterns_laws hn))
      (prod_able (arc_laws ha) (arc_laws hb) (arc_able ha hc.plainA N) (arc_able hb hc.plainB N))
      (prod_able (pools_laws hp) (newInterns_laws hn) (pools_able hp N) (newInterns_able hn ls N))) h
    ⟨⟨⟨hc.neverA, hc.quietA, hc.roomA⟩, hc.neverB, hc.quietB, hc.roomB⟩, hc.quietP, hc.quietN, hc.whole⟩ ?_ hr
  have : served ks ls = Sum.elim (Sum.elim (fun _ : A => True) fun _ : B => True) (Sum.elim (fun x : K × V => ks x.1) fun x : L × W => ls x.1) := by
    funext x; rcases x with (_ | _) | (_ | _) <;> rfl
  rwa [← this]

/-- **C92**: a thread that neither sends nor receives can get to its result, the one computed with values (by C91, to no other). -/
theorem C92_result (ha : a.Valid) (hb : b.Valid) (hp : p.Layout) (hn : n.Layout) (hM : M.Lawful) (h : Starts ps m w) {N : Nat}
    (hc : Clear (K := K) (V := V) a b n ls N w.state.fst.fst w.state.fst.snd w.state.snd.fst w.state.snd.snd)
    (hg : ∀ g ∈ ps, g.Plain (served ks ls)) {t : Nat} {g : Prog ((A ⊕ B) ⊕ ((K × V) ⊕ (L × W))) R} (ht : ps[t]? = some g) (hm : g.Makes N)
    {r : R} (he : g.eval M [] = some r) : ∃ w', WRun M w w' ∧ w'.conf.progs[t]? = some (.done r) := by
  obtain ⟨c, h1, h2⟩ := eval_start (M := M) (m := m) ht hm he
  obtain ⟨w', h3, h4, _⟩ := C92_everything ha hb hp hn hM h hc hg h1
  exact ⟨w', h3, h4 ▸ h2⟩

end

/-! ### The hypotheses are met -/

section
open Src.NewCode (dcfg dlayout)

/-- As `Arc.demoCfg`, for values without handles. -/
def flatCfg : Arc.Cfg Arc.Val := { Arc.demoCfg with kids := fun _ => [] }

theorem flatCfg_valid : flatCfg.Valid := ⟨Arc.demoCfg_valid.pick_lt, Arc.demoCfg_valid.W_ge⟩

abbrev demoFlat := everything flatCfg flatCfg Pool.Demo.cfg (· ∈ [0, 1, 2]) dcfg

/-- Three threads. -/
def threeArcs : Src.ArcHeld.State Arc.Val := { base := { Src.ArcNest.init with threads := [[], [], []] }, held := [] }

theorem threeArcs_reach : Src.ArcHeld.ReachND flatCfg threeArcs :=
  have f : ∀ n : Nat, Src.ArcNest.Few flatCfg { (Src.ArcNest.init : Src.ArcNest.State Arc.Val) with threads := List.replicate n [] } := by
    intro n p
    have : ∀ n : Nat, Src.ArcNest.mentions flatCfg { (Src.ArcNest.init : Src.ArcNest.State Arc.Val) with threads := List.replicate n [] } = [] := by
      intro n; simp [Src.ArcNest.mentions, Src.ArcNest.init, Arc.storedHandles]
    rw [this]
    exact Nat.lt_of_lt_of_le (by decide : 0 < 2) flatCfg_valid.W_ge
  .step (act := .act .spawn) (.step (act := .act .spawn) (.step (act := .act .spawn) .init (by intro h; exact h) rfl (f 1)) (by intro h; exact h) rfl (f 2))
    (by intro h; exact h) rfl (f 3)

/-- Thread 0 sends a handle to thread 1, after it has interned in another interner. -/
def giver : Prog AnyVal Nat := .intern (.inl (.inl ⟨5, 1, []⟩)) (.intern (.inr (.inr (1, ⟨7, 1⟩))) (.give 0 0 (.done 0)))

/-- Thread 1 receives the handle, clones it, drops the original and reads the clone. -/
def taker : Prog AnyVal Nat := .take 0 (.clone 0 (.drop 0 (.read 1 fun x => .done x.number)))

/-- Thread 2 works alone. -/
def single : Prog AnyVal Nat :=
  .intern (.inl (.inr ⟨5, 3, []⟩)) (.intern (.inr (.inl (2, ⟨6, 4⟩))) (.cmp 0 1 fun o => .read 1 fun x => .done (x.number + if o = .lt then 1 else 0)))

theorem plains : ∀ g ∈ [giver, taker, single], g.Plain (served (· ∈ [0, 1, 2]) fun _ => True) := by
  intro g hg
  rcases List.mem_cons.mp hg with rfl | hg
  · exact .intern trivial (.intern trivial (.give (.done _)))
  rcases List.mem_cons.mp hg with rfl | hg
  · exact .take (.clone (.drop (.read (fun _ => .done _) fun x y h => by rw [AnyVal.number_eq h])))
  rcases List.mem_cons.mp hg with rfl | hg
  · refine .intern trivial (.intern ?_ (.cmp fun _ => .read (fun _ => .done _) fun x y h => by rw [AnyVal.number_eq h]))
    show (2 : Nat) ∈ [0, 1, 2]
    decide
  · cases hg

def flatStart : World demoFlat Nat where
  state := ⟨⟨threeArcs, threeArcs, []⟩, ⟨Src.PoolCode.demo [.spawn, .spawn, .spawn], Src.NewCode.demo [.spawn, .spawn, .spawn], []⟩, []⟩
  conf := start [giver, taker, single] 1

theorem flatStart_starts : Starts [giver, taker, single] 1 flatStart where
  conf := rfl
  reach := ⟨⟨threeArcs_reach.reach, threeArcs_reach.reach, fun _ => ⟨fun h => (by cases h), fun h => (by cases h)⟩⟩,
    ⟨Src.PoolCode.demo_reach (l := [.spawn, .spawn, .spawn]) (by decide +kernel),
      Src.NewCode.demo_reach (l := [.spawn, .spawn, .spawn]) (by decide +kernel), fun _ => ⟨fun h => (by cases h), fun h => (by cases h)⟩⟩,
    fun _ => ⟨fun h => (by cases h), fun h => (by cases h)⟩⟩
  owns := by
    refine ⟨⟨fun _ => Nat.zero_le _, fun _ => Nat.zero_le _⟩, ⟨fun k _ => ?_, fun _ h => (Nat.lt_irrefl _ h).elim⟩,
      fun _ h => (Nat.lt_irrefl _ h).elim⟩
    have : (Src.PoolCode.demo [.spawn, .spawn, .spawn]).gone = [] := by decide +kernel
    show k ∉ (Src.PoolCode.demo [.spawn, .spawn, .spawn]).gone
    rw [this]; exact List.not_mem_nil
  idle := by
    intro t ht
    have h1 : ∀ t < 3, empty (threeArcs.base.threads[t]?) = true := by decide +kernel
    have h2 : ∀ t < 3, empty ((Src.PoolCode.demo [.spawn, .spawn, .spawn]).threads[t]?) = true := by decide +kernel
    have h3 : ∀ t < 3, empty ((Src.NewCode.demo [.spawn, .spawn, .spawn]).threads[t]?) = true := by decide +kernel
    exact ⟨⟨empty_iff.mp (h1 t ht), empty_iff.mp (h1 t ht)⟩, empty_iff.mp (h2 t ht), empty_iff.mp (h3 t ht)⟩

theorem flatStart_clear : Clear (K := Nat) (V := Pool.Demo.Val) flatCfg flatCfg dcfg (fun _ => True) 1000 flatStart.state.fst.fst
    flatStart.state.fst.snd flatStart.state.snd.fst flatStart.state.snd.snd where
  plainA _ := rfl
  plainB _ := rfl
  neverA := threeArcs_reach
  neverB := threeArcs_reach
  quietA := by intro cs h; have h : cs ∈ [[], [], []] := h; simpa using h
  quietB := by intro cs h; have h : cs ∈ [[], [], []] := h; simpa using h
  quietP := by
    intro cs h
    have : ∀ cs ∈ (Src.PoolCode.demo [.spawn, .spawn, .spawn]).threads, cs.isEmpty = true := by decide +kernel
    exact List.isEmpty_iff.mp (this cs h)
  quietN := by
    intro cs h
    have : ∀ cs ∈ (Src.NewCode.demo [.spawn, .spawn, .spawn]).threads, cs.isEmpty = true := by decide +kernel
    exact List.isEmpty_iff.mp (this cs h)
  roomA := by decide +kernel
  roomB := by decide +kernel
  whole k _ := by
    rintro ⟨c, h, _⟩
    have e : Src.NewCode.demo [.spawn, .spawn, .spawn] = { Src.NewCode.init with threads := [[], [], []] } := rfl
    have h : Src.NewCode.tableOf dcfg (Src.NewCode.demo [.spawn, .spawn, .spawn]) k = some c := h
    rw [e] at h
    simp [Src.NewCode.tableOf, Src.NewCode.init] at h

/-- An execution with values: thread 0 has sent its value, and thread 1 is about to read it. -/
def sentConf : Conf AnyVal Nat AnyVal where
  threads := [⟨.done 0, [none, some (.inr (.inr (1, ⟨7, 1⟩)))], .own⟩,
    ⟨.read 1 fun x => .done x.number, [none, some (.inl (.inl ⟨5, 1, []⟩))], .own⟩, ⟨single, [], .own⟩]
  queues := [[]]

theorem sent_run : VRunUpTo anyMethods 1000 (start [giver, taker, single] 1) sentConf := by
  have h5 := VRunUpTo.step (M := anyMethods) (N := 1000) (.step (.step (.step (.step (.refl (c := start [giver, taker, single] 1))
    (.intern (t := 0) rfl rfl) (by decide)) (.intern (t := 0) rfl rfl) (by decide)) (.look (t := 0) rfl (.give rfl rfl rfl)) (by decide))
    (.look (t := 1) rfl (.take rfl rfl)) (by decide)) (.clone (t := 1) rfl rfl rfl) (by decide)
  have h6 := h5.step (.drop (t := 1) rfl rfl rfl) (by decide)
  exact h6

/-- Handles can do the same. -/
example : ∃ w', WRun anyMethods flatStart w' ∧ w'.conf.progs = sentConf.progs ∧ Same w' sentConf :=
  C92_everything flatCfg_valid flatCfg_valid Pool.Demo.layout dlayout anyMethods_lawful flatStart_starts flatStart_clear plains sent_run

/-- Thread 2 can get to its result. -/
example : single.eval anyMethods [] = some 7 ∧ ∃ w', WRun anyMethods flatStart w' ∧ w'.conf.progs[2]? = some (.done 7) :=
  ⟨by decide +kernel, C92_result flatCfg_valid flatCfg_valid Pool.Demo.layout dlayout anyMethods_lawful flatStart_starts flatStart_clear plains rfl
    (.intern (.intern (.cmp fun _ => .read fun _ => .done _))) (by decide +kernel)⟩

end
end Client
