import Verif.Client.CopyAble
import Verif.Props.HashConsCopy
/-
C97: whatever a program can do with trees, it can also do with handles that are `Copy`. The converse of C96: interning refuses no node, blocks
nothing for ever, and rules out no order in which threads can work.
-/
namespace Client.Copy
open Arc (Tree)
open Pool (Ptr)

section
variable {L R : Type} [BEq L] [LawfulBEq L] [Hashable (Node L Ptr)] {ps : List (Prog L R)} {n : Nat} {K : Type} [DecidableEq K] {k : K}

/-- **C97** for `Intern` and `ArenaIntern`: if nobody is inside a call when the program starts. -/
theorem C97_pool {cfg : Pool.Cfg K (Node L Ptr)} (lay : cfg.Layout) {w : World (pool cfg k) R} (h : Starts ps n w)
    (hq : Src.PoolCode.Quiet w.state) {c : Conf L R (Tree L)} (hr : VRun (start ps n) c) :
    ∃ w', WRun w w' ∧ w'.conf.progs = c.progs ∧ Same w' c :=
  achieves (pool_laws lay) pool_copies (pool_news lay) h hq hr

/-- **C97** for `Intern` and `ArenaIntern`: a thread that neither sends nor receives can get to its result, the one computed with trees (by C96,
to no other). -/
theorem C97_pool_result {cfg : Pool.Cfg K (Node L Ptr)} (lay : cfg.Layout) {w : World (pool cfg k) R} (h : Starts ps n w)
    (hq : Src.PoolCode.Quiet w.state) {t : Nat} {g : Prog L R} (hg : ps[t]? = some g) {r : R} (he : g.eval [] = some r) :
    ∃ w', WRun w w' ∧ w'.conf.progs[t]? = some (.done r) :=
  achieves_result (pool_laws lay) pool_copies (pool_news lay) h hq hg he

/-- **C97** for the `Intern` of typearena.rs: if nobody is inside a call, and the mutex of the type is not poisoned (C47). -/
theorem C97_new {cfg : Src.NewCode.Cfg K (Node L Ptr)} (lay : cfg.Layout) {w : World (newIntern cfg k) R} (h : Starts ps n w)
    (hq : Src.NewCode.Quiet w.state) (hp : ¬ Src.NewCode.Poisoned cfg w.state k) {c : Conf L R (Tree L)} (hr : VRun (start ps n) c) :
    ∃ w', WRun w w' ∧ w'.conf.progs = c.progs ∧ Same w' c :=
  achieves (new_laws lay) new_copies (new_news lay) h ⟨hq, hp⟩ hr

/-- **C97** for the `Intern` of typearena.rs: the result computed with trees can be reached. -/
theorem C97_new_result {cfg : Src.NewCode.Cfg K (Node L Ptr)} (lay : cfg.Layout) {w : World (newIntern cfg k) R} (h : Starts ps n w)
    (hq : Src.NewCode.Quiet w.state) (hp : ¬ Src.NewCode.Poisoned cfg w.state k) {t : Nat} {g : Prog L R} (hg : ps[t]? = some g) {r : R}
    (he : g.eval [] = some r) : ∃ w', WRun w w' ∧ w'.conf.progs[t]? = some (.done r) :=
  achieves_result (new_laws lay) new_copies (new_news lay) h ⟨hq, hp⟩ hg he

end

/-! ### The hypotheses are met -/

section

theorem fourPool_quiet : Src.PoolCode.Quiet fourPool := by
  intro cs h
  have : ∀ cs ∈ fourPool.threads, cs.isEmpty = true := by decide +kernel
  exact List.isEmpty_iff.mp (this cs h)

theorem fourNew_quiet : Src.NewCode.Quiet fourNew := by
  intro cs h
  have : ∀ cs ∈ fourNew.threads, cs.isEmpty = true := by decide +kernel
  exact List.isEmpty_iff.mp (this cs h)

theorem fourNew_whole (k : Nat) : ¬ Src.NewCode.Poisoned ncfg fourNew k := by
  rintro ⟨c, h, _⟩
  have e : fourNew = { Src.NewCode.init with threads := [[], [], [], []] } := rfl
  rw [e] at h
  simp [Src.NewCode.tableOf, Src.NewCode.init] at h

/-- What happened with the `Intern` of typearena.rs in the example for C96 can happen with an `Intern` and with an arena, too. -/
example (k : Nat) : ∃ w', WRun (poolStart k) w' ∧ w'.conf.results = [some (false, false, 0), some (true, true, 22), some (false, true, 21)] := by
  obtain ⟨c, h1, h2, _⟩ := C96_new_refines (w' := newEnd) nlayout newStart_starts (after_run ..)
  obtain ⟨w', h3, h4, _⟩ := C97_pool playout (poolStart_starts (k := k)) fourPool_quiet h1
  refine ⟨w', h3, ?_⟩
  have h : newEnd.conf.results = [some (false, false, 0), some (true, true, 22), some (false, true, 21)] := by decide +kernel
  rw [← h]
  simp only [Conf.results, h4, h2]

/-- And the other way. -/
example : ∃ w', WRun newStart w' ∧ w'.conf.results = [some (false, false, 0), some (true, true, 22), some (false, true, 21)] := by
  obtain ⟨c, h1, h2, _⟩ := C96_pool_refines (w' := poolEnd 2) playout poolStart_starts (after_run ..)
  obtain ⟨w', h3, h4, _⟩ := C97_new nlayout newStart_starts fourNew_quiet (fourNew_whole 0) h1
  refine ⟨w', h3, ?_⟩
  have h : (poolEnd 2).conf.results = [some (false, false, 0), some (true, true, 22), some (false, true, 21)] := by decide +kernel
  rw [← h]
  simp only [Conf.results, h4, h2]

/-- A thread that works alone gets to its result. -/
example : loner.eval [] = some (false, true, 21) ∧ (∃ w', WRun (poolStart 2) w' ∧ w'.conf.progs[2]? = some (.done (false, true, 21))) ∧
    ∃ w', WRun newStart w' ∧ w'.conf.progs[2]? = some (.done (false, true, 21)) :=
  ⟨rfl, C97_pool_result playout poolStart_starts fourPool_quiet (t := 2) rfl rfl,
    C97_new_result nlayout newStart_starts fourNew_quiet (fourNew_whole 0) (t := 2) rfl rfl⟩

end
end Client.Copy
