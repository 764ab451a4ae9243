import Verif.Props.ArcSafety
import Verif.Props.ArcCalls
import Verif.Props.ArcProgress
/-!
C18–C20: where the guarantees of `ArcIntern` stop. C18: counter overflow. C19: a panic inside the table insertion.
C20: a final drop that does not complete.
-/
namespace Arc
variable {V : Type} [BEq V] [Hashable V] [EquivBEq V] [LawfulHashable V]

/-- One object, at address 1, with value `v`, counter `c` and `n` client handles; one idle thread. -/
def oneObject (cfg : Cfg V) (v : V) (n c : Nat) : State V :=
  { heap := [(1, ⟨c, v⟩)], table := [1],
    locks := fun j => if j = cfg.shardOf v then none else if j = cfg.shardOf v then some 0 else none,
    handles := List.replicate n 1, threads := [{}], zombies := [] }

/-- Thread 0 interns `v`, the allocator returning address 1, up to just before the table insertion. -/
def toInsert (v : V) : List (Act V) := [.spawn, .new 0 v false, .run 0 0, .run 0 1, .run 0 0]

omit [EquivBEq V] [LawfulHashable V] in
theorem exec_new {cfg : Cfg V} {v : V} (hk : cfg.kids v = []) :
    exec cfg init (toInsert v ++ [.run 0 0, .run 0 0, .run 0 0]) = .ok (oneObject cfg v 1 1) := by
  simp [toInsert, exec, step, init, Thread.isIdle, ownsAll, hk, eraseAll, run, State.setThread, tableOk, find, keys, get,
    State.lock, State.unlock, oneObject]

omit [EquivBEq V] [LawfulHashable V] in
theorem exec_clone {cfg : Cfg V} {v : V} (n c : Nat) :
    step cfg (oneObject cfg v (n + 1) c) (.clone 0 [1]) = .ok (oneObject cfg v (n + 2) (cfg.inc c)) := by
  simp [step, oneObject, Thread.isIdle, borrow, follow, get, setCount, List.replicate_succ]

omit [EquivBEq V] [LawfulHashable V] in
theorem exec_clones {cfg : Cfg V} {v : V} (m : Nat) : ∀ n c : Nat, c < cfg.W →
    exec cfg (oneObject cfg v (n + 1) c) (List.replicate m (.clone 0 [1])) =
      .ok (oneObject cfg v (n + 1 + m) ((c + m) % cfg.W)) := by
  induction m with
  | zero => intro n c h; simp [exec, Nat.mod_eq_of_lt h]
  | succ m ih =>
    intro n c h
    rw [List.replicate_succ, exec_cons (exec_clone n c), ih (n + 1) (cfg.inc c) (Nat.mod_lt _ (by omega))]
    have e1 : n + 1 + 1 + m = n + 1 + (m + 1) := by omega
    have e2 : (cfg.inc c + m) % cfg.W = (c + (m + 1)) % cfg.W := by
      unfold Cfg.inc; rw [Nat.mod_add_mod]; congr 1; omega
    rw [e1, e2]

omit [LawfulHashable V] in
theorem exec_last_drop {cfg : Cfg V} {v : V} (n : Nat) (hk : cfg.kids v = []) :
    ∃ s, exec cfg (oneObject cfg v (n + 1) 1) [.drop 0 1, .run 0 0, .run 0 0, .run 0 0] = .ok s ∧
      s.heap = [] ∧ s.handles = List.replicate n 1 ∧ s.threads = [{}] := by
  simp [exec, step, oneObject, Thread.isIdle, List.replicate_succ, State.setThread, run, get, setCount, tableOk, find, keyEq,
    hk, free]

/-- C18 (negative part). With a counter of any width `W` (2^64 on the usual targets): after one `new`, `W` clones
(`clone` never checks for overflow) and a single `drop`, the object is freed although `W` handles to it are still held
by the client, and the next use of any of them is a use after free. No user code panics; nothing runs concurrently. -/
theorem C18_overflow_use_after_free {cfg : Cfg V} (hv : cfg.Valid) {v : V} (hk : cfg.kids v = []) :
    ∃ s : State V,
      exec cfg init (toInsert v ++ [.run 0 0, .run 0 0, .run 0 0] ++ List.replicate cfg.W (.clone 0 [1]) ++
        [.drop 0 1, .run 0 0, .run 0 0, .run 0 0]) = .ok s ∧
      s.handles = List.replicate cfg.W 1 ∧ deref s 1 = none ∧ step cfg s (.read 0 [1]) = .ub := by
  have hW := hv.W_ge
  obtain ⟨s, h1, h2, h3, h4⟩ := exec_last_drop (cfg := cfg) (v := v) cfg.W hk
  refine ⟨s, ?_, h3, by simp [deref, h2, get], ?_⟩
  · have hc := exec_clones (cfg := cfg) (v := v) cfg.W 0 1 (by omega)
    have e : (1 + cfg.W) % cfg.W = 1 := by rw [Nat.add_mod_right]; exact Nat.mod_eq_of_lt (by omega)
    rw [e, Nat.zero_add, Nat.add_comm 1] at hc
    rw [exec_append, exec_append, exec_new hk]
    simp only [hc, h1]
  · simp [step, h4, Thread.isIdle, borrow, h3, follow, h2, get, List.mem_replicate, show cfg.W ≠ 0 by omega]

/-- C18 (positive part, the bound is exact): as long as no object has `W` handles at once, every guarantee holds; here the
two that C18 is about: no use after free, and counters never wrap (they are the number of handles). -/
theorem C18_below_overflow {cfg : Cfg V} (hv : cfg.Valid) {s : State V} (h : Reach cfg s) :
    (∀ act : Act V, act.Sane → step cfg s act ≠ .ub) ∧
    ∀ p ∈ allHandles cfg s, refcount s p = some ((allHandles cfg s).count p) ∧ (allHandles cfg s).count p < cfg.W :=
  ⟨fun act hs => C02_no_use_after_free hv h act hs,
   fun _ hp => ⟨C03_refcount_exact hv h hp, (reach_inv hv h).small _⟩⟩

example : demoCfg.Valid ∧ demoCfg.kids ⟨7, 0, []⟩ = [] ∧ demoCfg.W = 18446744073709551616 := ⟨demoCfg_valid, rfl, rfl⟩

omit [EquivBEq V] [LawfulHashable V] in
/-- C19. If user code panics inside `e.insert(())` (arc.rs:254) of the very first `new`, unwinding frees the box and then
drops the already created handle `p`: its next step, the decrement, touches freed memory. -/
theorem C19_panic_in_insert_use_after_free {cfg : Cfg V} {v : V} (hk : cfg.kids v = []) :
    ∃ s : State V, exec cfg init (toInsert v ++ [.panicInsert 0]) = .ok s ∧ ∀ a, step cfg s (.run 0 a) = .ub := by
  simp [toInsert, exec, step, init, Thread.isIdle, ownsAll, hk, eraseAll, run, State.setThread, tableOk, find, keys, get,
    State.lock, State.unlock, runPanicInsert, free]

/-- C19 (the other panic points). A panic of user code in any other place leaves the interner usable: the state after it is
reachable again in the sense of all other theorems, and neither it nor what follows touches freed memory. -/
theorem C19_other_panics_safe {cfg : Cfg V} (hv : cfg.Valid) {s s' : State V} (h : Reach cfg s) {t : Tid}
    (hp : step cfg s (.panic t) = .ok s') (hs : Small cfg s') :
    Reach cfg s' ∧ ∀ act : Act V, act.Sane → step cfg s' act ≠ .ub :=
  have hr : Reach cfg s' := .step h (by simp [Act.Sane]) hp hs
  ⟨hr, fun act ha => C02_no_use_after_free hv hr act ha⟩

/-- A panic in the lookup of `new`, in `entry`, and in the removal of `drop`. -/
example : ∃ s : State Val, Reach demoCfg s ∧ s.zombies = [10] ∧ ∃ as, (∃ s', exec demoCfg s as = .ok s' ∧ s'.table = [10]) ∧
    as = [.new 0 ⟨6, 0, []⟩ false, .panic 0, .new 0 ⟨6, 0, []⟩ false, r 0, r 0 11, .panic 0, r 0] :=
  ⟨demo [.spawn, .new 0 ⟨5, 1, []⟩ false, r 0, r 0 10, r 0, r 0, r 0, r 0, .drop 0 10, r 0, .panic 0], demo_reach (by decide),
   by decide, _, ⟨_, rfl, by decide⟩, rfl⟩

/-! ### C20 -/

omit [EquivBEq V] [LawfulHashable V] in
theorem RunOps.mono {cfg : Cfg V} {P Q : State V → Prop} (hPQ : ∀ u, P u → Q u) {s s' : State V} {os : List (Op V)}
    (h : RunOps cfg P s os s') : RunOps cfg Q s os s' := by
  induction h with
  | refl h => exact .refl (hPQ _ h)
  | step _ h1 h2 h3 h4 ih => exact .step ih h1 h2 h3 (hPQ _ h4)

omit [EquivBEq V] [LawfulHashable V] in
theorem RunOps.last {cfg : Cfg V} {P : State V → Prop} {s s' : State V} {os : List (Op V)}
    (h : RunOps cfg P s os s') : P s' := by cases h <;> assumption

/-- The object `b` is registered but has no handle: its last handle is gone and its removal has not happened. -/
def Dying (cfg : Cfg V) (b : Addr) (s : State V) : Prop := b ∈ s.table ∧ b ∉ allHandles cfg s

/-- C20 (a). While an object with value `v` is dying, no `new` of an equal value takes effect. -/
theorem C20_no_intern_while_dying {cfg : Cfg V} (hv : cfg.Valid) {s s' : State V} (h : Reach cfg s)
    {b : Addr} {v : V} (hb : deref s b = some v) {os : List (Op V)} (hrun : RunOps cfg (Dying cfg b) s os s')
    {t : Tid} {w : V} {p : Addr} (ho : Op.intern t w p ∈ os) : (w == v) = false := by
  have main : deref s' b = some v ∧ ∀ t w p, Op.intern t w p ∈ os → (w == v) = false := by
    clear ho
    induction hrun with
    | refl _ => exact ⟨hb, by simp⟩
    | @step s1 s2 os a hr hsane hst hsm hP ih =>
      obtain ⟨hd, hno⟩ := ih
      have hre := RunOps.reach h hr
      have hI := reach_inv hv hre
      have hI2 := reach_inv hv (.step hre hsane hst hsm)
      have hP1 := hr.last
      have hd2 : deref s2 b = some v := by rw [step_data hI hsane hst hP1.1]; exact hd
      refine ⟨hd2, ?_⟩
      intro t w p ho
      rcases List.mem_append.mp ho with ho | ho
      · exact hno t w p ho
      · cases he : effect cfg s1 a with
        | none => rw [he] at ho; simp at ho
        | some o =>
          rw [he] at ho
          simp only [Option.toList_some, List.mem_singleton] at ho
          subst ho
          have hab := step_abs hI hsane hst
          rw [he] at hab
          cases hwv : (w == v) with
          | false => rfl
          | true =>
            exfalso
            obtain ⟨_, hperm, hcase⟩ := hab
            rcases hcase with ⟨w', hp, hval, hww⟩ | ⟨_, _, hval⟩
            · obtain ⟨c1, g1, e1⟩ := deref_get hval
              obtain ⟨c2, g2, e2⟩ := deref_get hd
              have := hI.uniq p b c1 c2 (hI.in_table hp) hP1.1 g1 g2 (by rw [e1, e2]; exact BEq.trans hww hwv)
              exact hP1.2 (this ▸ hp)
            · have hp : p ∈ allHandles cfg s2 := hperm.mem_iff.mpr (by simp)
              obtain ⟨c1, g1, e1⟩ := deref_get hval
              obtain ⟨c2, g2, e2⟩ := deref_get hd2
              have := hI2.uniq p b c1 c2 (hI2.in_table hp) hP.1 g1 g2 (by rw [e1, e2]; exact hwv)
              exact hP.2 (this ▸ hp)
  exact main.2 t w p ho

/-- C20 (b). A `new(w)` called while an object with an equal value is dying does not return as long as that object is
dying. -/
theorem C20_new_does_not_return {cfg : Cfg V} (hv : cfg.Valid) {s0 s1 s2 s3 : State V} (h : Reach cfg s0)
    {t : Tid} {w v : V} {dst : Bool} {b : Addr} (hcall : step cfg s0 (.new t w dst) = .ok s1) (hs1 : Small cfg s1)
    (hb : deref s1 b = some v) (hwv : (w == v) = true) {os : List (Op V)}
    (hrun : RunOps cfg (fun u => InCall t u ∧ Dying cfg b u) s1 os s2)
    {a p : Addr} (hlast : step cfg s2 (.run t a) = .ok s3) : s3.handles ≠ p :: s2.handles := by
  intro hret
  have hr1 : Reach cfg s1 := .step h (by simp [Act.Sane]) hcall hs1
  have hone := (C08_new_once hv h hcall hs1 (hrun.mono fun _ h => h.1) hlast hret).1
  have hmem : Op.intern t w p ∈ os := by
    have h1 : Op.intern t w p ∈ [Op.intern t w p] := by simp
    rw [← hone] at h1
    exact (List.mem_filter.mp (List.mem_filter.mp h1).1).1
  have := C20_no_intern_while_dying hv hr1 hb (hrun.mono fun _ h => h.2) hmem
  rw [hwv] at this; cases this

/-- C20 (c). A thread that has decremented the count to zero and is stalled before the removal keeps the object dying. -/
theorem C20_stalled_drop_is_dying {cfg : Cfg V} (hv : cfg.Valid) {s : State V} (h : Reach cfg s) {t : Tid} {th : Thread V}
    {b : Addr} (ht : s.threads[t]? = some th) (hpc : th.pc = .dropRemove b) : Dying cfg b s := by
  have hI := reach_inv hv h
  have hR : 0 < R s b := (count_flatMap_pos _ b s.threads).mpr ⟨t, th, ht, by simp [hpc, Pc.removing]⟩
  have := hI.pend b
  by_cases hc : 0 < T s b ∧ A cfg s b = 0
  · exact ⟨List.count_pos_iff.mp hc.1, List.count_eq_zero.mp hc.2⟩
  · rw [if_neg hc] at this; omega

theorem zombie_dying {cfg : Cfg V} (hv : cfg.Valid) {s : State V} (h : Reach cfg s) {b : Addr} (hb : b ∈ s.zombies) :
    Dying cfg b s := by
  have hI := reach_inv hv h
  have hZ : 0 < Z s b := List.count_pos_iff.mpr hb
  have := hI.pend b
  by_cases hc : 0 < T s b ∧ A cfg s b = 0
  · exact ⟨List.count_pos_iff.mp hc.1, List.count_eq_zero.mp hc.2⟩
  · rw [if_neg hc] at this; omega

/-- C20 (d). After user code panicked in the removal of `b`, the object `b` is dying for ever, whatever happens. -/
theorem C20_panicked_drop_is_dying_forever {cfg : Cfg V} (hv : cfg.Valid) {s0 s s' : State V} (h : Reach cfg s0) {t : Tid}
    {th : Thread V} {b : Addr} (ht : s0.threads[t]? = some th) (hpc : th.pc = .dropRemove b)
    (hpanic : step cfg s0 (.panic t) = .ok s) (hs : Small cfg s) {P : State V → Prop} {os : List (Op V)}
    (hrun : RunOps cfg P s os s') : RunOps cfg (fun u => P u ∧ Dying cfg b u) s os s' := by
  have hr : Reach cfg s := .step h (by simp [Act.Sane]) hpanic hs
  have hz : b ∈ s.zombies := by
    have hR := step_R hpanic
    cases hR with
    | panicLoop u th0 c hu hpc' => rw [ht] at hu; cases hu; rw [hpc] at hpc'; cases hpc'
    | panicEntry u th0 c b hu hpc' => rw [ht] at hu; cases hu; rw [hpc] at hpc'; cases hpc'
    | panicShrink u th0 i m hu hpc' => rw [ht] at hu; cases hu; rw [hpc] at hpc'; cases hpc'
    | panicRemove u th0 b' hu hpc' => rw [ht] at hu; cases hu; rw [hpc] at hpc'; cases hpc'; simp
  have main : b ∈ s'.zombies ∧ RunOps cfg (fun u => P u ∧ Dying cfg b u) s os s' := by
    induction hrun with
    | refl hP => exact ⟨hz, .refl ⟨hP, zombie_dying hv hr hz⟩⟩
    | @step s1 s2 os a hr1 hsane hst hsm hP ih =>
      have hz2 : b ∈ s2.zombies := by
        rcases step_zombies hst with h | ⟨_, _, _, _, _, _, h⟩ <;> rw [h]
        · exact ih.1
        · simp [ih.1]
      exact ⟨hz2, .step ih.2 hsane hst hsm ⟨hP, zombie_dying hv (.step (RunOps.reach hr hr1) hsane hst hsm) hz2⟩⟩
  exact main.2

/-- C20 (e). Hence no later `new` of an equal value ever takes effect, so none ever returns. -/
theorem C20_panicked_drop_blocks_forever {cfg : Cfg V} (hv : cfg.Valid) {s0 s s' : State V} (h : Reach cfg s0) {t : Tid}
    {th : Thread V} {b : Addr} {v : V} (ht : s0.threads[t]? = some th) (hpc : th.pc = .dropRemove b)
    (hb : deref s0 b = some v) (hpanic : step cfg s0 (.panic t) = .ok s) (hs : Small cfg s) {os : List (Op V)}
    (hrun : RunOps cfg (fun _ => True) s os s') {u : Tid} {w : V} {p : Addr} (ho : Op.intern u w p ∈ os) :
    (w == v) = false := by
  have hr : Reach cfg s := .step h (by simp [Act.Sane]) hpanic hs
  have hd : deref s b = some v := by
    rw [step_data (reach_inv hv h) (by simp [Act.Sane]) hpanic (C20_stalled_drop_is_dying hv h ht hpc).1]; exact hb
  exact C20_no_intern_while_dying hv hr hd
    ((C20_panicked_drop_is_dying_forever hv h ht hpc hpanic hs hrun).mono fun _ h => h.2) ho

/-- C20 (f). Other values are unaffected: when nothing else runs, `new(v)` obtains a handle to a value equal to `v`
by its own steps, provided no abandoned object equals `v`. -/
theorem C20_others_unaffected {cfg : Cfg V} (hv : cfg.Valid) {s s1 : State V} (h : Reach cfg s) (hq : Quiescent s)
    {t : Tid} {v : V} {dst : Bool} (hcall : step cfg s (.new t v dst) = .ok s1) (hs1 : Small cfg s1)
    (hz : ∀ z x, Dying cfg z s → deref s z = some x → (x == v) = false) :
    ∃ (as : List Addr) (s2 : State V) (p : Addr) (w : V), as.length ≤ 6 ∧ exec cfg s1 (as.map fun a => Act.run t a) = .ok s2 ∧
      p ∈ allHandles cfg s2 ∧ deref s2 p = some w ∧ (w == v) = true := by
  have hI := reach_inv hv h
  by_cases hex : ∃ p x, p ∈ s.table ∧ deref s p = some x ∧ (x == v) = true
  · obtain ⟨p, x, hp, hx, hxv⟩ := hex
    have hpa : p ∈ allHandles cfg s := by
      apply Classical.byContradiction
      intro hn
      have := hz p x ⟨hp, hn⟩ hx
      rw [hxv] at this; cases this
    obtain ⟨s2, h1, h2, h3⟩ := C12_solo_hit hv h hq hcall hs1 hpa hx hxv 0 0 0
    refine ⟨[0, 0, 0], s2, p, x, by simp, h1, ?_, h3, hxv⟩
    exact List.count_pos_iff.mp (mem_owned_A h2 (by simp [Thread.owned]))
  · have hno : ∀ p x, p ∈ s.table → deref s p = some x → (x == v) = false := by
      intro p x hp hx
      cases hc : (x == v)
      · rfl
      · exact absurd ⟨p, x, hp, hx, hc⟩ hex
    obtain ⟨a, ha⟩ := fresh_addr s.heap
    obtain ⟨s2, h1, h2, h3, h4, h5⟩ := C12_solo_miss hv h hq hcall hs1 hno ha 0 0 0 0 0
    exact ⟨[0, a, 0, 0, 0, 0], s2, a, v, by simp, h1, by simp [allHandles, h3], h4, BEq.rfl⟩

/-- Thread 1 spins: it looks the dying object up, sees count zero, undoes its increment and is back where it started. -/
def stallTrace : List (Act Val) :=
  [.spawn, .spawn, .new 0 ⟨5, 1, []⟩ false, r 0, r 0 10, r 0, r 0, r 0, r 0, .drop 0 10, r 0]
def spin : List (Act Val) := [r 1, r 1, r 1, r 1]
example : Reach demoCfg (demo stallTrace) ∧ Dying demoCfg 10 (demo stallTrace) ∧ deref (demo stallTrace) 10 = some ⟨5, 1, []⟩ ∧
    (demo (stallTrace ++ [.new 1 ⟨5, 2, []⟩ false] ++ spin ++ spin ++ spin)).threads[1]? =
      (demo (stallTrace ++ [.new 1 ⟨5, 2, []⟩ false])).threads[1]? :=
  ⟨demo_reach (by decide), by unfold Dying; decide, by decide, rfl⟩
/-- The panicked drop: hypotheses of (d) and (e), with a later `new` that spins and one of another value that works. -/
example : Reach demoCfg (demo stallTrace) ∧ (∃ th, (demo stallTrace).threads[0]? = some th ∧ th.pc = .dropRemove 10) ∧
    ∃ s, step demoCfg (demo stallTrace) (.panic 0) = .ok s ∧ Small demoCfg s ∧ Quiescent s ∧
      (∃ s', exec demoCfg s ([.new 1 ⟨5, 2, []⟩ false] ++ spin ++ spin) = .ok s' ∧ s'.handles = []) ∧
      (∃ s', exec demoCfg s ([.new 0 ⟨6, 2, []⟩ false, r 0, r 0 11, r 0, r 0, r 0, r 0]) = .ok s' ∧ s'.handles = [11]) :=
  ⟨demo_reach (by decide), ⟨_, rfl, rfl⟩, _, rfl, small_of_length (by decide), by unfold Quiescent; decide, ⟨_, rfl, by decide⟩, ⟨_, rfl, by decide⟩⟩

end Arc
