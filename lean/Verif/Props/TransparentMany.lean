import Verif.Client.ManyLaws
import Verif.Client.ManyDemo
import Verif.Props.Transparent
/-
C91: as C90, for programs that use several interners at once: two types of `ArcIntern`, any number of types of `Intern` and of arenas, and
any number of types of the `Intern` of typearena.rs; also if user code that runs inside a call of one of them calls another.
-/
namespace Client
open Traits (Methods)

section
variable {A B K L V W R : Type} [DecidableEq K] [DecidableEq L] [BEq A] [Hashable A] [BEq B] [Hashable B] [BEq V] [Hashable V] [BEq W] [Hashable W]

/-- `ArcIntern<A>`, `ArcIntern<B>`, the `Intern`s and arenas in `ks` (types and arenas are `K`, their values are in `V`), and the `Intern`s of
typearena.rs (types `L`, values `W`). -/
def everything (a : Arc.Cfg A) (b : Arc.Cfg B) (p : Pool.Cfg K V) (ks : K → Prop) (n : Src.NewCode.Cfg L W) :
    Interner ((A ⊕ B) ⊕ ((K × V) ⊕ (L × W))) ((Arc.Addr ⊕ Arc.Addr) ⊕ ((K × Pool.Ptr) ⊕ (L × Pool.Ptr))) :=
  prod (prod (arc a) (arc b)) (prod (pools p ks) (newInterns n))

variable [EquivBEq A] [LawfulHashable A] [EquivBEq B] [LawfulHashable B] [EquivBEq V] [LawfulHashable V] [EquivBEq W] [LawfulHashable W]
  {a : Arc.Cfg A} {b : Arc.Cfg B} {p : Pool.Cfg K V} {ks : K → Prop} {n : Src.NewCode.Cfg L W}
  {M : Methods ((A ⊕ B) ⊕ ((K × V) ⊕ (L × W)))} {ps : List (Prog ((A ⊕ B) ⊕ ((K × V) ⊕ (L × W))) R)} {m : Nat}
  {w w' : World (everything a b p ks n) R}

/-- **C91**: for every execution there is one of the same program with values, in which all threads have got to the same place in their code,
and all variables and all that was sent correspond. -/
theorem C91_refines (ha : a.Valid) (hb : b.Valid) (hp : p.Layout) (hn : n.Layout) (hM : M.Lawful) (h : Starts ps m w) (hr : WRun M w w') :
    ∃ c, VRun M (start ps m) c ∧ c.progs = w'.conf.progs ∧ Same w' c :=
  refines (prod_laws (prod_laws (arc_laws ha) (arc_laws hb)) (prod_laws (pools_laws hp) (newInterns_laws hn))) hM h hr

/-- **C91**: the result of a thread that neither sends nor receives is the result computed with values, whatever the rest of the process does. -/
theorem C91_result (ha : a.Valid) (hb : b.Valid) (hp : p.Layout) (hn : n.Layout) (hM : M.Lawful) (h : Starts ps m w) (hr : WRun M w w') {t : Nat}
    {g : Prog ((A ⊕ B) ⊕ ((K × V) ⊕ (L × W))) R} (hg : ps[t]? = some g) (hal : g.Alone) {r : R} (hd : w'.conf.progs[t]? = some (.done r)) :
    g.eval M [] = some r :=
  evaluates (prod_laws (prod_laws (arc_laws ha) (arc_laws hb)) (prod_laws (pools_laws hp) (newInterns_laws hn))) hM h hr hg hal hd

/-- **C91**: comparing and reading always works for handles that a thread has. -/
theorem C91_usable (ha : a.Valid) (hb : b.Valid) (hp : p.Layout) (hn : n.Layout) (hM : M.Lawful) (h : Starts ps m w) (hr : WRun M w w') {t : Nat}
    {th : Thread ((A ⊕ B) ⊕ ((K × V) ⊕ (L × W))) R ((Arc.Addr ⊕ Arc.Addr) ⊕ ((K × Pool.Ptr) ⊕ (L × Pool.Ptr)))}
    (ht : w'.conf.threads[t]? = some th) (hu : th.usable) :
    ∃ th', Look ((everything a b p ks n).view M w'.state) th w'.conf.queues th' w'.conf.queues :=
  usable_looks (prod_laws (prod_laws (arc_laws ha) (arc_laws hb)) (prod_laws (pools_laws hp) (newInterns_laws hn))) hM h hr ht hu

end

/-! ### The hypotheses are met -/

section
open Arc (demoCfg)
open Src.NewCode (dcfg dlayout)

abbrev AnyVal := (Arc.Val ⊕ Arc.Val) ⊕ ((Nat × Pool.Demo.Val) ⊕ (Nat × Pool.Demo.Val))

/-- The order of all these values. -/
def anyMethods : Methods AnyVal :=
  ofCmp (sumCmp (ofCmp (sumCmp Traits.demoMethods Traits.demoMethods)) (ofCmp (sumCmp (ofCmp (pairCmp poolMethods)) (ofCmp (pairCmp poolMethods)))))

theorem anyMethods_lawful : anyMethods.Lawful :=
  sum_lawful (sum_lawful Traits.demoMethods_lawful Traits.demoMethods_lawful)
    (sum_lawful (pair_lawful poolMethods_lawful) (pair_lawful poolMethods_lawful))

/-- A number that equal values share. -/
def AnyVal.number : AnyVal → Nat
  | .inl (.inl x) | .inl (.inr x) => x.key
  | .inr (.inl x) | .inr (.inr x) => x.2.cls

theorem AnyVal.number_eq {x y : AnyVal} (h : (x == y) = true) : x.number = y.number := by
  rcases x with (x | x) | (x | x) <;> rcases y with (y | y) | (y | y) <;> first | (cases h; done) | skip
  · have h : (x == y) = true := h
    rw [Arc.Val.beq_iff] at h; exact h.1
  · have h : (x == y) = true := h
    rw [Arc.Val.beq_iff] at h; exact h.1
  · have h : ((x.1, x.2) == (y.1, y.2)) = true := h
    exact eq_of_beq (show (x.2.cls == y.2.cls) = true from ((pair_beq ..).mp h).2)
  · have h : ((x.1, x.2) == (y.1, y.2)) = true := h
    exact eq_of_beq (show (x.2.cls == y.2.cls) = true from ((pair_beq ..).mp h).2)

/-- Thread 0 uses an `ArcIntern`, an `Intern`, an arena and typearena.rs, and sends the handle of the first. -/
def user : Prog AnyVal (Bool × Ordering × Nat) :=
  .intern (.inl (.inl ⟨5, 1, []⟩)) (.intern (.inr (.inl (0, ⟨5, 1⟩))) (.intern (.inr (.inl (2, ⟨6, 1⟩))) (.intern (.inr (.inr (1, ⟨7, 1⟩)))
    (.give 0 0 (.intern (.inr (.inl (0, ⟨5, 2⟩))) (.eq 1 4 fun b => .cmp 1 2 fun o => .read 3 fun x => .done (b, o, x.number)))))))

/-- Thread 1 uses the other `ArcIntern`, and gets a handle from thread 0. -/
def other : Prog AnyVal (Bool × Ordering × Nat) :=
  .intern (.inl (.inr ⟨5, 1, []⟩)) (.take 0 (.eq 0 1 fun b => .drop 0 (.read 1 fun x => .done (b, .eq, x.number))))

/-- Thread 2 works alone with two interners. -/
def solo : Prog AnyVal (Bool × Ordering × Nat) :=
  .intern (.inl (.inr ⟨5, 3, []⟩)) (.intern (.inr (.inl (1, ⟨5, 4⟩))) (.intern (.inl (.inr ⟨5, 4, []⟩)) (.eq 0 2 fun b => .cmp 0 2 fun o => .read 1 fun x =>
    .done (b, o, x.number))))

theorem solo_alone : solo.Alone :=
  .intern (.intern (.intern (.eq fun _ => .cmp fun _ => .read (fun _ => .done _) fun x y h => by rw [AnyVal.number_eq h])))

abbrev demoAll := everything demoCfg demoCfg Pool.Demo.cfg (· ∈ [0, 1, 2]) dcfg

def allMachine : Machine demoAll := prodMachine (prodMachine arcMachine arcMachine) (prodMachine (poolsMachine [0, 1, 2]) newInternsMachine)

def allStart : World demoAll (Bool × Ordering × Nat) where
  state := ⟨⟨Src.ArcHeld.demo [.act .spawn, .act .spawn, .act .spawn], Src.ArcHeld.demo [.act .spawn, .act .spawn, .act .spawn], []⟩,
    ⟨Src.PoolCode.demo [.spawn, .spawn, .spawn], Src.NewCode.demo [.spawn, .spawn, .spawn], []⟩, []⟩
  conf := start [user, other, solo] 1

theorem allStart_starts : Starts [user, other, solo] 1 allStart where
  conf := rfl
  reach := ⟨⟨(Src.ArcHeld.demo_reach _).reach, (Src.ArcHeld.demo_reach _).reach, fun _ => ⟨fun h => (by cases h), fun h => (by cases h)⟩⟩,
    ⟨Src.PoolCode.demo_reach (l := [.spawn, .spawn, .spawn]) (by decide +kernel),
      Src.NewCode.demo_reach (l := [.spawn, .spawn, .spawn]) (by decide +kernel), fun _ => ⟨fun h => (by cases h), fun h => (by cases h)⟩⟩,
    fun _ => ⟨fun h => (by cases h), fun h => (by cases h)⟩⟩
  owns := by
    refine ⟨⟨fun _ => Nat.zero_le _, fun _ => Nat.zero_le _⟩, ⟨fun k _ => ?_, fun _ h => (Nat.lt_irrefl _ h).elim⟩,
      fun _ h => (Nat.lt_irrefl _ h).elim⟩
    have : (Src.PoolCode.demo [.spawn, .spawn, .spawn]).gone = [] := by decide +kernel
    show k ∉ (Src.PoolCode.demo [.spawn, .spawn, .spawn]).gone
    rw [this]; exact List.not_mem_nil
  idle := by
    intro t ht
    have h1 : ∀ t < 3, empty ((Src.ArcHeld.demo [.act .spawn, .act .spawn, .act .spawn]).base.threads[t]?) = true := by decide +kernel
    have h2 : ∀ t < 3, empty ((Src.PoolCode.demo [.spawn, .spawn, .spawn]).threads[t]?) = true := by decide +kernel
    have h3 : ∀ t < 3, empty ((Src.NewCode.demo [.spawn, .spawn, .spawn]).threads[t]?) = true := by decide +kernel
    exact ⟨⟨empty_iff.mp (h1 t ht), empty_iff.mp (h1 t ht)⟩, empty_iff.mp (h2 t ht), empty_iff.mp (h3 t ht)⟩

/-- Whatever thread `t` can do. -/
def any_ (t a : Nat) : List allMachine.Lbl :=
  (by_ t a).map (fun l => .inl (.inl l)) ++ (by_ t a).map (fun l => .inl (.inr l)) ++
    [.inr (.inl (.run t a))] ++ (in_ t a).map fun l => .inr (.inr l)

def allEnd : World demoAll (Bool × Ordering × Nat) := after allMachine anyMethods allStart
  [([], .call 0), ([], .call 1), (any_ 0 10, .ret 0 10), ([], .call 2), ([], .call 0), (any_ 0 10, .ret 0 10), (any_ 1 20, .ret 1 20),
    ([], .call 0), (any_ 0 20, .ret 0 20), ([], .call 0), (any_ 0 30, .ret 0 30), ([], .look 0), (any_ 2 30, .ret 2 30), ([], .look 1), ([], .look 1),
    ([], .call 2), (any_ 2 40, .ret 2 40), ([], .drop 1), (any_ 1 0, .dropped 1), ([], .call 0), ([], .call 2), (any_ 0 50, .ret 0 50),
    (any_ 2 50, .ret 2 50), ([], .look 0), ([], .look 0), ([], .look 0), ([], .look 1), ([], .look 2), ([], .look 2), ([], .look 2)]

/-- A program that ends, with the results that values would give. -/
example : Starts [user, other, solo] 1 allStart ∧ WRun anyMethods allStart allEnd ∧ anyMethods.Lawful ∧
    allEnd.conf.results = [some (true, .lt, 7), some (false, .eq, 5), some (true, .eq, 5)] ∧
    solo.eval anyMethods [] = some (true, .eq, 5) :=
  ⟨allStart_starts, after_run .., anyMethods_lawful, by decide +kernel,
    C91_result Arc.demoCfg_valid Arc.demoCfg_valid Pool.Demo.layout dlayout anyMethods_lawful allStart_starts (after_run ..) (t := 2) rfl solo_alone
      (results_done (c := allEnd.conf) (by decide +kernel))⟩

/-- As before, but inside the first call of thread 0, `Hash::hash` of the value interns a value of type 0 itself. -/
def allNested : World demoAll (Bool × Ordering × Nat) := after allMachine anyMethods allStart
  [([], .call 0), (any_ 0 70, .inside (.inr (.inl (.new 0 0 ⟨5, 9⟩ false)))), (.inr (.inl (.run 0 70)) :: any_ 0 10, .ret 0 10),
    ([], .call 0), (any_ 0 80, .ret 0 80)]

/-- The second call finds the value that the first has interned. -/
example : WRun anyMethods allStart allNested ∧ allNested.conf.all = [.inl (.inl 10), .inr (.inl (0, ⟨70, 0⟩))] :=
  ⟨after_run .., by decide +kernel⟩

end
end Client
