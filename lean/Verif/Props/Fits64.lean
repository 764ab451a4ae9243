import Verif.Fits64
import Verif.Props.Intern
/-
Properties C41, C42 (codes of `Intern` handles for tinyset) and C43 (`heap_location`).
-/
namespace Fits64

/-! ### C41 -/

/-- **C41, round trip.** For every alignment, every aligned pointer and every reference address, decoding a code gives
back the pointer, and the multiplication does not overflow. -/
theorem C41_round_trip (heap sz ptr : UInt64) (ha : ptr.toNat % sz.toNat = 0) (hs : sz ≠ 0) :
    fromU64 heap sz (toU64 heap sz ptr) = some ptr := by
  have e : toU64 heap sz ptr ^^^ (heap / sz) = ptr / sz := by
    unfold toU64; rw [UInt64.xor_assoc, UInt64.xor_self, UInt64.xor_zero]
  have hm : (ptr / sz).toNat * sz.toNat = ptr.toNat := by
    rw [UInt64.toNat_div]; exact Nat.div_mul_cancel (Nat.dvd_of_mod_eq_zero ha)
  unfold fromU64
  rw [e, if_pos (by rw [hm]; exact ptr.toNat_lt)]
  congr 1
  apply UInt64.toNat_inj.mp
  rw [UInt64.toNat_mul, hm]
  exact Nat.mod_eq_of_lt ptr.toNat_lt

/-- **C41, injective.** Different handles of one type have different codes. -/
theorem C41_injective (heap sz p q : UInt64) (hp : p.toNat % sz.toNat = 0) (hq : q.toNat % sz.toNat = 0) (hs : sz ≠ 0)
    (h : toU64 heap sz p = toU64 heap sz q) : p = q := by
  have := C41_round_trip heap sz p hp hs
  rw [h, C41_round_trip heap sz q hq hs] at this
  exact (Option.some.inj this).symm

/-- C41, at the level of `Intern<T>` for a sized `T` (pointers have no metadata): in every reachable state the codes of two
handles are equal exactly if the values are. -/
theorem C41_codes_identify_values {K V : Type} [DecidableEq K] [BEq V] [Hashable V] [EquivBEq V] [LawfulHashable V]
    {cfg : Pool.Cfg K V} (lay : cfg.Layout) {s : Pool.State K V} (r : Pool.Reach cfg s) {k : K} (ho : cfg.owns k = false)
    {v w : V} {p q : Pool.Ptr} (hp : Pool.Returned s k v p) (hq : Pool.Returned s k w q) (hi : p.info = q.info)
    (heap sz : UInt64) (hs : sz ≠ 0) (ap : p.addr % sz.toNat = 0) (aq : q.addr % sz.toNat = 0) (bp : p.addr < 2 ^ 64)
    (bq : q.addr < 2 ^ 64) :
    toU64 heap sz (.ofNat p.addr) = toU64 heap sz (.ofNat q.addr) ↔ (v == w) = true := by
  obtain ⟨_, _, _, _, _, h24⟩ := Pool.C24_pointer_eq_iff_value_eq lay r ho hp hq
  rw [← h24]
  have tp : (UInt64.ofNat p.addr).toNat = p.addr := by rw [UInt64.toNat_ofNat']; exact Nat.mod_eq_of_lt bp
  have tq : (UInt64.ofNat q.addr).toNat = q.addr := by rw [UInt64.toNat_ofNat']; exact Nat.mod_eq_of_lt bq
  constructor
  · intro h
    have := C41_injective heap sz _ _ (by rw [tp]; exact ap) (by rw [tq]; exact aq) hs h
    have : p.addr = q.addr := by rw [← tp, ← tq, this]
    cases p; cases q
    simp only at this hi
    subst this hi
    rfl
  · rintro rfl; rfl

example : fromU64 0x7f0012345678 8 (toU64 0x7f0012345678 8 0x7f0012345000) = some 0x7f0012345000 :=
  C41_round_trip _ _ _ (by decide) (by decide)

/-- An unaligned pointer (there are none among handles) would not survive: the alignment hypothesis matters. -/
example : fromU64 0x1000 8 (toU64 0x1000 8 0x1234567) ≠ some 0x1234567 := by decide

/-! ### C42 -/

/-- **C42.** If the handle's address and the reference address agree in all bits from `k` on, the code times the alignment is
below `2^k`. -/
theorem C42_codes_small (heap ptr sz : UInt64) (j k : Nat) (hz : sz.toNat = 2 ^ j)
    (hk : ptr.toNat / 2 ^ k = heap.toNat / 2 ^ k) : (toU64 heap sz ptr).toNat * sz.toNat < 2 ^ k := by
  unfold toU64
  rw [UInt64.toNat_xor, UInt64.toNat_div, UInt64.toNat_div, hz]
  rcases Nat.lt_or_ge k j with hkj | hjk
  · -- the alignment is larger than the difference: the code is 0
    have e : ptr.toNat / 2 ^ j = heap.toNat / 2 ^ j := by
      have : 2 ^ j = 2 ^ k * 2 ^ (j - k) := by rw [← Nat.pow_add]; congr 1; omega
      rw [this, ← Nat.div_div_eq_div_mul, ← Nat.div_div_eq_div_mul, hk]
    rw [e, Nat.xor_self, Nat.zero_mul]
    exact Nat.two_pow_pos k
  · have e : ∀ i, k - j ≤ i → (ptr.toNat / 2 ^ j ^^^ heap.toNat / 2 ^ j).testBit i = false := by
      intro i hi
      rw [Nat.testBit_xor, Nat.testBit_div_two_pow, Nat.testBit_div_two_pow]
      have h1 : ∀ n : Nat, n.testBit (i + j) = (n / 2 ^ k).testBit (i + j - k) := by
        intro n
        rw [Nat.testBit_div_two_pow]
        congr 1; omega
      rw [h1, h1, hk]
      simp
    have hlt := Nat.lt_pow_two_of_testBit _ e
    calc _ < 2 ^ (k - j) * 2 ^ j := Nat.mul_lt_mul_of_pos_right hlt (Nat.two_pow_pos j)
      _ = 2 ^ k := by rw [← Nat.pow_add]; congr 1; omega

/-- Two addresses in the same megabyte, alignment 8: the code is below 2^20 / 8. -/
example : (toU64 0x7f0012345678 8 0x7f00123aaaa8).toNat * 8 < 2 ^ 20 :=
  C42_codes_small 0x7f0012345678 0x7f00123aaaa8 8 3 20 (by decide) (by decide)

/-! ### C43 -/
namespace Heap

/-- The invariant: at most one value has been written. -/
structure Inv (s : State) : Prop where
  hist : s.hist = [0] ∨ ∃ h, h ≠ 0 ∧ s.hist = [0, h]
  cas : ∀ (t : Nat) p, s.threads[t]? = some (.cas p) → p ≠ 0
  res : ∀ r ∈ s.results, r.2 ≠ 0 ∧ s.hist = [0, r.2]
  seen : s.seen.length = s.threads.length
  bound : ∀ j ∈ s.seen, j < s.hist.length

theorem set_cases {α : Type} {l : List α} {t u : Nat} {x y : α} (h : (l.set t x)[u]? = some y) :
    (u = t ∧ y = x) ∨ (u ≠ t ∧ l[u]? = some y) := by
  rw [List.getElem?_set] at h
  split at h
  · rename_i e
    split at h
    · injection h with h
      exact .inl ⟨e.symm, h.symm⟩
    · cases h
  · rename_i e
    exact .inr ⟨fun e' => e e'.symm, h⟩

theorem Inv.return {s : State} (I : Inv s) {t i x : Nat} (hx : x ≠ 0) (hh : s.hist = [0, x]) (hi : i < s.hist.length) :
    Inv (s.return t i x) where
  hist := I.hist
  cas u p h := by
    rcases set_cases h with ⟨_, e⟩ | ⟨_, h⟩
    · cases e
    · exact I.cas u p h
  res r hr := by
    rcases List.mem_cons.mp hr with rfl | hr
    · exact ⟨hx, hh⟩
    · exact I.res r hr
  seen := by simpa [State.return] using I.seen
  bound j hj := by
    rcases List.mem_or_eq_of_mem_set hj with hj | rfl
    · exact I.bound j hj
    · exact hi

theorem Inv.value {s : State} (I : Inv s) {i x : Nat} (h : s.hist[i]? = some x) (hx : x ≠ 0) : s.hist = [0, x] := by
  rcases I.hist with e | ⟨y, hy, e⟩
  · rw [e] at h
    rcases i with _ | i
    · cases h; exact absurd rfl hx
    · simp at h
  · rw [e] at h ⊢
    rcases i with _ | _ | i
    · cases h; exact absurd rfl hx
    · cases h; rfl
    · simp at h

theorem Inv.step {s s' : State} {a : Act} (I : Inv s) (h : step s a = some s') : Inv s' := by
  cases a with
  | spawn =>
    cases h
    refine ⟨I.hist, fun t p h => ?_, I.res, by simp [I.seen], fun j hj => ?_⟩
    · rcases Nat.lt_or_ge t s.threads.length with hlt | hge
      · rw [List.getElem?_append_left hlt] at h; exact I.cas t p h
      · rw [List.getElem?_append_right hge] at h
        cases hd : t - s.threads.length <;> rw [hd] at h <;> simp at h
    · rcases List.mem_append.mp hj with hj | hj
      · exact I.bound j hj
      · cases List.mem_singleton.mp hj
        rcases I.hist with e | ⟨y, _, e⟩ <;> simp [e]
  | call t =>
    simp only [Heap.step] at h
    cases ht : s.threads[t]? with
    | none => rw [ht] at h; cases h
    | some pc =>
      rw [ht] at h
      cases pc with
      | idle =>
        cases h
        refine ⟨I.hist, fun u p h => ?_, I.res, by simpa using I.seen, I.bound⟩
        rcases set_cases h with ⟨_, e⟩ | ⟨_, h⟩
        · cases e
        · exact I.cas u p h
      | _ => cases h
  | run t i p =>
    simp only [Heap.step] at h
    cases ht : s.threads[t]? with
    | none => rw [ht] at h; cases h
    | some pc =>
      cases hsn : s.seen[t]? with
      | none => rw [ht, hsn] at h; cases pc <;> cases h
      | some j =>
        rw [ht, hsn] at h
        cases pc with
        | idle => cases h
        | load =>
          simp only at h
          cases hx : s.hist[i]? with
          | none => rw [hx] at h; cases h
          | some x =>
            rw [hx] at h
            simp only at h
            have hi := (List.getElem?_eq_some_iff.mp hx).1
            split at h
            · cases h
            · split at h
              · cases h
                refine ⟨I.hist, fun u p h => ?_, I.res, by simpa using I.seen, fun j hj => ?_⟩
                · rcases set_cases h with ⟨_, e⟩ | ⟨_, h⟩
                  · cases e
                  · exact I.cas u p h
                · rcases List.mem_or_eq_of_mem_set hj with hj | rfl
                  · exact I.bound j hj
                  · exact hi
              · rename_i hne
                cases h
                exact I.return hne (I.value hx hne) hi
        | alloc =>
          simp only at h
          split at h
          · cases h
          · rename_i hp
            cases h
            refine ⟨I.hist, fun u q h => ?_, I.res, by simpa using I.seen, I.bound⟩
            rcases set_cases h with ⟨_, e⟩ | ⟨_, h⟩
            · cases e; exact hp
            · exact I.cas u q h
        | cas q =>
          simp only at h
          cases hx : s.hist[i]? with
          | none => rw [hx] at h; cases h
          | some x =>
            rw [hx] at h
            simp only at h
            have hi := (List.getElem?_eq_some_iff.mp hx).1
            split at h
            · cases h
            · split at h
              · rename_i hne
                cases h
                exact I.return hne (I.value hx hne) hi
              · rename_i h0
                split at h
                · rename_i hlast
                  cases h
                  have h0 : x = 0 := Decidable.of_not_not h0
                  have hq := I.cas t q ht
                  have hh : s.hist = [0] := by
                    rcases I.hist with e | ⟨y, hy, e⟩
                    · exact e
                    · rw [e] at hlast hx
                      have : i = 1 := by simpa using hlast
                      subst this
                      cases hx
                      exact absurd h0 hy
                  have hno : s.results = [] := by
                    cases hr : s.results with
                    | nil => rfl
                    | cons r l =>
                      have := (I.res r (by rw [hr]; exact List.mem_cons_self)).2
                      rw [hh] at this
                      cases this
                  have J : Inv { s with hist := s.hist ++ [q] } := by
                    refine ⟨.inr ⟨q, hq, by simp [hh]⟩, I.cas, fun r hr => ?_, I.seen, fun j hj => ?_⟩
                    · simp [hno] at hr
                    · have := I.bound j hj
                      simp only [List.length_append, List.length_cons, List.length_nil]
                      omega
                  exact J.return hq (by simp [hh]) (by simp only [List.length_append, List.length_cons, List.length_nil]; omega)
                · cases h

theorem Reach.inv {s : State} (h : Reach s) : Inv s := by
  induction h with
  | init => exact ⟨.inl rfl, (fun t p h => nomatch h), (fun r h => nomatch h), rfl, (fun j h => nomatch h)⟩
  | step _ hs ih => exact ih.step hs

/-- **C43.** Any two calls of `heap_location`, by any threads, return the same non-zero value. -/
theorem C43_heap_location_unique {s : State} (h : Reach s) {t u x y : Nat} (hx : (t, x) ∈ s.results)
    (hy : (u, y) ∈ s.results) : x = y ∧ x ≠ 0 := by
  obtain ⟨h1, e1⟩ := h.inv.res _ hx
  obtain ⟨_, e2⟩ := h.inv.res _ hy
  simp only at e1 e2 h1
  rw [e1] at e2
  simp only [List.cons.injEq, and_true, true_and] at e2
  exact ⟨e2, h1⟩

/-- C43, wait-free: a call can always make its next step, whatever the other threads do (reading the newest value), and
is over after at most three of its own steps: load, allocate, compare_exchange. -/
theorem C43_wait_free {s : State} (h : Reach s) {t : Nat} {pc : Pc} (ht : s.threads[t]? = some pc) (hi : pc ≠ .idle) :
    ∃ i p s', step s (.run t i p) = some s' ∧
      (pc = .load → s'.threads[t]? = some .alloc ∨ s'.threads[t]? = some .idle) ∧
      (pc = .alloc → ∃ q, s'.threads[t]? = some (.cas q)) ∧
      (∀ q, pc = .cas q → s'.threads[t]? = some .idle) := by
  have I := h.inv
  have hlt := (List.getElem?_eq_some_iff.mp ht).1
  have hj : ∃ j, s.seen[t]? = some j := ⟨_, List.getElem?_eq_getElem (by rw [I.seen]; exact hlt)⟩
  obtain ⟨j, hj⟩ := hj
  have hjb := I.bound j (List.mem_of_getElem? hj)
  have hlast : ∃ i x, s.hist[i]? = some x ∧ ¬ i < j ∧ i + 1 = s.hist.length := by
    refine ⟨s.hist.length - 1, s.hist[s.hist.length - 1]'(by omega), List.getElem?_eq_getElem _, by omega, by omega⟩
  obtain ⟨i, x, hx, hij, hl⟩ := hlast
  have set : ∀ y, (s.threads.set t y)[t]? = some y := fun y => by simp [hlt]
  cases pc with
  | idle => exact absurd rfl hi
  | load =>
    refine ⟨i, 0, ?_⟩
    simp only [step, ht, hj, hx, if_neg hij]
    by_cases h0 : x = 0
    · rw [if_pos h0]
      exact ⟨_, rfl, fun _ => .inl (set _), (fun e => nomatch e), (fun _ e => nomatch e)⟩
    · rw [if_neg h0]
      exact ⟨_, rfl, fun _ => .inr (set _), (fun e => nomatch e), (fun _ e => nomatch e)⟩
  | alloc =>
    refine ⟨0, 1, ?_⟩
    simp only [step, ht, hj]
    exact ⟨_, rfl, (fun e => nomatch e), fun _ => ⟨_, set _⟩, (fun _ e => nomatch e)⟩
  | cas q =>
    refine ⟨i, 0, ?_⟩
    simp only [step, ht, hj, hx, if_neg hij]
    by_cases h0 : x = 0
    · rw [if_neg (fun h => h h0), if_pos hl]
      exact ⟨_, rfl, (fun e => nomatch e), (fun e => nomatch e), fun _ _ => set _⟩
    · rw [if_pos h0]
      exact ⟨_, rfl, (fun e => nomatch e), (fun e => nomatch e), fun _ _ => set _⟩

def exec (s : State) : List Act → Option State
  | [] => some s
  | a :: l => match step s a with
    | some s' => exec s' l
    | none => none

theorem exec_reach {s s' : State} {l : List Act} (h : exec s l = some s') (r : Reach s) : Reach s' := by
  induction l generalizing s with
  | nil => cases h; exact r
  | cons a l ih =>
    simp only [exec] at h
    cases hs : step s a with
    | some s1 => rw [hs] at h; exact ih h (r.step hs)
    | none => rw [hs] at h; cases h

/-- Three threads; threads 0 and 1 both allocate, thread 1 wins; thread 2 reads a stale null afterwards and loses too. -/
example : ∃ s, Reach s ∧ s.results = [(2, 64), (0, 64), (1, 64)] :=
  ⟨_, exec_reach (l := [.spawn, .spawn, .spawn, .call 0, .call 1, .run 0 0 0, .run 1 0 0, .run 0 0 32, .run 1 0 64,
    .run 1 0 0, .call 2, .run 2 0 0, .run 2 0 96, .run 0 1 0, .run 2 1 0]) rfl .init, rfl⟩

end Heap
end Fits64
