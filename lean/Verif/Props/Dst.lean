import Verif.Dst.Layout
/-
Properties C21 (the hand-computed layout) and C22 (copying; null is not checked).
-/
namespace Dst
variable {T : Target} {e : Layout}

theorem Target.wd_pos (T : Target) : 0 < T.wd := by rw [T.pow]; exact Nat.two_pow_pos _
theorem Target.M_eq (T : Target) : T.M = 2 * T.H := by
  have := T.wd_pos
  unfold Target.M Target.H
  rw [← Nat.pow_succ']; congr 1; omega
theorem Target.H_pos (T : Target) : 0 < T.H := Nat.two_pow_pos _

theorem Target.wd_le (T : Target) : T.wd ≤ T.H := by
  have h := T.wd_pos
  have : T.wd < 2 ^ T.wd := Nat.lt_two_pow_self
  have : 2 ^ T.wd ≤ T.H := Nat.pow_le_pow_right (by decide) (by omega)
  omega

theorem pow_dvd_of_le {j k : Nat} (h : 2 ^ j ≤ 2 ^ k) : 2 ^ j ∣ 2 ^ k :=
  Nat.pow_dvd_pow 2 ((Nat.pow_le_pow_iff_right (by decide)).mp h)

theorem Target.H_dvd {k : Nat} (h : 2 ^ k ≤ T.H) : 2 ^ k ∣ T.H := pow_dvd_of_le h

/-- Rounding up without overflow. -/
theorem isRoundUp_div {x a : Nat} (ha : 0 < a) : IsRoundUp x a ((x + (a - 1)) / a * a) := by
  have h1 := Nat.div_add_mod (x + (a - 1)) a
  have h2 := Nat.mod_lt (x + (a - 1)) ha
  rw [Nat.mul_comm] at h1
  refine ⟨Nat.dvd_mul_left _ _, ?_, ?_⟩ <;> omega

theorem IsRoundUp.unique {x a r r' : Nat} (h : IsRoundUp x a r) (h' : IsRoundUp x a r') : r = r' := by
  obtain ⟨⟨c, rfl⟩, h2, h3⟩ := h
  obtain ⟨⟨c', rfl⟩, h2', h3'⟩ := h'
  congr 1
  rcases Nat.lt_trichotomy c c' with h | h | h
  · have := Nat.mul_le_mul_left a (show c + 1 ≤ c' from h)
    rw [Nat.mul_add, Nat.mul_one] at this
    omega
  · exact h
  · have := Nat.mul_le_mul_left a (show c' + 1 ≤ c from h)
    rw [Nat.mul_add, Nat.mul_one] at this
    omega

theorem Target.roundUp_eq {x a r : Nat} (ha : 0 < a) (hr : IsRoundUp x a r) (hb : x + (a - 1) < T.M) :
    T.roundUp x a = r := by
  unfold Target.roundUp Target.add
  rw [Nat.mod_eq_of_lt hb]
  exact (isRoundUp_div ha).unique hr

theorem Layout.Valid.align_pos (v : e.Valid T) : 0 < e.align := by
  obtain ⟨k, h⟩ := v.pow; rw [h]; exact Nat.two_pow_pos k

/-- The offset of the elements is the larger of the two alignments. -/
theorem off_eq (v : e.Valid T) : IsRoundUp T.wd e.align (max T.wd e.align) := by
  obtain ⟨k, hk⟩ := v.pow
  have := T.wd_pos
  have := v.align_pos
  rcases Nat.le_total T.wd e.align with h | h
  · rw [Nat.max_eq_right h]
    exact ⟨Nat.dvd_refl _, h, by omega⟩
  · rw [Nat.max_eq_left h]
    refine ⟨?_, Nat.le_refl _, by omega⟩
    rw [T.pow] at h ⊢
    rw [hk] at h ⊢
    exact pow_dvd_of_le h

theorem max_dvd (v : e.Valid T) : max T.wd e.align ∣ T.H := by
  obtain ⟨k, hk⟩ := v.pow
  have := v.small
  rcases Nat.le_total T.wd e.align with h | h
  · rw [Nat.max_eq_right h, hk]; exact Target.H_dvd (by omega)
  · rw [Nat.max_eq_left h, T.pow]; exact Target.H_dvd (by rw [← T.pow]; exact T.wd_le)

theorem max_le (v : e.Valid T) : max T.wd e.align ≤ T.H := Nat.le_of_dvd T.H_pos (max_dvd v)

/-- A rounded-up size fits below `isize::MAX` exactly if the size before rounding fits below the limit the code checks. -/
theorem roundUp_small {x a r H : Nat} (hd : a ∣ H) (hr : IsRoundUp x a r) (ha : 0 < a) (hle : a ≤ H) :
    r < H ↔ x ≤ H - a := by
  obtain ⟨c, rfl⟩ := hd
  obtain ⟨⟨d, rfl⟩, h2, h3⟩ := hr
  constructor
  · intro h
    have := Nat.lt_of_mul_lt_mul_left h
    have := Nat.mul_le_mul_left a (show d + 1 ≤ c from this)
    rw [Nat.mul_add, Nat.mul_one] at this
    omega
  · intro h
    omega

theorem array_cases (v : e.Valid T) (n : Nat) :
    (T.array e n = none ∧ T.H - e.align < n * e.size) ∨
    (T.array e n = some ⟨n * e.size, e.align⟩ ∧ n * e.size ≤ T.H - e.align) := by
  unfold Target.array Target.maxSize
  by_cases h0 : e.size = 0
  · right
    rw [if_neg (by simp [h0])]
    simp [Target.mul, h0]
  · by_cases h : (T.H - e.align) / e.size < n
    · left
      rw [if_pos ⟨h0, h⟩]
      refine ⟨rfl, ?_⟩
      rw [Nat.div_lt_iff_lt_mul (by omega)] at h
      exact h
    · right
      rw [if_neg (fun c => h c.2)]
      have hle : n * e.size ≤ T.H - e.align := by
        have := Nat.not_lt.mp h
        rwa [Nat.le_div_iff_mul_le (by omega)] at this
      refine ⟨?_, hle⟩
      unfold Target.mul
      rw [Nat.mod_eq_of_lt (by have := T.M_eq; have := T.H_pos; omega)]

/-- The computed layout, in closed form. -/
theorem fromSliceLayout_cases (v : e.Valid T) (n : Nat) {total : Nat} (hb : BoxLayout T e n (max T.wd e.align) total) :
    (T.fromSliceLayout e n = none ∧ T.H ≤ total) ∨
    (T.fromSliceLayout e n = some ⟨total, max T.wd e.align⟩ ∧ total < T.H) := by
  have hM := T.M_eq
  have hmaxH := max_le v
  have hpos := v.align_pos
  have hwd := T.wd_pos
  have hwH := T.wd_le
  have hea := v.small
  have hiff := roundUp_small (max_dvd v) hb.size (by omega) hmaxH
  unfold Target.fromSliceLayout
  rcases array_cases v n with ⟨ha, hlt⟩ | ⟨ha, hle⟩
  · rw [ha]
    refine .inl ⟨rfl, ?_⟩
    rcases Nat.lt_or_ge total T.H with h | h
    · have := hiff.mp h
      have := Nat.le_max_right T.wd e.align
      omega
    · exact h
  · rw [ha]
    have hro : T.roundUp T.header.size e.align = max T.wd e.align := T.roundUp_eq hpos (off_eq v) (by simp only [Target.header]; omega)
    have hadd : T.add (max T.wd e.align) (n * e.size) = max T.wd e.align + n * e.size := by
      unfold Target.add
      exact Nat.mod_eq_of_lt (by omega)
    have hext : T.extend T.header ⟨n * e.size, e.align⟩ =
        if T.H - max T.wd e.align < max T.wd e.align + n * e.size then none
        else some (⟨max T.wd e.align + n * e.size, max T.wd e.align⟩, max T.wd e.align) := by
      unfold Target.extend Target.maxSize
      simp only [hro, hadd]
      rfl
    simp only [hext]
    by_cases h : T.H - max T.wd e.align < max T.wd e.align + n * e.size
    · rw [if_pos h]
      refine .inl ⟨rfl, ?_⟩
      rcases Nat.lt_or_ge total T.H with h' | h'
      · have := hiff.mp h'; omega
      · exact h'
    · rw [if_neg h]
      have hle' := Nat.not_lt.mp h
      refine .inr ⟨?_, hiff.mpr hle'⟩
      show some (T.padToAlign ⟨max T.wd e.align + n * e.size, max T.wd e.align⟩) = _
      unfold Target.padToAlign
      rw [T.roundUp_eq (by omega) hb.size (by omega)]

theorem BoxLayout.off_max (v : e.Valid T) {n off total : Nat} (hb : BoxLayout T e n off total) : off = max T.wd e.align :=
  hb.start.unique (off_eq v)

/-- **C21.** For every target, element layout and length: if `from_slice` gets a layout, that is exactly the layout with which
rustc will free the box (size and alignment), it is smaller than `isize::MAX + 1`, and -- `off` being the offset of the elements --
the counter is inside it, the elements do not overlap the counter, every element is inside and aligned. -/
theorem C21_layout (v : e.Valid T) {n off total : Nat} (hb : BoxLayout T e n off total) {l : Layout}
    (h : T.fromSliceLayout e n = some l) :
    l = ⟨total, max T.wd e.align⟩ ∧ l.size < T.H ∧ T.wd ∣ l.align ∧ e.align ∣ l.align ∧ l.align ∣ l.size ∧
    T.wd ≤ off ∧
    (∀ i < n, e.align ∣ off + i * e.size ∧ off + i * e.size + e.size ≤ l.size) ∧ 0 < l.size := by
  have ho := hb.off_max v
  subst ho
  rcases fromSliceLayout_cases v n hb with ⟨h', _⟩ | ⟨h', hlt⟩
  · rw [h'] at h; cases h
  · rw [h'] at h
    cases h
    obtain ⟨k, hk⟩ := v.pow
    refine ⟨rfl, hlt, ?_, ?_, hb.size.1, hb.start.2.1, fun i hi => ⟨?_, ?_⟩, ?_⟩
    · rcases Nat.le_total T.wd e.align with h | h
      · show T.wd ∣ max T.wd e.align
        rw [Nat.max_eq_right h, hk]
        rw [hk, T.pow] at h
        rw [T.pow]
        exact pow_dvd_of_le h
      · show T.wd ∣ max T.wd e.align
        rw [Nat.max_eq_left h]; exact Nat.dvd_refl _
    · exact hb.start.1
    · exact Nat.dvd_add hb.start.1 (Nat.dvd_trans v.dvd (Nat.dvd_mul_left _ _))
    · have h1 := hb.size.2.1
      have h2 : i * e.size + e.size ≤ n * e.size := by
        rw [← Nat.succ_mul]; exact Nat.mul_le_mul_right _ hi
      show _ ≤ total
      omega
    · have := hb.size.2.1
      have := T.wd_pos
      have := Nat.le_max_left T.wd e.align
      show 0 < total
      omega

/-- **C21, panic.** `from_slice` panics exactly if the object would need more than `isize::MAX` bytes; it never wraps around. -/
theorem C21_panics_iff (v : e.Valid T) {n off total : Nat} (hb : BoxLayout T e n off total) :
    T.fromSliceLayout e n = none ↔ T.H ≤ total := by
  have ho := hb.off_max v
  subst ho
  rcases fromSliceLayout_cases v n hb with ⟨h, h'⟩ | ⟨h, h'⟩ <;> rw [h] <;> simp <;> omega

/-- rustc's layout always exists. -/
theorem BoxLayout.exists (T : Target) (e : Layout) (h : 0 < e.align) (n : Nat) : ∃ off total, BoxLayout T e n off total :=
  ⟨_, _, isRoundUp_div h, isRoundUp_div (by have := T.wd_pos; omega)⟩

def t64 : Target := ⟨8, 3, rfl⟩
def t32 : Target := ⟨4, 2, rfl⟩
/-- Eleven `u16`s on a 64-bit target: 8 + 22 rounded up to 32. -/
example : t64.fromSliceLayout ⟨2, 2⟩ 11 = some ⟨32, 8⟩ ∧ (⟨2, 2⟩ : Layout).Valid t64 ∧ BoxLayout t64 ⟨2, 2⟩ 11 8 32 :=
  ⟨by decide, ⟨⟨1, rfl⟩, by decide, by decide⟩,
   ⟨⟨by decide, by decide, by decide⟩, ⟨by decide, by decide, by decide⟩⟩⟩
/-- Over-aligned elements (the crate's test uses up to 4096), a zero-sized element type, and a length that is too large. -/
example : t64.fromSliceLayout ⟨4096, 4096⟩ 10 = some ⟨45056, 4096⟩ ∧ t64.fromSliceLayout ⟨0, 1⟩ 500 = some ⟨8, 8⟩ ∧
    t32.fromSliceLayout ⟨1, 1⟩ 2147483643 = none ∧ t32.fromSliceLayout ⟨1, 1⟩ 2147483640 = some ⟨2147483644, 4⟩ := by decide

/-! ### C22 -/

theorem bytesOf_length (n x : Nat) : (bytesOf n x).length = n := by
  induction n generalizing x with
  | zero => rfl
  | succ n ih => simp [bytesOf, ih]

theorem ofBytes_bytesOf {n x : Nat} (h : x < 256 ^ n) : ofBytes (bytesOf n x) = x := by
  induction n generalizing x with
  | zero => simp only [Nat.pow_zero] at h; simp [bytesOf, ofBytes]; omega
  | succ n ih =>
    have hx : x / 256 < 256 ^ n := by rw [Nat.div_lt_iff_lt_mul (by decide)]; rw [Nat.pow_succ] at h; exact h
    simp only [bytesOf, ofBytes]
    rw [ih hx]
    have : (UInt8.ofNat (x % 256)).toNat = x % 256 := by simp [UInt8.toNat_ofNat']
    rw [this]
    omega

theorem read_write {m : Mem} {a : Nat} {l : List UInt8} : (m.write a l).read a l.length = l := by
  apply List.ext_getElem
  · simp [Mem.read]
  · intro i h1 h2
    simp only [Mem.read, List.getElem_map, List.getElem_range, Mem.write]
    rw [if_pos ⟨by omega, by omega⟩, Nat.add_sub_cancel_left, ← List.getElem_eq_getD]

theorem read_write_disjoint {m : Mem} {a b n : Nat} {l : List UInt8} (h : b + n ≤ a ∨ a + l.length ≤ b) :
    (m.write a l).read b n = m.read b n := by
  simp only [Mem.read]
  apply List.map_congr_left
  intro i hi
  have := List.mem_range.mp hi
  simp only [Mem.write]
  rw [if_neg (by omega)]

theorem read_length (m : Mem) (a n : Nat) : (m.read a n).length = n := by simp [Mem.read]

/-- **C22, copy.** If the allocator returns a block (not null) for the requested layout, disjoint from the source slice, `from_slice`
either panics (too large) or makes no access outside of the block and returns an object whose counter is 1 and whose elements are
exactly the source bytes, and changes nothing outside of the block. -/
theorem C22_copy_faithful (v : e.Valid T) (alloc : Layout → Nat) (m : Mem) (src n : Nat) {off total : Nat}
    (hb : BoxLayout T e n off total) (hnz : alloc ⟨total, max T.wd e.align⟩ ≠ 0)
    (hdis : alloc ⟨total, max T.wd e.align⟩ + total ≤ src ∨ src + n * e.size ≤ alloc ⟨total, max T.wd e.align⟩) :
    (T.fromSlice e alloc m src n = .panic ∧ T.H ≤ total) ∨
    ∃ m' base, T.fromSlice e alloc m src n = .ok m' base ∧ base = alloc ⟨total, max T.wd e.align⟩ ∧
      ofBytes (m'.read base T.wd) = 1 ∧
      m'.read (base + off) (n * e.size) = m.read src (n * e.size) ∧
      ∀ x, x < base ∨ base + total ≤ x → m' x = m x := by
  have ho := hb.off_max v
  subst ho
  have hpos := v.align_pos
  have hM := T.M_eq
  have hwH := T.wd_le
  have hea := v.small
  have hoff : T.roundUp T.wd e.align = max T.wd e.align := T.roundUp_eq hpos (off_eq v) (by omega)
  rcases fromSliceLayout_cases v n hb with ⟨h, h'⟩ | ⟨h, h'⟩
  · left
    unfold Target.fromSlice
    rw [h]
    exact ⟨rfl, h'⟩
  · right
    have ht := hb.size.2.1
    have hw := Nat.le_max_left T.wd e.align
    have hwp := T.wd_pos
    generalize hB : alloc ⟨total, max T.wd e.align⟩ = base
    have hb0 : base ≠ 0 := by rw [← hB]; exact hnz
    have hd := hdis
    rw [hB] at hd
    let m1 := m.write base (bytesOf T.wd 1)
    have hsrc : m1.read src (n * e.size) = m.read src (n * e.size) :=
      read_write_disjoint (by rw [bytesOf_length]; omega)
    refine ⟨m1.write (base + max T.wd e.align) (m1.read src (n * e.size)), base, ?_, rfl, ?_, ?_, ?_⟩
    · unfold Target.fromSlice
      rw [h]
      simp only [hB, hoff, if_neg hb0]
      rw [if_neg (by simp only [Classical.not_not]; omega), if_neg (by simp only [Classical.not_not]; omega)]
    · rw [read_write_disjoint (by omega)]
      have e1 : m1.read base T.wd = bytesOf T.wd 1 := by
        have := read_write (m := m) (a := base) (l := bytesOf T.wd 1)
        rwa [bytesOf_length] at this
      rw [e1]
      exact ofBytes_bytesOf (Nat.one_lt_pow (by omega) (by decide))
    · have := read_write (m := m1) (a := base + max T.wd e.align) (l := m1.read src (n * e.size))
      rw [read_length] at this
      rw [this, hsrc]
    · intro x hx
      simp only [Mem.write, read_length]
      rw [if_neg (by omega)]
      show m1 x = m x
      simp only [m1, Mem.write, bytesOf_length]
      rw [if_neg (by omega)]

/-- **C22, negative finding.** If the allocator returns null, `from_slice` writes through it: it does not call
`handle_alloc_error`. (Unless the layout computation already panicked.) -/
theorem C22_null_written (v : e.Valid T) (alloc : Layout → Nat) (m : Mem) (src n : Nat)
    {off total : Nat} (hb : BoxLayout T e n off total) (hnull : alloc ⟨total, max T.wd e.align⟩ = 0) (hsmall : total < T.H) : T.fromSlice e alloc m src n = .ub := by
  have ho := hb.off_max v
  subst ho
  rcases fromSliceLayout_cases v n hb with ⟨_, h'⟩ | ⟨h, _⟩
  · omega
  · unfold Target.fromSlice
    rw [h]
    simp only [hnull, if_true]
    rw [if_pos]
    have := T.wd_pos
    omega

/-- `from_str` (arc_dst.rs:56-63): the bytes of the string are copied and the box is relabelled; the result is the same string,
in particular it is valid UTF-8. -/
theorem C22_str (alloc : Layout → Nat) (m : Mem) (src : Nat) (s : String) {off total : Nat}
    (hsrc : m.read src s.toUTF8.size = s.toUTF8.data.toList)
    (hb : BoxLayout t64 ⟨1, 1⟩ s.toUTF8.size off total) (hsmall : total < t64.H) (hnz : alloc ⟨total, 8⟩ ≠ 0)
    (hdis : alloc ⟨total, 8⟩ + total ≤ src ∨ src + s.toUTF8.size * 1 ≤ alloc ⟨total, 8⟩) :
    ∃ m' base, t64.fromSlice ⟨1, 1⟩ alloc m src s.toUTF8.size = .ok m' base ∧
      String.fromUTF8? ⟨(m'.read (base + off) s.toUTF8.size).toArray⟩ = some s := by
  have v : (⟨1, 1⟩ : Layout).Valid t64 := ⟨⟨0, rfl⟩, by decide, by decide⟩
  rcases C22_copy_faithful v alloc m src _ hb hnz hdis with ⟨_, h⟩ | ⟨m', base, h, _, _, hr, _⟩
  · omega
  · refine ⟨m', base, h, ?_⟩
    simp only [Nat.mul_one] at hr
    rw [hr, hsrc]
    have : (⟨s.toUTF8.data.toList.toArray⟩ : ByteArray) = s.toUTF8 := by simp
    rw [this]
    unfold String.fromUTF8?
    rw [dif_pos (show s.toUTF8.IsValidUTF8 from s.isValidUTF8)]
    rfl

/-- The hypotheses can be met: eleven `u16`s at address 64 copied to 1024. -/
example : ∃ m', t64.fromSlice ⟨2, 2⟩ (fun _ => 1024) (fun x => .ofNat x) 64 11 = .ok m' 1024 ∧ m' (1024 + 8 + 3) = 67 ∧
    m' 1024 = 1 := by
  refine ⟨_, rfl, ?_, ?_⟩ <;> decide

end Dst
