import Verif.Lemmas.Windows
import Mathlib.Data.Set.Card
import Mathlib.Algebra.BigOperators.Group.List.Basic

/-!
# C55–C61: windows, generic and exact arithmetic (IEEE: Props/WindowsIEEE.lean)
-/

namespace Rasp
open FloatOps

section generic
variable {T : Type} [FloatOps T]

/-! ## C55 -/

/-- **C55.** Whatever the float type, build profile, shape and size, `next` never panics, returns an item exactly `n`
times and `None` forever after. -/
theorem C55_exactly_size_items [Target] (b : Build) (k : WindowKind) (n : ℕ) (hn : n < usizeMod) :
    (∃ o : ℕ → Option T, Yields b k n o) ∧
    ∀ o : ℕ → Option T, Yields b k n o → ∀ i, (o i).isSome = true ↔ i < n := by
  constructor
  · exact ⟨_, (yields_iff b k hn _).mpr fun i => rfl⟩
  · intro o ho i
    rw [(yields_iff b k hn o).mp ho i]
    split <;> simp_all

/-- **C55.** In exact arithmetic the items are the values of the textbook formula, in order. -/
theorem C55_values [Target] (b : Build) (k : WindowKind) (n : ℕ) (hn : n < usizeMod) (o : ℕ → Option ℝ) (h : Yields b k n o)
    (i : ℕ) (hi : i < n) : o i = some (shape k n i) := by
  rw [(yields_iff b k hn o).mp h i, if_pos hi, windowVal_real k (by omega)]

/-- The items of the crate's own test, Bartlett with 3 points: 0, 1, 0. -/
example [Target] (b : Build) (o : ℕ → Option ℝ) (h : Yields b .bartlett 3 o) : o 0 = some 0 ∧ o 1 = some 1 ∧ o 2 = some 0 ∧ o 3 = none := by
  have hn : 3 < usizeMod := by have := target; omega
  refine ⟨?_, ?_, ?_, ?_⟩
  · rw [C55_values b _ 3 hn o h 0 (by norm_num)]; norm_num [shape]
  · rw [C55_values b _ 3 hn o h 1 (by norm_num)]; norm_num [shape]
  · rw [C55_values b _ 3 hn o h 2 (by norm_num)]; norm_num [shape]
  · have := (C55_exactly_size_items b .bartlett 3 hn).2 o h 3
    simpa using this

/-! ## C56 -/

/-- **C56**, as it is: `len` is the full size at all times, whereas `n - m` items are still to come after `m` calls; so
it is right exactly before the first `next` (or for an empty window). -/
theorem C56_len [Target] (b : Build) (k : WindowKind) (n : ℕ) (hn : n < usizeMod) (st : ℕ → WindowIter) (o : ℕ → Option T)
    (h0 : st 0 = WindowIter.new n) (hs : ∀ i, WindowIter.next T b k (st i) = .ok (st (i + 1), o i)) (m : ℕ) :
    (st m).len = n ∧ Set.ncard {i | m ≤ i ∧ (o i).isSome = true} = n - m ∧
    ((st m).len = Set.ncard {i | m ≤ i ∧ (o i).isSome = true} ↔ m = 0 ∨ n = 0) := by
  have h1 : (st m).len = n := by rw [yields_state hn h0 hs m]; rfl
  have h2 : Set.ncard {i | m ≤ i ∧ (o i).isSome = true} = n - m := by
    have : {i | m ≤ i ∧ (o i).isSome = true} = ((Finset.Ico m n : Finset ℕ) : Set ℕ) := by
      ext i
      simp only [Set.mem_ofPred_eq, Finset.coe_Ico, Set.mem_Ico]
      rw [(C55_exactly_size_items b k n hn).2 o ⟨st, h0, hs⟩ i]
    rw [this, Set.ncard_coe_finset, Nat.card_Ico]
  refine ⟨h1, h2, ?_⟩
  rw [h1, h2]
  omega

/-- **C56 is false**: after one `next` of a three-point window `len` still says 3. -/
theorem C56_len_false [Target] : ∃ s : WindowIter, (∃ v, WindowIter.next T ⟨true⟩ .hann (WindowIter.new 3) = .ok (s, some v)) ∧
    s.len = 3 := by
  refine ⟨⟨1, 3⟩, ⟨_, next_lt _ _ _ (by simp [WindowIter.new]) (by have := target; simp only [WindowIter.new]; omega)⟩, rfl⟩

/-! ## C57 -/

/-- **C57.** `apply_window` never panics, keeps the length and multiplies sample `i` by item `i` of the window iterator of
the slice's length. -/
theorem C57_pointwise [Target] (b : Build) (k : WindowKind) (xs : List T) (hn : xs.length < usizeMod) (o : ℕ → Option T)
    (h : Yields b k xs.length o) :
    ∃ ys, applyWindow b xs (.shaped k) = .ok ys ∧ ys.length = xs.length ∧
      ∀ i (hi : i < xs.length), ∃ g, o i = some g ∧ ys[i]? = some (g *. xs[i]) := by
  obtain ⟨ys, h1, h2, h3⟩ := applyLoop_eq b k xs.length hn xs 0 (by simp)
  refine ⟨ys, h1, h2, fun i hi => ⟨windowVal T k xs.length i, ?_, ?_⟩⟩
  · rw [(yields_iff b k hn o).mp h i, if_pos hi]
  · rw [h3 i hi, Nat.zero_add]

/-- **C57.** Rectangular leaves the slice unchanged. -/
theorem C57_rectangular [Target] (b : Build) (xs : List T) : applyWindow b xs .rectangular = .ok xs := rfl

/-- **C57.** The empty slice is fine. -/
theorem C57_empty [Target] (b : Build) (w : Window) : applyWindow b ([] : List T) w = .ok [] := by
  cases w <;> rfl

end generic

/-! ## C58 -/

theorem shape_symm (k : WindowKind) {n : ℝ} (hn : n ≠ 1) (i : ℝ) : shape k n (n - 1 - i) = shape k n i := by
  have h1 : n - 1 ≠ 0 := sub_ne_zero.mpr hn
  have hw : 2 * Real.pi * (n - 1 - i) / (n - 1) = 2 * Real.pi - 2 * Real.pi * i / (n - 1) := by field_simp
  have habs : n - 1 - i - (n - 1) / 2 = -(i - (n - 1) / 2) := by ring
  have hc : ∀ w : ℝ, Real.cos (2 * Real.pi - w) = Real.cos w := fun w => Real.cos_two_pi_sub w
  have hc2 : ∀ w : ℝ, Real.cos (2 * (2 * Real.pi - w)) = Real.cos (2 * w) := fun w => by
    rw [Real.cos_two_mul, hc, ← Real.cos_two_mul]
  have hc3 : ∀ w : ℝ, Real.cos (3 * (2 * Real.pi - w)) = Real.cos (3 * w) := fun w => by
    rw [Real.cos_three_mul, hc, ← Real.cos_three_mul]
  cases k <;> simp only [shape, hw, habs, neg_div, abs_neg, hc, hc2, hc3]

/-- **C58.** In exact arithmetic all six windows are symmetric. -/
theorem C58_symmetric [Target] (b : Build) (k : WindowKind) (n : ℕ) (h2 : 2 ≤ n) (hn : n < usizeMod) (o : ℕ → Option ℝ)
    (h : Yields b k n o) (i : ℕ) (hi : i < n) : o i = o (n - 1 - i) := by
  rw [C55_values b k n hn o h i hi, C55_values b k n hn o h (n - 1 - i) (by omega)]
  have hn1 : (n : ℝ) ≠ 1 := by
    have : n ≠ 1 := by omega
    exact_mod_cast this
  have hc : ((n - 1 - i : ℕ) : ℝ) = (n : ℝ) - 1 - i := by
    rw [Nat.cast_sub (by omega), Nat.cast_sub (by omega)]; simp
  rw [hc, shape_symm k hn1]

/-! ## C59 -/

theorem shape_mem (k : WindowKind) {n i : ℝ} (hn : 1 < n) (h0 : 0 ≤ i) (h1 : i ≤ n - 1) :
    0 ≤ shape k n i ∧ shape k n i ≤ 1 := by
  set w := 2 * Real.pi * i / (n - 1) with hw
  have hc1 := Real.neg_one_le_cos w
  have hc2 := Real.cos_le_one w
  have num : |i - (n - 1) / 2| ≤ (n - 1) / 2 := by rw [abs_le]; constructor <;> linarith
  cases k
  · simp only [shape]
    rw [abs_div, abs_of_pos (show 0 < n / 2 by linarith)]
    have : |i - (n - 1) / 2| / (n / 2) ≤ 1 := by rw [div_le_one (by linarith)]; linarith
    have : 0 ≤ |i - (n - 1) / 2| / (n / 2) := by positivity
    constructor <;> linarith
  · simp only [shape]
    rw [abs_div, abs_of_pos (show 0 < (n - 1) / 2 by linarith)]
    have : |i - (n - 1) / 2| / ((n - 1) / 2) ≤ 1 := by rw [div_le_one (by linarith)]; linarith
    have : 0 ≤ |i - (n - 1) / 2| / ((n - 1) / 2) := div_nonneg (abs_nonneg _) (by linarith)
    constructor <;> linarith
  · simp only [shape, ← hw]
    constructor <;> linarith
  · simp only [shape, ← hw]
    constructor <;> linarith
  · simp only [shape, ← hw]
    rw [Real.cos_two_mul]
    constructor <;> nlinarith
  · simp only [shape, ← hw]
    rw [Real.cos_two_mul, Real.cos_three_mul]
    generalize Real.cos w = c at hc1 hc2 ⊢
    have e : 0.35875 - 0.48829 * c + 0.14128 * (2 * c ^ 2 - 1) - 0.01168 * (4 * c ^ 3 - 3 * c)
        = 0.00006 + (1 - c) * (0.21741 - 0.23584 * c + 0.04672 * c ^ 2) := by ring
    have e' : 0.35875 - 0.48829 * c + 0.14128 * (2 * c ^ 2 - 1) - 0.01168 * (4 * c ^ 3 - 3 * c)
        = 1 - (1 + c) * (0.78253 - 0.32928 * c + 0.04672 * c ^ 2) := by ring
    constructor
    · rw [e]
      have : 0 ≤ (1 - c) * (0.21741 - 0.23584 * c + 0.04672 * c ^ 2) :=
        mul_nonneg (by linarith) (by nlinarith)
      linarith
    · rw [e']
      have : 0 ≤ (1 + c) * (0.78253 - 0.32928 * c + 0.04672 * c ^ 2) :=
        mul_nonneg (by linarith) (by nlinarith)
      linarith

/-- **C59.** In exact arithmetic all window values are in `[0, 1]`. -/
theorem C59_unit_range [Target] (b : Build) (k : WindowKind) (n : ℕ) (h2 : 2 ≤ n) (hn : n < usizeMod) (o : ℕ → Option ℝ)
    (h : Yields b k n o) (i : ℕ) (v : ℝ) (hv : o i = some v) : 0 ≤ v ∧ v ≤ 1 := by
  have hi : i < n := ((C55_exactly_size_items b k n hn).2 o h i).mp (by simp [hv])
  rw [C55_values b k n hn o h i hi] at hv
  rw [← Option.some.inj hv]
  have h2' : (2 : ℝ) ≤ n := by exact_mod_cast h2
  refine shape_mem k (by linarith) (Nat.cast_nonneg i) ?_
  have : ((i + 1 : ℕ) : ℝ) ≤ n := by exact_mod_cast hi
  push_cast at this; linarith

/-- **C59.** So `apply_window` never increases a magnitude. -/
theorem C59_no_amplification [Target] (b : Build) (w : Window) (xs : List ℝ) (h2 : 2 ≤ xs.length) (hn : xs.length < usizeMod) :
    ∃ ys, applyWindow b xs w = .ok ys ∧ ys.length = xs.length ∧
      ∀ i (hi : i < xs.length), ∃ y, ys[i]? = some y ∧ |y| ≤ |xs[i]| := by
  cases w with
  | rectangular => exact ⟨xs, rfl, rfl, fun i hi => ⟨xs[i], by simp, le_rfl⟩⟩
  | shaped k =>
    obtain ⟨o, ho⟩ := (C55_exactly_size_items (T := ℝ) b k xs.length hn).1
    obtain ⟨ys, h1, h3, h4⟩ := C57_pointwise b k xs hn o ho
    refine ⟨ys, h1, h3, fun i hi => ?_⟩
    obtain ⟨g, hg, hy⟩ := h4 i hi
    refine ⟨_, hy, ?_⟩
    obtain ⟨g0, g1⟩ := C59_unit_range b k xs.length h2 hn o ho i g hg
    rw [real_mul, abs_mul, abs_of_nonneg g0]
    exact mul_le_of_le_one_left (abs_nonneg _) g1

/-! ## C60 -/

/-- The end value of each shape. -/
noncomputable def endValue (n : ℝ) : WindowKind → ℝ
  | .triangular => 1 / n
  | .bartlett => 0
  | .hann => 0
  | .hamming => 0.08
  | .blackman => 0
  | .blackmanHarris => 0.00006

/-- **C60.** The first and last values. -/
theorem C60_ends [Target] (b : Build) (k : WindowKind) (n : ℕ) (h2 : 2 ≤ n) (hn : n < usizeMod) (o : ℕ → Option ℝ)
    (h : Yields b k n o) : o 0 = some (endValue n k) ∧ o (n - 1) = some (endValue n k) := by
  have h0 : o 0 = some (endValue n k) := by
    rw [C55_values b k n hn o h 0 (by omega)]
    congr 1
    have h2' : (2 : ℝ) ≤ n := by exact_mod_cast h2
    have hn0 : (n : ℝ) ≠ 0 := by linarith
    have hn1 : (n : ℝ) - 1 ≠ 0 := by linarith
    cases k
    · simp only [shape, endValue, Nat.cast_zero, zero_sub]
      rw [neg_div, abs_neg, abs_of_pos (by apply div_pos <;> linarith)]
      field_simp; ring
    · simp only [shape, endValue, Nat.cast_zero, zero_sub]
      rw [neg_div, div_self (by intro hc; apply hn1; linarith)]
      norm_num
    all_goals simp only [shape, endValue, Nat.cast_zero, mul_zero, zero_div, Real.cos_zero]
    all_goals norm_num
  refine ⟨h0, ?_⟩
  rw [← h0, C58_symmetric b k n h2 hn o h 0 (by omega), Nat.sub_zero]

/-- **C60.** The centre value of odd-sized windows is 1. -/
theorem C60_centre [Target] (b : Build) (k : WindowKind) (m : ℕ) (hm : 1 ≤ m) (hn : 2 * m + 1 < usizeMod) (o : ℕ → Option ℝ)
    (h : Yields b k (2 * m + 1) o) : o m = some 1 := by
  rw [C55_values b k (2 * m + 1) hn o h m (by omega)]
  congr 1
  have hm0 : (m : ℝ) ≠ 0 := by
    have : m ≠ 0 := by omega
    exact_mod_cast this
  have hw : 2 * Real.pi * (m : ℝ) / (((2 * m + 1 : ℕ) : ℝ) - 1) = Real.pi := by push_cast; field_simp; ring
  have hnum : (m : ℝ) - (((2 * m + 1 : ℕ) : ℝ) - 1) / 2 = 0 := by push_cast; ring
  have h2 : Real.cos (2 * Real.pi) = 1 := Real.cos_two_pi
  have h3 : Real.cos (3 * Real.pi) = -1 := by rw [Real.cos_three_mul, Real.cos_pi]; norm_num
  cases k <;> simp only [shape, hw, hnum, zero_div, abs_zero, Real.cos_pi, h2, h3] <;> norm_num

/-! ## C61 -/

/-- **C61.** Odd size `2m + 1`, hop `m`: Bartlett and Hann sum to 1, Hamming to 1.08. -/
theorem C61_odd [Target] (b : Build) (m : ℕ) (hm : 1 ≤ m) (hn : 2 * m + 1 < usizeMod) (o : ℕ → Option ℝ) (i : ℕ) (hi : i ≤ m)
    (u v : ℝ) (hu : o i = some u) (hv : o (i + m) = some v) :
    (Yields b .bartlett (2 * m + 1) o → u + v = 1) ∧ (Yields b .hann (2 * m + 1) o → u + v = 1) ∧
    (Yields b .hamming (2 * m + 1) o → u + v = 1.08) := by
  have hm0 : (0 : ℝ) < m := by exact_mod_cast hm
  have hi' : (i : ℝ) ≤ m := by exact_mod_cast hi
  have hi0 : (0 : ℝ) ≤ i := Nat.cast_nonneg i
  have val : ∀ k, Yields b k (2 * m + 1) o → u = shape k ((2 * m + 1 : ℕ) : ℝ) i ∧ v = shape k ((2 * m + 1 : ℕ) : ℝ) ((i + m : ℕ) : ℝ) := by
    intro k h
    constructor
    · rw [C55_values b k _ hn o h i (by omega)] at hu; exact (Option.some.inj hu).symm
    · rw [C55_values b k _ hn o h (i + m) (by omega)] at hv; exact (Option.some.inj hv).symm
  have hw : 2 * Real.pi * ((i + m : ℕ) : ℝ) / (((2 * m + 1 : ℕ) : ℝ) - 1)
      = 2 * Real.pi * (i : ℝ) / (((2 * m + 1 : ℕ) : ℝ) - 1) + Real.pi := by
    push_cast; field_simp; ring
  refine ⟨fun h => ?_, fun h => ?_, fun h => ?_⟩
  · obtain ⟨e1, e2⟩ := val _ h
    rw [e1, e2]
    simp only [shape]
    push_cast
    rw [show ((i : ℝ) - (2 * m + 1 - 1) / 2) = -(m - i) by ring, show ((i : ℝ) + m - (2 * m + 1 - 1) / 2) = i by ring,
      show ((2 * (m : ℝ) + 1 - 1) / 2) = m by ring, neg_div, abs_neg, abs_of_nonneg (div_nonneg (by linarith) hm0.le),
      abs_of_nonneg (div_nonneg hi0 hm0.le)]
    field_simp; ring
  · obtain ⟨e1, e2⟩ := val _ h
    rw [e1, e2]
    simp only [shape, hw, Real.cos_add_pi]
    ring
  · obtain ⟨e1, e2⟩ := val _ h
    rw [e1, e2]
    simp only [shape, hw, Real.cos_add_pi]
    ring

/-- **C61.** Even size `2m`, hop `m`: Triangular sums to 1. -/
theorem C61_even [Target] (b : Build) (m : ℕ) (hn : 2 * m < usizeMod) (o : ℕ → Option ℝ) (h : Yields b .triangular (2 * m) o)
    (i : ℕ) (hi : i < m) (u v : ℝ) (hu : o i = some u) (hv : o (i + m) = some v) : u + v = 1 := by
  have hm0 : (0 : ℝ) < m := by
    have : 0 < m := by omega
    exact_mod_cast this
  have hi' : (i : ℝ) + 1 ≤ m := by exact_mod_cast hi
  have hi0 : (0 : ℝ) ≤ i := Nat.cast_nonneg i
  rw [C55_values b _ _ hn o h i (by omega)] at hu
  rw [C55_values b _ _ hn o h (i + m) (by omega)] at hv
  rw [← Option.some.inj hu, ← Option.some.inj hv]
  simp only [shape]
  push_cast
  rw [show ((i : ℝ) - (2 * m - 1) / 2) = -(m - 1 / 2 - i) by ring, show ((i : ℝ) + m - (2 * m - 1) / 2) = i + 1 / 2 by ring,
    show (2 * (m : ℝ) / 2) = m by ring, neg_div, abs_neg, abs_of_nonneg (div_nonneg (by linarith) hm0.le),
    abs_of_nonneg (div_nonneg (by linarith) hm0.le)]
  field_simp; ring

/-- **C61**: the comment is false for Hamming: with 3 points and hop 1 the values 0.08 and 1 overlap. -/
theorem C61_hamming_false [Target] (b : Build) (o : ℕ → Option ℝ) (h : Yields b .hamming 3 o) :
    ∃ u v, o 0 = some u ∧ o 1 = some v ∧ u + v ≠ 1 := by
  have hn : 2 * 1 + 1 < usizeMod := by have := target; omega
  have h0 := C55_values b .hamming 3 hn o h 0 (by norm_num)
  have h1 := C55_values b .hamming 3 hn o h 1 (by norm_num)
  refine ⟨_, _, h0, h1, ?_⟩
  have := (C61_odd b 1 le_rfl hn o 0 (by norm_num) _ _ h0 h1).2.2 h
  rw [this]
  norm_num

/-- **C61**: nor for Bartlett windows of even size `2m` with hop `m`: the sum is `(2m - 2)/(2m - 1)`. -/
theorem C61_bartlett_even [Target] (b : Build) (m : ℕ) (hn : 2 * m < usizeMod) (o : ℕ → Option ℝ) (h : Yields b .bartlett (2 * m) o)
    (i : ℕ) (hi : i < m) (u v : ℝ) (hu : o i = some u) (hv : o (i + m) = some v) :
    u + v = (2 * m - 2) / (2 * m - 1) ∧ u + v ≠ 1 := by
  have hm0 : (1 : ℝ) ≤ m := by
    have : 1 ≤ m := by omega
    exact_mod_cast this
  have hi' : (i : ℝ) + 1 ≤ m := by exact_mod_cast hi
  have hi0 : (0 : ℝ) ≤ i := Nat.cast_nonneg i
  rw [C55_values b _ _ hn o h i (by omega)] at hu
  rw [C55_values b _ _ hn o h (i + m) (by omega)] at hv
  have hd : (0 : ℝ) < 2 * m - 1 := by linarith
  have e : u + v = (2 * m - 2) / (2 * m - 1) := by
    rw [← Option.some.inj hu, ← Option.some.inj hv]
    simp only [shape]
    push_cast
    rw [show ((i : ℝ) - (2 * m - 1) / 2) = -(m - 1 / 2 - i) by ring,
      show ((i : ℝ) + m - (2 * m - 1) / 2) = i + 1 / 2 by ring,
      neg_div, abs_neg, abs_of_nonneg (div_nonneg (by linarith) (by linarith)),
      abs_of_nonneg (div_nonneg (by linarith) (by linarith))]
    have hm : (m : ℝ) = ((2 * m - 1) + 1) / 2 := by ring
    generalize (2 * (m : ℝ) - 1) = d at hd hm ⊢
    have hd' := hd.ne'
    rw [hm]
    field_simp; ring
  refine ⟨e, ?_⟩
  rw [e, Ne, div_eq_one_iff_eq hd.ne']
  intro hc; linarith

theorem overlapAdd_eq (o : ℕ → Option ℝ) {hop : ℕ} (hh : 0 < hop) (q r : ℕ) (hr : r < hop) :
    overlapAdd o hop (q * hop + r) = ((List.range (q + 1)).map fun j => (o (j * hop + r)).getD 0).sum := by
  unfold overlapAdd
  have h1 : (q * hop + r) / hop = q := by
    rw [mul_comm, Nat.mul_add_div hh, Nat.div_eq_of_lt hr, add_zero]
  rw [h1]
  have : ((List.range (q + 1)).map fun j => (o (q * hop + r - j * hop)).getD 0)
      = ((List.range (q + 1)).map fun j => (o (j * hop + r)).getD 0).reverse := by
    apply List.ext_getElem
    · simp
    · intro j hj1 hj2
      simp only [List.length_map, List.length_range] at hj1
      simp only [List.getElem_map, List.getElem_range, List.getElem_reverse, List.length_map, List.length_range]
      congr 2
      have e : q = j + (q - j) := by omega
      rw [show q + 1 - 1 - j = q - j by omega]
      have e2 : q * hop = j * hop + (q - j) * hop := by rw [← add_mul, ← e]
      rw [e2]; omega
  rw [this, List.sum_reverse]

theorem sum_three (g : ℕ → ℝ) (q : ℕ) (hz : ∀ j, 3 ≤ j → g j = 0) (hq : 2 ≤ q) :
    ((List.range (q + 1)).map g).sum = g 0 + g 1 + g 2 := by
  induction q, hq using Nat.le_induction with
  | base => simp [List.range_succ, add_assoc]
  | succ q hq ih => rw [List.range_succ, List.map_append, List.sum_append, ih]; simp [hz (q + 1) (by omega)]

/-- **C61**, as full overlap-add: frames of an odd-sized Bartlett or Hann window started every `m` samples add up to 1 at
every time from `2m` on; Hamming frames to 1.08, except where two frames meet (multiples of `m`): there 1.16. -/
theorem C61_overlap_add [Target] (b : Build) (m : ℕ) (hm : 1 ≤ m) (hn : 2 * m + 1 < usizeMod) (o : ℕ → Option ℝ) (t : ℕ)
    (ht : 2 * m ≤ t) :
    (Yields b .bartlett (2 * m + 1) o → overlapAdd o m t = 1) ∧
    (Yields b .hann (2 * m + 1) o → overlapAdd o m t = 1) ∧
    (Yields b .hamming (2 * m + 1) o → overlapAdd o m t = if t % m = 0 then 1.16 else 1.08) := by
  have hm0 : 0 < m := hm
  set q := t / m with hq
  set r := t % m with hr
  have hrm : r < m := Nat.mod_lt _ hm0
  have htq : t = q * m + r := by rw [hq, hr, mul_comm]; exact (Nat.div_add_mod t m).symm
  have hq2 : 2 ≤ q := by rw [hq, Nat.le_div_iff_mul_le hm0]; exact ht
  have red : ∀ k, Yields b k (2 * m + 1) o → ∃ u v, o r = some u ∧ o (r + m) = some v ∧
      overlapAdd o m t = u + v + (if r = 0 then endValue ((2 * m + 1 : ℕ) : ℝ) k else 0) := by
    intro k h
    have none : ∀ i, 2 * m + 1 ≤ i → o i = Option.none := by
      intro i hi
      have := (C55_exactly_size_items b k _ hn).2 o h i
      rw [← Option.not_isSome_iff_eq_none, this]; omega
    have h1 := C55_values b k _ hn o h r (by omega)
    have h2 := C55_values b k _ hn o h (r + m) (by omega)
    refine ⟨_, _, h1, h2, ?_⟩
    rw [htq, overlapAdd_eq o hm0 q r hrm, sum_three _ q _ hq2]
    · rw [zero_mul, zero_add, one_mul, add_comm m r, h1, h2]
      congr 1
      by_cases hr0 : r = 0
      · rw [if_pos hr0, hr0, add_zero]
        have := (C60_ends b k (2 * m + 1) (by omega) hn o h).2
        rw [Nat.add_sub_cancel] at this
        rw [this]; rfl
      · rw [if_neg hr0, none _ (by omega)]; rfl
    · intro j hj
      have : 3 * m ≤ j * m := Nat.mul_le_mul_right m hj
      rw [none _ (by omega)]; rfl
  refine ⟨fun h => ?_, fun h => ?_, fun h => ?_⟩
  · obtain ⟨u, v, h1, h2, h3⟩ := red _ h
    rw [h3, (C61_odd b m hm hn o r hrm.le u v h1 h2).1 h]
    simp [endValue]
  · obtain ⟨u, v, h1, h2, h3⟩ := red _ h
    rw [h3, (C61_odd b m hm hn o r hrm.le u v h1 h2).2.1 h]
    simp [endValue]
  · obtain ⟨u, v, h1, h2, h3⟩ := red _ h
    rw [h3, (C61_odd b m hm hn o r hrm.le u v h1 h2).2.2 h]
    simp only [endValue]
    split <;> norm_num

/-- Sizes and streams as assumed exist: 3 points, hop 1. -/
example [Target] (b : Build) : ∃ o : ℕ → Option ℝ, Yields b .hann (2 * 1 + 1) o :=
  (C55_exactly_size_items b .hann (2 * 1 + 1) (by have := target; omega)).1

end Rasp
