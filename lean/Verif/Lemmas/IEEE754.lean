import Verif.Spec.IEEE754
import Verif.Lemmas.FP

/-!
# The float model is IEEE 754

Not properties of the crate, but of the arithmetic that the theorems of level I are about: each operation of `FP`, in all
cases, against the independent description in `Spec/IEEE754.lean`. The sign of a computed NaN is deliberately left open.
-/

namespace Rasp

theorem rne_nearest (y : ℝ) (n : ℤ) : |(rne y : ℝ) - y| ≤ |(n : ℝ) - y| ∧
    (|(rne y : ℝ) - y| = |(n : ℝ) - y| → n ≠ rne y → |rne y - n| = 1 ∧ Even (rne y)) := by
  have h := abs_rne_sub_le y
  have far : n ≠ rne y → 1 / 2 ≤ |(n : ℝ) - y| := by
    intro hn
    by_contra hc
    push Not at hc
    exact hn (rne_eq_of_lt (by rwa [abs_sub_comm])).symm
  constructor
  · by_cases hn : n = rne y
    · rw [hn]
    · exact h.trans (far hn)
  · intro he hn
    have h1 := far hn
    have h2 : |(rne y : ℝ) - y| = 1 / 2 := le_antisymm h (he ▸ h1)
    have h3 : |(n : ℝ) - y| = 1 / 2 := he ▸ h2
    constructor
    · have h4 : |((rne y - n : ℤ) : ℝ)| ≤ 1 := by
        have := abs_sub ((rne y : ℝ) - y) ((n : ℝ) - y)
        rw [sub_sub_sub_cancel_right] at this
        push_cast; linarith
      have h5 : |rne y - n| ≤ 1 := by exact_mod_cast h4
      have : 0 < |rne y - n| := abs_pos.mpr (sub_ne_zero.mpr (Ne.symm hn))
      omega
    · have hf := Int.floor_add_fract y
      have hfr : Int.fract y = 1 / 2 := by
        rcases rne_spec y with ⟨e, e'⟩ | ⟨e, e'⟩
        · rw [e, show ((⌊y⌋ : ℤ) : ℝ) - y = - Int.fract y by linarith, _root_.abs_neg, abs_of_nonneg (Int.fract_nonneg y)] at h2
          exact h2
        · rw [e] at h2
          push_cast at h2
          rw [show ((⌊y⌋ : ℤ) : ℝ) + 1 - y = 1 - Int.fract y by linarith, abs_of_nonneg (by linarith [Int.fract_lt_one y])] at h2
          linarith
      unfold rne
      rw [hfr, if_neg (lt_irrefl _), if_neg (lt_irrefl _)]
      split
      · assumption
      · next ho => exact (Int.not_even_iff_odd.mp ho).add_one

/-- Rounding gives the nearest number, ties to even. -/
theorem rnd_nearestEven (f : Fmt) (x : ℝ) : NearestEven f x (rnd f x) := by
  refine ⟨rnd_isRep f x, fun z hz => ?_⟩
  have hc := two_zpow_pos (cexp f x)
  have hx : x = x / 2 ^ cexp f x * 2 ^ cexp f x := by field_simp
  have scale : ∀ n : ℤ, |(n : ℝ) * 2 ^ cexp f x - x| = |(n : ℝ) - x / 2 ^ cexp f x| * 2 ^ cexp f x := fun n => by
    generalize (2 : ℝ) ^ cexp f x = c at hc hx
    rw [← abs_of_pos hc, ← abs_mul, abs_of_pos hc, sub_mul, ← hx]
  have main : ∀ n : ℤ, z = n * (2 : ℝ) ^ cexp f x → |rnd f x - x| ≤ |z - x| ∧
      (|rnd f x - x| = |z - x| → z ≠ rnd f x → ∃ m n e : ℤ, rnd f x = m * 2 ^ e ∧ z = n * 2 ^ e ∧ |m - n| = 1 ∧ Even m) := by
    rintro n rfl
    unfold rnd
    obtain ⟨h1, h2⟩ := rne_nearest (x / 2 ^ cexp f x) n
    rw [scale, scale]
    refine ⟨mul_le_mul_of_nonneg_right h1 hc.le, fun he hn => ?_⟩
    obtain ⟨h3, h4⟩ := h2 (mul_right_cancel₀ hc.ne' he) (fun h => hn (by rw [h]))
    exact ⟨_, n, _, rfl, rfl, h3, h4⟩
  by_cases hle : cexp f x ≤ cexp f z
  · obtain ⟨n, hn⟩ := hz.mul_of_le_cexp hle
    exact main n hn
  push Not at hle
  by_cases hx0 : x = 0
  · subst hx0
    have h0 : |rnd f 0 - 0| = 0 := by simp
    rw [h0]
    refine ⟨abs_nonneg _, fun he hn => ?_⟩
    have := abs_eq_zero.mp he.symm
    simp at this hn
    exact absurd this hn
  -- `z` lies strictly below the binade of `x`, so the power of two at its bottom is nearer
  have hlog : cexp f x = Int.log 2 |x| + 1 - f.p := by
    unfold cexp at hle ⊢
    have := le_max_right (Int.log 2 |z| + 1 - f.p) f.emin
    rcases max_choice (Int.log 2 |x| + 1 - f.p) f.emin with h | h
    · exact h
    · omega
  have hlz : |z| < 2 ^ Int.log 2 |x| := by
    by_contra hcon
    push Not at hcon
    have hz0 : z ≠ 0 := by rintro rfl; simp at hcon; exact absurd hcon (not_le.mpr (two_zpow_pos _))
    have h1 : Int.log 2 |x| ≤ Int.log 2 |z| := by
      have := hcon.trans_lt (lt_zpow_log z)
      rw [zpow_lt_zpow_iff_right₀ (by norm_num)] at this
      omega
    unfold cexp at hle hlog
    have := le_max_left (Int.log 2 |z| + 1 - (f.p : ℤ)) f.emin
    omega
  have hxl := zpow_log_le hx0
  obtain ⟨b, hb, hb1, hb2⟩ : ∃ b : ℤ, b = 2 ^ (f.p - 1) ∧ (2 : ℝ) ^ Int.log 2 |x| = b * 2 ^ cexp f x ∧ 0 < b := by
    refine ⟨_, rfl, ?_, by positivity⟩
    push_cast
    rw [← zpow_natCast, ← zpow_add₀ (by norm_num), hlog]
    congr 1
    have := f.hp
    push_cast [Nat.cast_sub (show 1 ≤ f.p by omega)]
    ring
  have near : ∃ n : ℤ, |(n : ℝ) * 2 ^ cexp f x - x| < |z - x| := by
    rcases lt_or_gt_of_ne hx0 with h | h
    · refine ⟨-b, ?_⟩
      push_cast
      rw [neg_mul, ← hb1]
      rw [abs_of_neg h] at hxl hlz ⊢
      have := abs_lt.mp hlz
      rw [abs_of_nonneg (by linarith), abs_of_pos (by linarith)]
      linarith
    · refine ⟨b, ?_⟩
      rw [← hb1]
      rw [abs_of_pos h] at hxl hlz ⊢
      have := abs_lt.mp hlz
      rw [abs_of_nonpos (by linarith), abs_of_neg (by linarith)]
      linarith
  obtain ⟨n, hn⟩ := near
  have h1 : |rnd f x - x| ≤ |(n : ℝ) * 2 ^ cexp f x - x| := by
    unfold rnd
    rw [scale, scale]
    exact mul_le_mul_of_nonneg_right (rne_nearest _ n).1 hc.le
  exact ⟨(h1.trans_lt hn).le, fun he => absurd he (h1.trans_lt hn).ne⟩

/-- Overflow happens exactly from half a unit above the largest finite number. -/
theorem noOvf_iff (f : Fmt) (x : ℝ) : FP.NoOvf f x ↔ |x| < f.threshold := by
  obtain ⟨e, he⟩ : ∃ e : ℤ, e = f.emax + 1 - f.p := ⟨_, rfl⟩
  have hp := f.hp
  have hemax := f.hemax
  have hemin := f.hemin
  have hE := two_zpow_pos e
  have hlim : f.lim = 2 ^ f.p * 2 ^ e := by
    unfold Fmt.lim; rw [← zpow_natCast, ← zpow_add₀ (by norm_num)]; congr 1; omega
  have hthr : f.threshold = 2 ^ f.p * 2 ^ e - 2 ^ e / 2 := by
    unfold Fmt.threshold
    have : (2 : ℝ) ^ e = 2 ^ (f.emax - f.p) * 2 := by rw [← zpow_add_one₀ (by norm_num)]; congr 1; omega
    rw [← hlim, Fmt.lim, this]; ring
  have hM : IsRep f ((2 ^ f.p - 1) * 2 ^ e) := by
    have := isRep_of_le (f := f) (m := 2 ^ f.p - 1) (e := e) (by
      have : (1 : ℤ) ≤ 2 ^ f.p := one_le_pow₀ (by norm_num)
      rw [abs_of_nonneg (by omega)]; omega) (by omega)
    push_cast at this; exact this
  have hL : IsRep f f.lim := by unfold Fmt.lim; exact isRep_two_zpow (by omega)
  unfold FP.NoOvf
  rw [abs_rnd]
  have hx := abs_nonneg x
  generalize |x| = x at *
  constructor
  · intro h
    by_contra hc
    push Not at hc
    rcases le_or_gt f.lim x with h1 | h1
    · exact absurd (le_rnd_of_le hL h1) (not_le.mpr h)
    · have hlow : (2 : ℝ) ^ f.emax ≤ x := by
        have h3 : (2 : ℝ) ^ f.emax = 2 ^ f.p * 2 ^ e / 2 := by
          rw [← hlim, Fmt.lim, zpow_add_one₀ (by norm_num)]; ring
        have h4 : (2 : ℝ) ^ 1 ≤ 2 ^ f.p := pow_le_pow_right₀ (by norm_num) (by omega)
        rw [h3]; rw [hthr] at hc; nlinarith
      have hlog : Int.log 2 |x| = f.emax := by
        apply log_eq_of <;> rw [abs_of_nonneg hx]
        · exact hlow
        · exact h1
      have hcx : cexp f x = e := by unfold cexp; rw [hlog, he]; exact max_eq_left (by omega)
      have h5 : (2 : ℤ) ^ f.p ≤ rne (x / 2 ^ e) := by
        have h6 : ((2 ^ f.p - 1 : ℤ) : ℝ) + 1 / 2 ≤ x / 2 ^ e := by
          rw [le_div_iff₀ hE]; push_cast; rw [hthr] at hc; linarith
        have h7 : rne (((2 ^ f.p - 1 : ℤ) : ℝ) + 1 / 2) = 2 ^ f.p := by
          have hfl : ⌊((2 ^ f.p - 1 : ℤ) : ℝ) + 1 / 2⌋ = 2 ^ f.p - 1 := by rw [Int.floor_eq_iff]; constructor <;> linarith
          have hfr : Int.fract (((2 ^ f.p - 1 : ℤ) : ℝ) + 1 / 2) = 1 / 2 := by rw [Int.fract, hfl]; ring
          unfold rne
          rw [hfr, hfl, if_neg (lt_irrefl _), if_neg (lt_irrefl _), if_neg]
          · ring
          · rw [Int.not_even_iff_odd]
            have : Even ((2 : ℤ) ^ f.p) := (even_two).pow_of_ne_zero (by omega)
            exact this.sub_odd odd_one
        rw [← h7]; exact rne_mono h6
      have h8 : f.lim ≤ rnd f x := by
        unfold rnd; rw [hcx, hlim]
        exact mul_le_mul_of_nonneg_right (by exact_mod_cast h5) hE.le
      linarith
  · intro h
    rcases le_or_gt x ((2 ^ f.p - 1) * 2 ^ e) with h1 | h1
    · have := rnd_le_of_le hM h1
      rw [hlim]; linarith
    · have h2 := ((rnd_nearestEven f x).2 _ hM).1
      rw [abs_of_neg (show (2 ^ f.p - 1) * 2 ^ e - x < 0 by linarith)] at h2
      have := le_abs_self (rnd f x - x)
      rw [hlim]; rw [hthr] at h; linarith

namespace FP
variable {f g : Fmt}

theorem ofReal_correct (s : Bool) (x : ℝ) : CorrectlyRounded (ofReal f s x) x s := by
  constructor
  · intro h
    obtain ⟨h1, h2⟩ := ofReal_of_noOvf (s := s) ((noOvf_iff f x).mpr h)
    refine ⟨h1, by rw [h2]; exact rnd_nearestEven f x, ?_⟩
    rcases lt_trichotomy x 0 with h0 | h0 | h0
    · simp [signBit_ofReal_neg h0, h0]
    · subst h0; simp [signBit_ofReal_zero]
    · simp [signBit_ofReal_pos h0, h0.ne', not_lt.mpr h0.le]
  · intro h
    exact ofReal_of_ovf (fun hc => absurd ((noOvf_iff f x).mp hc) (not_lt.mpr h))

/-- A correctly rounded value is unique, so the theorems below leave no choice. -/
theorem CorrectlyRounded.unique {v w : FP f} {x : ℝ} {s : Bool} (hv : CorrectlyRounded v x s) (hw : CorrectlyRounded w x s) : v = w := by
  rcases lt_or_ge |x| f.threshold with h | h
  · obtain ⟨v1, v2, v3⟩ := hv.1 h
    obtain ⟨w1, w2, w3⟩ := hw.1 h
    apply ext_of_finite v1 w1
    · by_contra hne
      have e1 := (v2.2 _ w2.1).1
      have e2 := (w2.2 _ v2.1).1
      obtain ⟨m, n, e, a1, a2, a3, a4⟩ := (v2.2 _ w2.1).2 (le_antisymm e1 e2) (Ne.symm hne)
      obtain ⟨m', n', e', b1, b2, b3, b4⟩ := (w2.2 _ v2.1).2 (le_antisymm e2 e1) hne
      -- the difference is both `±2^e` and `±2^e'`, so the exponents agree and the parities clash
      have d1 : |v.toReal - w.toReal| = 2 ^ e := by
        rw [a1, a2, ← sub_mul, abs_mul, abs_of_pos (two_zpow_pos e)]
        have : |(m : ℝ) - n| = 1 := by exact_mod_cast a3
        rw [this, one_mul]
      have d2 : |v.toReal - w.toReal| = 2 ^ e' := by
        rw [abs_sub_comm, b1, b2, ← sub_mul, abs_mul, abs_of_pos (two_zpow_pos e')]
        have : |(m' : ℝ) - n'| = 1 := by exact_mod_cast b3
        rw [this, one_mul]
      have ee : e = e' := by
        have := d1.symm.trans d2
        exact zpow_right_injective₀ (by norm_num) (by norm_num) this
      subst ee
      have hn : n = m' := by
        have := mul_right_cancel₀ (two_zpow_pos e).ne' (a2.symm.trans b1)
        exact_mod_cast this
      rw [← hn] at b4
      have := a4.sub b4
      rcases abs_eq (by norm_num : (0 : ℤ) ≤ 1) |>.mp a3 with h | h <;> rw [h] at this <;> revert this <;> decide
    · rw [Bool.eq_iff_iff, v3, w3]
  · rw [hv.2 h, hw.2 h]

/-- Addition. -/
theorem ieee_add :
    (∀ (s : Bool) (y : FP f), (add (nan s) y).IsNaN) ∧ (∀ (x : FP f) (s : Bool), (add x (nan s)).IsNaN) ∧
    (∀ s, add (inf s : FP f) (inf s) = inf s) ∧ (∀ s, (add (inf s : FP f) (inf !s)).IsNaN) ∧
    (∀ (s : Bool) (y : FP f), y.Finite → add (inf s) y = inf s ∧ add y (inf s) = inf s) ∧
    (∀ x y : FP f, x.Finite → y.Finite → CorrectlyRounded (add x y) (x.toReal + y.toReal) (x.signBit && y.signBit)) := by
  refine ⟨fun s y => by cases y <;> trivial, fun x s => by cases x <;> trivial, fun s => by simp [add], fun s => by cases s <;> trivial,
    fun s y hy => ?_, fun x y hx hy => ?_⟩
  · obtain ⟨t, b, hb, rfl⟩ := finite_cases hy
    exact ⟨rfl, rfl⟩
  · rw [add_fin hx hy]; exact ofReal_correct _ _

/-- Subtraction: the signs of a zero difference differ from those of a zero sum. -/
theorem ieee_sub :
    (∀ (s : Bool) (y : FP f), (sub (nan s) y).IsNaN) ∧ (∀ (x : FP f) (s : Bool), (sub x (nan s)).IsNaN) ∧
    (∀ s, (sub (inf s : FP f) (inf s)).IsNaN) ∧ (∀ s, sub (inf s : FP f) (inf !s) = inf s) ∧
    (∀ (s : Bool) (y : FP f), y.Finite → sub (inf s) y = inf s ∧ sub y (inf s) = inf !s) ∧
    (∀ x y : FP f, x.Finite → y.Finite → CorrectlyRounded (sub x y) (x.toReal - y.toReal) (x.signBit && !y.signBit)) := by
  refine ⟨fun s y => by cases y <;> trivial, fun x s => by cases x <;> trivial, fun s => by cases s <;> trivial, fun s => by cases s <;> rfl,
    fun s y hy => ?_, fun x y hx hy => ?_⟩
  · obtain ⟨t, b, hb, rfl⟩ := finite_cases hy
    exact ⟨rfl, rfl⟩
  · rw [sub_fin hx hy]; exact ofReal_correct _ _

/-- Multiplication. -/
theorem ieee_mul :
    (∀ (s : Bool) (y : FP f), (mul (nan s) y).IsNaN) ∧ (∀ (x : FP f) (s : Bool), (mul x (nan s)).IsNaN) ∧
    (∀ s t, mul (inf s : FP f) (inf t) = inf (xor s t)) ∧
    (∀ (s : Bool) (y : FP f), y.Finite → y.toReal = 0 → (mul (inf s) y).IsNaN ∧ (mul y (inf s)).IsNaN) ∧
    (∀ (s : Bool) (y : FP f), y.Finite → y.toReal ≠ 0 → mul (inf s) y = inf (xor s (decide (y.toReal < 0))) ∧
      mul y (inf s) = inf (xor s (decide (y.toReal < 0)))) ∧
    (∀ x y : FP f, x.Finite → y.Finite → CorrectlyRounded (mul x y) (x.toReal * y.toReal) (xor x.signBit y.signBit)) := by
  refine ⟨fun s y => by cases y <;> trivial, fun x s => by cases x <;> trivial, fun s t => by cases s <;> cases t <;> rfl,
    fun s y hy h0 => ?_, fun s y hy h0 => ?_, fun x y hx hy => ?_⟩
  · obtain ⟨t, b, hb, rfl⟩ := finite_cases hy
    have : b = 0 := by cases t <;> simpa using h0
    subst this
    simp [mul, IsNaN]
  · obtain ⟨t, b, hb, rfl⟩ := finite_cases hy
    have hb0 : b ≠ 0 := by cases t <;> simpa using h0
    have hb1 : 0 < b := lt_of_le_of_ne hb.1 (Ne.symm hb0)
    have : decide (toReal (fin t b hb) < 0) = t := by cases t <;> simp [hb1, hb1.le]
    rw [this]
    unfold mul
    dsimp only
    rw [if_neg hb0, if_neg hb0]
    cases s <;> cases t <;> exact ⟨rfl, rfl⟩
  · rw [mul_fin hx hy]
    have := ofReal_correct (f := f) (x.signBit != y.signBit) (x.toReal * y.toReal)
    simpa using this

/-- Division. -/
theorem ieee_div :
    (∀ (s : Bool) (y : FP f), (div (nan s) y).IsNaN) ∧ (∀ (x : FP f) (s : Bool), (div x (nan s)).IsNaN) ∧
    (∀ s t, (div (inf s : FP f) (inf t)).IsNaN) ∧
    (∀ (s : Bool) (y : FP f), y.Finite → div (inf s) y = inf (xor s y.signBit)) ∧
    (∀ (x : FP f) (t : Bool), x.Finite → (div x (inf t)).Finite ∧ (div x (inf t)).toReal = 0 ∧ (div x (inf t)).signBit = xor x.signBit t) ∧
    (∀ x y : FP f, x.Finite → y.Finite → y.toReal = 0 → (x.toReal = 0 → (div x y).IsNaN) ∧
      (x.toReal ≠ 0 → div x y = inf (xor x.signBit y.signBit))) ∧
    (∀ x y : FP f, x.Finite → y.Finite → y.toReal ≠ 0 → CorrectlyRounded (div x y) (x.toReal / y.toReal) (xor x.signBit y.signBit)) := by
  refine ⟨fun s y => by cases y <;> trivial, fun x s => by cases x <;> trivial, fun s t => trivial,
    fun s y hy => ?_, fun x t hx => ?_, fun x y hx hy h0 => ?_, fun x y hx hy h0 => ?_⟩
  · obtain ⟨t, b, hb, rfl⟩ := finite_cases hy
    cases s <;> cases t <;> rfl
  · obtain ⟨s, a, ha, rfl⟩ := finite_cases hx
    simp only [div]
    exact ⟨(ofReal_zero _).1, (ofReal_zero _).2, by rw [signBit_ofReal_zero]; cases s <;> cases t <;> rfl⟩
  · obtain ⟨s, a, ha, rfl⟩ := finite_cases hx
    obtain ⟨t, b, hb, rfl⟩ := finite_cases hy
    have hb0 : b = 0 := by cases t <;> simpa using h0
    constructor
    · intro h
      have ha0 : a = 0 := by cases s <;> simpa using h
      simp [div, hb0, ha0, IsNaN]
    · intro h
      have ha0 : a ≠ 0 := by cases s <;> simpa using h
      simp only [div, if_pos hb0, if_neg ha0]
      cases s <;> cases t <;> rfl
  · rw [div_fin hx hy h0]
    have := ofReal_correct (f := f) (x.signBit != y.signBit) (x.toReal / y.toReal)
    simpa using this

/-- Square root: `sqrt (-0) = -0`, negative numbers give NaN. -/
theorem ieee_sqrt :
    (∀ s, (sqrt (nan s : FP f)).IsNaN) ∧ sqrt (inf false : FP f) = inf false ∧ (sqrt (inf true : FP f)).IsNaN ∧
    (∀ x : FP f, x.Finite → x.toReal < 0 → (sqrt x).IsNaN) ∧
    (∀ x : FP f, x.Finite → 0 ≤ x.toReal → CorrectlyRounded (sqrt x) (Real.sqrt x.toReal) x.signBit) := by
  refine ⟨fun s => trivial, rfl, trivial, fun x hx h => ?_, fun x hx h => ?_⟩
  · obtain ⟨s, a, ha, rfl⟩ := finite_cases hx
    have ha0 := ha.1
    cases s
    · simp at h; linarith
    · have : a ≠ 0 := by rintro rfl; simp at h
      simp [sqrt, this, IsNaN]
  · obtain ⟨s, a, ha, rfl⟩ := finite_cases hx
    have ha0 := ha.1
    by_cases h0 : a = 0
    · subst h0
      have : Real.sqrt (toReal (fin s 0 ha)) = 0 := by cases s <;> simp
      rw [this]
      simp only [sqrt, if_true]
      exact ofReal_correct s 0
    · cases s
      · simp only [sqrt, if_neg h0]
        exact ofReal_correct false _
      · simp at h; exact absurd (le_antisymm h ha0) h0

/-- Negation and absolute value only touch the sign bit, also of infinities and NaNs. -/
theorem ieee_sign (x : FP f) :
    (neg x).signBit = (!x.signBit) ∧ (abs x).signBit = false ∧ ((neg x).Finite ↔ x.Finite) ∧ ((abs x).Finite ↔ x.Finite) ∧
    ((neg x).IsNaN ↔ x.IsNaN) ∧ ((abs x).IsNaN ↔ x.IsNaN) ∧ (neg x).toReal = -x.toReal ∧ (abs x).toReal = |x.toReal| := by
  refine ⟨signBit_neg x, by cases x <;> rfl, finite_neg, finite_abs, by cases x <;> exact Iff.rfl, by cases x <;> exact Iff.rfl,
    toReal_neg x, toReal_abs x⟩

/-- Comparisons are those of the extended real line; with a NaN they are false. -/
theorem ieee_compare (x y : FP f) :
    (lt x y = true ↔ ¬ x.IsNaN ∧ ¬ y.IsNaN ∧ x.toEReal < y.toEReal) ∧
    (le x y = true ↔ ¬ x.IsNaN ∧ ¬ y.IsNaN ∧ x.toEReal ≤ y.toEReal) ∧
    (eq x y = true ↔ ¬ x.IsNaN ∧ ¬ y.IsNaN ∧ x.toEReal = y.toEReal) := by
  have h2 : le x y = true ↔ ¬ x.IsNaN ∧ ¬ y.IsNaN ∧ x.toEReal ≤ y.toEReal := by
    cases x <;> cases y <;> simp [le, IsNaN, toEReal]
    all_goals (try split) <;> (try split) <;> simp_all
  have h3 : le y x = true ↔ ¬ y.IsNaN ∧ ¬ x.IsNaN ∧ y.toEReal ≤ x.toEReal := by
    cases x <;> cases y <;> simp [le, IsNaN, toEReal]
    all_goals (try split) <;> (try split) <;> simp_all
  refine ⟨?_, h2, ?_⟩
  · cases x <;> cases y <;> simp [lt, IsNaN, toEReal]
    all_goals (try split) <;> (try split) <;> simp_all
    all_goals rw [← EReal.coe_neg]
    · exact EReal.bot_lt_coe _
    · exact EReal.coe_lt_top _
  · unfold eq
    rw [Bool.and_eq_true, h2, h3, le_antisymm_iff]
    tauto

/-- Conversion between formats rounds correctly and keeps signs, infinities and NaNs. -/
theorem ieee_convert :
    (∀ s, conv g (nan s : FP f) = nan s) ∧ (∀ s, conv g (inf s : FP f) = inf s) ∧
    (∀ x : FP f, x.Finite → CorrectlyRounded (conv g x) x.toReal x.signBit) := by
  refine ⟨fun _ => rfl, fun _ => rfl, fun x hx => ?_⟩
  obtain ⟨s, a, ha, rfl⟩ := finite_cases hx
  exact ofReal_correct s _

/-- `as usize` truncates, and saturates at both ends; NaN gives 0. -/
theorem ieee_toUsize [Target] :
    (∀ s, toUsize (nan s : FP f) = 0) ∧ toUsize (inf true : FP f) = 0 ∧ toUsize (inf false : FP f) = satMax ∧
    (∀ x : FP f, x.Finite → (x.toReal < 1 → toUsize x = 0) ∧ ((satMax : ℝ) ≤ x.toReal → toUsize x = satMax) ∧
      (0 ≤ x.toReal → x.toReal < satMax → (toUsize x : ℝ) ≤ x.toReal ∧ x.toReal < toUsize x + 1)) := by
  have hM : usizeMod - 1 = satMax := by unfold usizeMod usizeBits satMax; cases Target.wide <;> decide
  refine ⟨fun _ => rfl, rfl, hM, fun x hx => ?_⟩
  obtain ⟨s, a, ha, rfl⟩ := finite_cases hx
  show (_ → min _ _ = 0) ∧ (_ → min _ _ = _) ∧ (_ → _ → ((min _ _ : ℕ) : ℝ) ≤ _ ∧ _ < ((min _ _ : ℕ) : ℝ) + 1)
  rw [hM]
  generalize toReal (fin s a ha) = v
  refine ⟨fun h => ?_, fun h => ?_, fun h0 h1 => ?_⟩
  · have : ⌊v⌋ ≤ 0 := by have := Int.floor_lt.mpr (show v < ((1 : ℤ) : ℝ) by simpa using h); omega
    rw [Int.toNat_of_nonpos this]; simp
  · have : (satMax : ℤ) ≤ ⌊v⌋ := Int.le_floor.mpr (by simpa using h)
    omega
  · have f0 : 0 ≤ ⌊v⌋ := Int.floor_nonneg.mpr h0
    have f1 : ⌊v⌋ < satMax := Int.floor_lt.mpr (by simpa using h1)
    have : min ⌊v⌋.toNat satMax = ⌊v⌋.toNat := by omega
    rw [this]
    have e : ((⌊v⌋.toNat : ℕ) : ℝ) = ((⌊v⌋ : ℤ) : ℝ) := by
      rw [← Int.cast_natCast, Int.toNat_of_nonneg f0]
    rw [e]
    exact ⟨Int.floor_le v, Int.lt_floor_add_one v⟩

end FP

/-- The constants and casts of `FloatOps` are rounded correctly, with positive zeros; the functions of the platform are not mixed up. -/
theorem ieee_instance {f : Fmt} (L : Libm f) :
    CorrectlyRounded (f := f) (FloatOps.zero : Fl L) 0 false ∧ CorrectlyRounded (f := f) (FloatOps.one : Fl L) 1 false ∧
    CorrectlyRounded (f := f) (FloatOps.two : Fl L) 2 false ∧ CorrectlyRounded (f := f) (FloatOps.pi : Fl L) Real.pi false ∧
    (∀ n : ℕ, CorrectlyRounded (f := f) (FloatOps.ofUsize n : Fl L) n false) ∧
    (∀ x y : Fl L, FloatOps.exp x = L.exp x ∧ FloatOps.cos x = L.cos x ∧ FloatOps.sin x = L.sin x ∧ FloatOps.log10 x = L.log10 x ∧
      FloatOps.powf x y = L.powf x y ∧ FloatOps.isSignNegative x = FP.signBit (f := f) x ∧ (FloatOps.isFinite x = true ↔ FP.Finite (f := f) x)) := by
  refine ⟨FP.ofReal_correct _ _, FP.ofReal_correct _ _, FP.ofReal_correct _ _, FP.ofReal_correct _ _, fun n => FP.ofReal_correct _ _,
    fun x y => ⟨rfl, rfl, rfl, rfl, rfl, rfl, FP.isFinite_iff⟩⟩

/-- Examples: `1 + 2^-24` is a tie in f32 and rounds to the even `1`; the f32 threshold is `2^128 - 2^103`. -/
example : NearestEven binary32 (1 + 1 / 2 ^ 24) 1 ∧ binary32.threshold = 2 ^ 128 - 2 ^ 103 := by
  constructor
  · have h := rnd_nearestEven binary32 (1 + 1 / 2 ^ 24)
    have e : rnd binary32 (1 + 1 / 2 ^ 24) = 1 := by
      have hlog : Int.log 2 |(1 + 1 / 2 ^ 24 : ℝ)| = 0 := by apply log_eq_of <;> rw [abs_of_pos] <;> norm_num
      have hc : cexp binary32 (1 + 1 / 2 ^ 24) = -23 := by unfold cexp; rw [hlog]; norm_num [binary32]
      unfold rnd
      rw [hc, show ((1 + 1 / 2 ^ 24 : ℝ) / 2 ^ (-23 : ℤ)) = ((2 ^ 23 : ℤ) : ℝ) + 1 / 2 by rw [zpow_neg]; norm_num,
        rne_half_even (by decide), zpow_neg]
      norm_num
    rwa [e] at h
  · unfold Fmt.threshold; norm_num [binary32]

end Rasp
