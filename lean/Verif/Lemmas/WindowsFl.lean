import Verif.Lemmas.Windows
import Verif.Lemmas.SmoothFl
import Verif.Lemmas.Smooth

/-! # IEEE facts used for the windows -/

namespace Rasp
open FloatOps

/-- Halving a representable number that is at least 1 is exact. -/
theorem IsRep.half {f : Fmt} {x : ℝ} (h : IsRep f x) (h1 : 1 ≤ |x|) : IsRep f (x / 2) := by
  obtain ⟨m, e, hm, he, rfl⟩ := h
  refine ⟨m, e - 1, hm, ?_, ?_⟩
  · by_contra hc
    have hee : e = f.emin := by omega
    have hlt : |(m : ℝ) * 2 ^ e| < 1 := by
      rw [abs_mul, abs_of_pos (two_zpow_pos e)]
      have hm' : |(m : ℝ)| < 2 ^ f.p := by exact_mod_cast hm
      calc |(m : ℝ)| * 2 ^ e < 2 ^ f.p * 2 ^ e := mul_lt_mul_of_pos_right hm' (two_zpow_pos e)
        _ = (2 : ℝ) ^ ((f.p : ℤ) + e) := by rw [zpow_add₀ (by norm_num), zpow_natCast]
        _ ≤ (2 : ℝ) ^ (0 : ℤ) := zpow_le_zpow_right₀ (by norm_num) (by have := f.hemin; omega)
        _ = 1 := by norm_num
    linarith
  · rw [zpow_sub₀ (by norm_num), zpow_one]; ring

/-- `1 - x` is exact for representable `x` between 1/2 and 1. -/
theorem IsRep.one_sub {f : Fmt} {x : ℝ} (h : IsRep f x) (h0 : 1 / 2 ≤ x) (h1 : x ≤ 1) : IsRep f (1 - x) := by
  have hp := f.hp; have hm := f.hemin
  have hc : -(f.p : ℤ) ≤ cexp f x := by
    apply le_cexp_of_le
    rw [abs_of_pos (by linarith), show (f.p : ℤ) - 1 + -(f.p : ℤ) = -1 by ring]
    norm_num; linarith
  obtain ⟨k, hk⟩ := h.mul_of_le_cexp hc
  have h2 : (2 : ℝ) ^ (f.p : ℤ) * 2 ^ (-(f.p : ℤ)) = 1 := by rw [← zpow_add₀ (by norm_num)]; simp
  have e : 1 - x = ((2 ^ f.p - k : ℤ) : ℝ) * (2 : ℝ) ^ (-(f.p : ℤ)) := by
    rw [hk]; push_cast; rw [sub_mul, ← h2, zpow_natCast]
  rw [e]
  have hpos := two_zpow_pos (-(f.p : ℤ))
  apply isRep_of_le
  · have a1 : 0 ≤ ((2 ^ f.p - k : ℤ) : ℝ) := by
      by_contra hc
      push Not at hc
      have : 1 - x < 0 := by rw [e]; exact mul_neg_of_neg_of_pos hc hpos
      linarith
    have a2 : ((2 ^ f.p - k : ℤ) : ℝ) ≤ ((2 ^ f.p : ℤ) : ℝ) := by
      by_contra hc
      push Not at hc
      have h3 : 1 < 1 - x := by
        rw [e, ← h2, zpow_natCast]
        apply mul_lt_mul_of_pos_right _ hpos
        push_cast at hc ⊢; exact hc
      linarith
    have b1 : 0 ≤ (2 ^ f.p - k : ℤ) := by exact_mod_cast a1
    have b2 : (2 ^ f.p - k : ℤ) ≤ 2 ^ f.p := by exact_mod_cast a2
    rw [abs_of_nonneg b1]; exact b2
  · omega

/-- Rounding of a number whose neighbours are known. -/
theorem rnd_eq_of {f : Fmt} {x : ℝ} {m e : ℤ} (he : f.emin ≤ e) (h1 : (2 : ℝ) ^ (e + f.p - 1) ≤ |x|)
    (h2 : |x| < 2 ^ (e + f.p)) (h3 : |x / 2 ^ e - m| < 1 / 2) : rnd f x = m * 2 ^ e := by
  have hl : Int.log 2 |x| = e + f.p - 1 := log_eq_of h1 (by rw [sub_add_cancel]; exact h2)
  have hc : cexp f x = e := by unfold cexp; rw [hl]; omega
  unfold rnd
  rw [hc, rne_eq_of_lt h3]

namespace Fl
variable {f : Fmt} {L : Libm f}

theorem lim_ge (f : Fmt) : (8 : ℝ) ≤ f.lim := by
  have hp := f.hp; have hm := f.hemax
  calc (8 : ℝ) = (2 : ℝ) ^ (3 : ℤ) := by norm_num
    _ ≤ f.lim := zpow_le_zpow_right₀ (by norm_num) (by omega)

theorem isRep_two (f : Fmt) : IsRep f 2 := by
  have := isRep_two_zpow (f := f) (e := 1) (by have := f.hemin; have := f.hp; omega)
  simpa using this

theorem isRep_half (f : Fmt) : IsRep f (1 / 2) := by
  have := isRep_two_zpow (f := f) (e := -1) (by have := f.hemin; have := f.hp; omega)
  norm_num at this ⊢; exact this

theorem two_val : (two : Fl L).Finite ∧ (two : Fl L).toReal = 2 :=
  FP.ofReal_exact (isRep_two f) (by have := lim_ge f; rw [abs_of_pos] <;> linarith)

theorem pi_val : (FloatOps.pi : Fl L).Finite ∧ (FloatOps.pi : Fl L).toReal = rnd f Real.pi := by
  apply FP.ofReal_of_noOvf
  apply FP.noOvf_of_le (z := 4)
  · have := isRep_two_zpow (f := f) (e := 2) (by have := f.hemin; have := f.hp; omega)
    norm_num at this; exact this
  · have := lim_ge f; linarith
  · rw [abs_of_pos Real.pi_pos]; exact Real.pi_le_four

/-- A number with absolute value at most 2 is in range. -/
theorem noOvf_two {x : ℝ} (h : |x| ≤ 2) : FP.NoOvf f x :=
  FP.noOvf_of_le (isRep_two f) (by have := lim_ge f; linarith) h

theorem div_two {x : Fl L} (hx : x.Finite) (h : IsRep f (x.toReal / 2)) :
    (x /. two).Finite ∧ (x /. two).toReal = x.toReal / 2 := by
  have h2 := two_val (L := L)
  have := div_val hx h2.1 (by rw [h2.2]; norm_num) (y := two) (by
    rw [h2.2]; apply noOvf_of_abs_le (y := x)
    rw [abs_div]
    have : |(2 : ℝ)| = 2 := by norm_num
    rw [this]; linarith [abs_nonneg x.toReal])
  rw [h2.2, rnd_of_isRep h] at this
  exact this

theorem ext_abs {x y : Fl L} (hx : x.Finite) (hy : y.Finite) (h : |x.toReal| = |y.toReal|) :
    FloatOps.abs x = FloatOps.abs y := by
  apply ext_of_finite (abs_finite.mpr hx) (abs_finite.mpr hy)
  · rw [abs_toReal, abs_toReal, h]
  · rw [abs_sign, abs_sign]

theorem div_nan_left {x y : Fl L} (h : x.IsNaN) : (x /. y).IsNaN := by
  obtain ⟨s, rfl⟩ := isNaN_iff.mp h
  exact trivial

/-- 0/0 is NaN. -/
theorem zero_div_zero {x y : Fl L} (hx : x.Finite) (hy : y.Finite) (hx0 : x.toReal = 0) (hy0 : y.toReal = 0) :
    (x /. y).IsNaN := by
  obtain ⟨s, a, ha, rfl⟩ := FP.finite_cases hx
  obtain ⟨t, c, hc, rfl⟩ := FP.finite_cases hy
  have a0 : a = 0 := by
    have : (if s then -a else a) = 0 := hx0
    cases s <;> simpa using this
  have c0 : c = 0 := by
    have : (if t then -c else c) = 0 := hy0
    cases t <;> simpa using this
  subst a0; subst c0
  show (FP.div (f := f) _ _).IsNaN
  simp only [FP.div, if_true]
  exact trivial

theorem zero_div_val {x y : Fl L} (hx : x.Finite) (hx0 : x.toReal = 0) (hy : y.Finite) (hy0 : y.toReal ≠ 0) :
    (x /. y).Finite ∧ (x /. y).toReal = 0 := by
  have := div_val hx hy hy0 (by rw [hx0, zero_div]; exact noOvf_two (by norm_num))
  rw [hx0, zero_div, rnd_zero] at this
  exact this

theorem mul_zero_val {x y : Fl L} (hx : x.Finite) (hy : y.Finite) (hy0 : y.toReal = 0) :
    (x *. y).Finite ∧ (x *. y).toReal = 0 := by
  have := mul_val hx hy (by rw [hy0, mul_zero]; exact noOvf_two (by norm_num))
  rw [hy0, mul_zero, rnd_zero] at this
  exact this

/-- Multiplication by one is exact on everything except NaN (which stays some NaN). -/
theorem one_mul_eq {x : Fl L} (h : ¬ x.IsNaN) : one *. x = x := by
  have e : FP.ofReal f false 1 = FP.fin false |rnd f 1| (FP.rnd_mag_ok 1 (by
      rw [rnd_of_isRep (isRep_one f), abs_one]; exact FP.one_lt_lim f)) := by
    unfold FP.ofReal
    rw [dif_pos (by rw [rnd_of_isRep (isRep_one f), abs_one]; exact FP.one_lt_lim f)]
    congr 1
    simp
  rcases cases x with ⟨s, rfl⟩ | ⟨s, rfl⟩ | hf
  · exact absurd trivial h
  · show FP.mul (FP.ofReal f false 1) (FP.inf s) = FP.inf s
    rw [e]
    simp only [FP.mul]
    rw [if_neg (by rw [rnd_of_isRep (isRep_one f)]; norm_num)]
    cases s <;> rfl
  · obtain ⟨h1, h2⟩ := one_mul_val hf
    apply ext_of_finite h1 hf h2
    obtain ⟨s, a, ha, rfl⟩ := FP.finite_cases hf
    show FP.signBit (FP.mul (FP.ofReal f false 1) (FP.fin s a ha)) = s
    rw [e, FP.mul_fin (FP.finite_fin _ _ _) (FP.finite_fin _ _ _)]
    have ht : FP.toReal (FP.fin false |rnd f 1| (FP.rnd_mag_ok 1 (by
      rw [rnd_of_isRep (isRep_one f), abs_one]; exact FP.one_lt_lim f)) : FP f) = 1 := by
      simp [rnd_of_isRep (isRep_one f)]
    rw [ht, one_mul, FP.toReal_fin]
    rcases ha.1.lt_or_eq with hpos | hz
    · cases s
      · simp only [Bool.false_eq_true, if_false]; exact FP.signBit_ofReal_pos hpos
      · simp only [if_true]; exact FP.signBit_ofReal_neg (by linarith)
    · subst hz
      have : (if s = true then -(0 : ℝ) else 0) = 0 := by cases s <;> simp
      rw [this, FP.signBit_ofReal_zero]
      cases s <;> rfl

end Fl
end Rasp
