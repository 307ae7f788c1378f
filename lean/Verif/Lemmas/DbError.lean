import Verif.Spec.DbError
import Verif.Lemmas.WindowError
import Mathlib.Analysis.Complex.ExponentialBounds

/-!
# Rounding errors of the decibel conversions
-/

namespace Rasp
open FloatOps Fl
variable {f : Fmt} {L : Libm f} {k : ℝ}

theorem log_ten_lt : Real.log 10 < 2.311 := by
  have h : 3 * Real.log 10 ≤ 10 * Real.log 2 := by
    have : Real.log (10 ^ 3) ≤ Real.log (2 ^ 10) := Real.log_le_log (by norm_num) (by norm_num)
    rw [Real.log_pow, Real.log_pow] at this
    exact_mod_cast this
  have := Real.log_two_lt_d9
  linarith

theorem log_ten_gt : 2.287 < Real.log 10 := by
  have h : 33 * Real.log 2 ≤ 10 * Real.log 10 := by
    have : Real.log (2 ^ 33) ≤ Real.log (10 ^ 10) := Real.log_le_log (by norm_num) (by norm_num)
    rw [Real.log_pow, Real.log_pow] at this
    exact_mod_cast this
  have := Real.log_two_gt_d9
  linarith

/-- A relative error of `e` shifts the level by at most `9 e` decibels. -/
theorem logb_near {x y e : ℝ} (hx : 0 < x) (he : e ≤ 1 / 100) (h : |y - x| ≤ e * x) :
    0 < y ∧ |20 * Real.logb 10 y - 20 * Real.logb 10 x| ≤ 9 * e := by
  have hl := log_ten_gt
  have he0 : 0 ≤ e := by
    have := (abs_nonneg _).trans h
    exact nonneg_of_mul_nonneg_left this hx
  have h' := abs_le.mp h
  have hy : 0 < y := by nlinarith
  refine ⟨hy, ?_⟩
  have e1 : Real.log y - Real.log x = Real.log (y / x) := (Real.log_div hy.ne' hx.ne').symm
  have r0 : 0 < y / x := by positivity
  have r1 : y / x ≤ 1 + e := by rw [div_le_iff₀ hx]; linarith
  have r2 : 1 - e ≤ y / x := by rw [le_div_iff₀ hx]; linarith
  have u1 := Real.log_le_sub_one_of_pos r0
  have u2 := Real.one_sub_inv_le_log_of_pos r0
  have u3 : -(1.02 * e) ≤ 1 - (y / x)⁻¹ := by
    have : (y / x)⁻¹ ≤ 1 + 1.02 * e := by
      rw [inv_le_comm₀ r0 (by positivity)]
      refine le_trans ?_ r2
      rw [inv_le_comm₀ (by positivity) (by linarith), ← one_div, div_le_iff₀ (by linarith)]
      nlinarith
    linarith
  have u4 : |Real.log (y / x)| ≤ 1.02 * e := abs_le.mpr ⟨by linarith, by linarith⟩
  rw [show 20 * Real.logb 10 y - 20 * Real.logb 10 x = 20 * (Real.log (y / x) / Real.log 10) by
    rw [← e1]; unfold Real.logb; ring, abs_mul, abs_div, abs_of_pos (show 0 < Real.log 10 by linarith)]
  norm_num
  rw [← mul_div_assoc, div_le_iff₀ (by linarith)]
  nlinarith

/-- An error of `d` decibels is a relative error of at most `0.117 d`. -/
theorem amp_near {a b d : ℝ} (hd : d ≤ 1 / 10) (h : |b - a| ≤ d) :
    |(10 : ℝ) ^ (b / 20) - 10 ^ (a / 20)| ≤ 0.118 * d * 10 ^ (a / 20) := by
  have hl := log_ten_lt
  have hl0 := log_ten_gt
  have hd0 : 0 ≤ d := (abs_nonneg _).trans h
  have hp : (0 : ℝ) < 10 ^ (a / 20) := by positivity
  have e : (10 : ℝ) ^ (b / 20) = 10 ^ (a / 20) * Real.exp (Real.log 10 * ((b - a) / 20)) := by
    rw [Real.rpow_def_of_pos (by norm_num), Real.rpow_def_of_pos (by norm_num), ← Real.exp_add]
    congr 1; ring
  have m : |Real.log 10 * ((b - a) / 20)| ≤ 0.11556 * d := by
    rw [abs_mul, abs_div, abs_of_pos (show 0 < Real.log 10 by linarith)]
    norm_num
    have := mul_le_mul hl.le h (abs_nonneg _) (by norm_num)
    linarith
  have m2 := Real.abs_exp_sub_one_sub_id_le (x := Real.log 10 * ((b - a) / 20)) (by linarith)
  rw [e, show (10 : ℝ) ^ (a / 20) * Real.exp (Real.log 10 * ((b - a) / 20)) - 10 ^ (a / 20) =
    (Real.exp (Real.log 10 * ((b - a) / 20)) - 1) * 10 ^ (a / 20) by ring, abs_mul, abs_of_pos hp]
  refine mul_le_mul_of_nonneg_right ?_ hp.le
  generalize Real.log 10 * ((b - a) / 20) = t at *
  have m3 := abs_add_le (Real.exp t - 1 - t) t
  rw [sub_add_cancel] at m3
  have m4 : t ^ 2 ≤ 0.002 * d := by
    rw [← sq_abs]
    nlinarith [abs_nonneg t]
  linarith

theorem logb_million : 20 * Real.logb 10 1e-6 = -120 := by
  rw [show (1e-6 : ℝ) = 10 ^ (-6 : ℝ) by norm_num, Real.logb_rpow (by norm_num) (by norm_num)]
  norm_num

theorem level_eq {x : ℝ} (hx : 0 < x) : level x = max (-120) (20 * Real.logb 10 x) := by
  unfold level
  rw [← logb_million]
  have := Real.logb_le_logb (b := 10) (by norm_num) (show (0 : ℝ) < 1e-6 by norm_num) hx
  split_ifs with h
  · rw [max_eq_right]; linarith [this.mpr h.le]
  · rw [max_eq_left]
    have := Real.logb_le_logb_of_le (b := 10) (by norm_num) hx (not_lt.mp h)
    linarith

theorem level_ge (x : ℝ) : -120 ≤ level x := by
  rcases lt_or_ge 0 x with h | h
  · rw [level_eq h]; exact le_max_left _ _
  · unfold level; rw [if_neg (by linarith)]

theorem level_max {x : ℝ} (h : x ≤ 1e6) : max 120 |level x| = 120 := by
  apply max_eq_left
  have := level_ge x
  rw [abs_le]
  refine ⟨by linarith, ?_⟩
  unfold level
  split_ifs with h6
  · have : Real.logb 10 x ≤ 6 := by
      rw [Real.logb_le_iff_le_rpow (by norm_num) (by norm_num at h6 ⊢; linarith)]; norm_num at h ⊢; exact h
    linarith
  · norm_num

theorem amplitude_nonneg (d : ℝ) : 0 ≤ amplitude d := by
  unfold amplitude
  split_ifs
  · positivity
  · exact le_rfl

/-- The rounded constant 1e-6. -/
theorem floor_near (hf : f.Ordinary) (hu : 60000 * f.u ≤ 1) :
    |rnd f (rnd binary64 (1 / 1000000)) - 1 / 1000000| ≤ 2.1 * f.u * (1 / 1000000) := by
  have e1 := abs_rnd_sub_le_u binary64 (1 / 1000000)
  have e2 := abs_rnd_sub_le_u f (rnd binary64 (1 / 1000000))
  have e4 := abs_add_le (rnd f (rnd binary64 (1 / 1000000)) - rnd binary64 (1 / 1000000)) (rnd binary64 (1 / 1000000) - 1 / 1000000)
  rw [sub_add_sub_cancel] at e4
  have e5 := abs_add_le (rnd binary64 (1 / 1000000) - 1 / 1000000) (1 / 1000000)
  rw [sub_add_cancel] at e5
  rw [abs_of_pos (show (0 : ℝ) < 1 / 1000000 by norm_num)] at e1 e5
  have u0 := f.u_pos
  have v0 := binary64.u_pos
  have v1 := hf.u64_le
  have t1 := hf.roomy.tiny
  have t2 := binary64_roomy.tiny
  have s1 : f.u ^ 3 ≤ f.u * (1 / 60000) ^ 2 := by
    have : f.u ^ 2 ≤ (1 / 60000) ^ 2 := pow_le_pow_left₀ u0.le (by linarith) 2
    nlinarith
  have s2 : binary64.u ^ 3 ≤ f.u ^ 3 := pow_le_pow_left₀ v0.le v1 3
  generalize rnd binary64 (1 / 1000000) = r at *
  have b1 : |r| ≤ 1.01 * (1 / 1000000) := by nlinarith
  have := mul_le_mul_of_nonneg_left b1 u0.le
  nlinarith

theorem logb_le_emax {x : Fl L} (hf : f.Ordinary) (h1 : 5e-7 < x.toReal) : 42 * |Real.logb 10 x.toReal| + 1 ≤ 2 ^ f.emax := by
  have hx0 : 0 < x.toReal := by linarith
  have hE := hf.emax_ge
  rw [show 42 * |Real.logb 10 x.toReal| + 1 = |42 * Real.logb 10 x.toReal| + 1 by rw [abs_mul]; norm_num]
  have lo : -(7 : ℝ) ≤ Real.logb 10 x.toReal := by
    rw [Real.le_logb_iff_rpow_le (by norm_num) hx0]
    norm_num; linarith
  have hi : Real.logb 10 x.toReal ≤ f.emax + 1 := by
    rw [Real.logb_le_iff_le_rpow (by norm_num) hx0]
    have h2 : x.toReal < f.lim := by
      have := Fl.abs_toReal_lt x
      rwa [abs_of_pos hx0] at this
    refine h2.le.trans ?_
    unfold Fmt.lim
    rw [← Real.rpow_intCast]
    push_cast
    exact Real.rpow_le_rpow (by norm_num) (by norm_num) (by have := hf.large; have : (67 : ℝ) ≤ f.emax := by exact_mod_cast this
                                                            linarith)
  have key : ∀ n : ℕ, 67 ≤ n → 42 * (n + 1) + 1 ≤ 2 ^ n := by
    intro n hn
    induction n, hn using Nat.le_induction with
    | base => norm_num
    | succ n hn ih => rw [pow_succ]; omega
  have hn : 42 * ((f.emax : ℝ) + 1) + 1 ≤ 2 ^ f.emax := by
    obtain ⟨n, hn⟩ := Int.eq_ofNat_of_zero_le (show 0 ≤ f.emax by have := hf.large; omega)
    have := key n (by have := hf.large; omega)
    rw [hn]
    push_cast
    rw [zpow_natCast]
    exact_mod_cast this
  have : |42 * Real.logb 10 x.toReal| ≤ 2 ^ f.emax - 1 := by
    rw [abs_le]
    constructor
    · linarith
    · linarith
  linarith

end Rasp
