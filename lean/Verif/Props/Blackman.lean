import Verif.Props.WindowsIEEE

/-!
# C59: rounding makes the Blackman window negative at its first point

The crate computes the coefficients 0.42, 0.5, 0.08 as `(1 - 0.16)/2`, `0.5`, `0.16/2`; rounded to f64 they no longer cancel
at the ends, where the exact value is 0.
-/

namespace Rasp
open FloatOps
variable {f : Fmt} {L : Libm f}

/-- 0.16 in f64. -/
theorem rnd_016 : rnd binary64 (16 / 100) = 5764607523034235 * (2 : ℝ) ^ (-55 : ℤ) := by
  have := rnd_eq_of (f := binary64) (x := 16 / 100) (m := 5764607523034235) (e := -55) (by norm_num [binary64])
    (by norm_num [binary64, zpow_neg, abs_of_pos]) (by norm_num [binary64, zpow_neg, abs_of_pos])
    (by rw [zpow_neg]; norm_num [abs_lt])
  rw [this]; norm_num

theorem rnd_084 : rnd binary64 (1 - 5764607523034235 * (2 : ℝ) ^ (-55 : ℤ)) = 7566047373982433 * (2 : ℝ) ^ (-53 : ℤ) := by
  have := rnd_eq_of (f := binary64) (x := 1 - 5764607523034235 * (2 : ℝ) ^ (-55 : ℤ)) (m := 7566047373982433) (e := -53)
    (by norm_num [binary64])
    (by rw [abs_of_pos] <;> norm_num [binary64, zpow_neg]) (by rw [abs_of_pos] <;> norm_num [binary64, zpow_neg])
    (by rw [zpow_neg, zpow_neg]; norm_num [abs_lt])
  rw [this]; norm_num

/-- The coefficient `a0` in f64. -/
theorem a0_f64 : (F64Const.div (.sub (.lit 1) (.lit (16 / 100))) (.lit 2)).eval64.Finite ∧
    (F64Const.div (.sub (.lit 1) (.lit (16 / 100))) (.lit 2)).eval64.toReal = 7566047373982433 * (2 : ℝ) ^ (-54 : ℤ) := by
  have h1 : ((F64Const.lit 1).eval64).Finite ∧ ((F64Const.lit 1).eval64).toReal = 1 := by
    have := FP.ofReal_one (f := binary64) false
    simpa [F64Const.eval64] using this
  have h2 : ((F64Const.lit (16 / 100)).eval64).Finite ∧
      ((F64Const.lit (16 / 100)).eval64).toReal = 5764607523034235 * (2 : ℝ) ^ (-55 : ℤ) := by
    have := FP.ofReal_of_noOvf (f := binary64) (s := false) (x := ((16 / 100 : ℚ) : ℝ)) (Fl.noOvf_two (by norm_num [abs_le]))
    have e : ((16 / 100 : ℚ) : ℝ) = 16 / 100 := by push_cast; rfl
    rw [e, rnd_016] at this
    simp only [F64Const.eval64, e]
    exact this
  have h3 : ((F64Const.lit 2).eval64).Finite ∧ ((F64Const.lit 2).eval64).toReal = 2 := by
    have := FP.ofReal_exact (f := binary64) (s := false) (Fl.isRep_two binary64) (by
      have := Fl.lim_ge binary64; rw [abs_of_pos] <;> linarith)
    simpa [F64Const.eval64] using this
  have s := FP.sub_val h1.1 h2.1 (by
    rw [h1.2, h2.2]; apply Fl.noOvf_two; rw [abs_of_pos] <;> norm_num [zpow_neg])
  rw [h1.2, h2.2, rnd_084] at s
  have hrep : IsRep binary64 (7566047373982433 * (2 : ℝ) ^ (-54 : ℤ)) := by
    have := isRep_of_le (f := binary64) (m := 7566047373982433) (e := -54) (by norm_num [binary64]) (by norm_num [binary64])
    exact_mod_cast this
  have hd : 7566047373982433 * (2 : ℝ) ^ (-53 : ℤ) / 2 = 7566047373982433 * (2 : ℝ) ^ (-54 : ℤ) := by norm_num [zpow_neg]
  have d := FP.div_val s.1 h3.1 (by rw [h3.2]; norm_num) (by
    rw [s.2, h3.2, hd]; apply Fl.noOvf_two; rw [abs_of_pos] <;> norm_num [zpow_neg])
  rw [s.2, h3.2, hd, rnd_of_isRep hrep] at d
  exact d

/-- The coefficient `a2` in f64. -/
theorem a2_f64 : (F64Const.div (.lit (16 / 100)) (.lit 2)).eval64.Finite ∧
    (F64Const.div (.lit (16 / 100)) (.lit 2)).eval64.toReal = 5764607523034235 * (2 : ℝ) ^ (-56 : ℤ) := by
  have h2 : ((F64Const.lit (16 / 100)).eval64).Finite ∧
      ((F64Const.lit (16 / 100)).eval64).toReal = 5764607523034235 * (2 : ℝ) ^ (-55 : ℤ) := by
    have := FP.ofReal_of_noOvf (f := binary64) (s := false) (x := ((16 / 100 : ℚ) : ℝ)) (Fl.noOvf_two (by norm_num [abs_le]))
    have e : ((16 / 100 : ℚ) : ℝ) = 16 / 100 := by push_cast; rfl
    rw [e, rnd_016] at this
    simp only [F64Const.eval64, e]
    exact this
  have h3 : ((F64Const.lit 2).eval64).Finite ∧ ((F64Const.lit 2).eval64).toReal = 2 := by
    have := FP.ofReal_exact (f := binary64) (s := false) (Fl.isRep_two binary64) (by
      have := Fl.lim_ge binary64; rw [abs_of_pos] <;> linarith)
    simpa [F64Const.eval64] using this
  have hrep : IsRep binary64 (5764607523034235 * (2 : ℝ) ^ (-56 : ℤ)) := by
    have := isRep_of_le (f := binary64) (m := 5764607523034235) (e := -56) (by norm_num [binary64]) (by norm_num [binary64])
    exact_mod_cast this
  have hd : 5764607523034235 * (2 : ℝ) ^ (-55 : ℤ) / 2 = 5764607523034235 * (2 : ℝ) ^ (-56 : ℤ) := by norm_num [zpow_neg]
  have d := FP.div_val h2.1 h3.1 (by rw [h3.2]; norm_num) (by
    rw [h2.2, h3.2, hd]; apply Fl.noOvf_two; rw [abs_of_pos] <;> norm_num [zpow_neg])
  rw [h2.2, h3.2, hd, rnd_of_isRep hrep] at d
  exact d

/-- Conversion of a small f64 constant. -/
theorem conv_val {c : F64Const} (h : c.eval64.Finite) (h2 : |c.eval64.toReal| ≤ 2) :
    (ofF64 c : Fl L).Finite ∧ (ofF64 c : Fl L).toReal = rnd f c.eval64.toReal := by
  obtain ⟨s, a, ha, e⟩ := FP.finite_cases h
  have hc : (ofF64 c : Fl L) = FP.ofReal f s c.eval64.toReal := by
    show FP.conv f c.eval64 = _
    rw [e]; rfl
  rw [hc]
  exact FP.ofReal_of_noOvf (Fl.noOvf_two h2)

/-- The first value of a Blackman window. -/
theorem blackman_first [Target] (hf : 67 ≤ f.emax) (hc : CosZero L) {n : ℕ} (h2 : 2 ≤ n) (hn : n < usizeMod) {v0 v2 : ℝ}
    (e0 : rnd f (7566047373982433 * (2 : ℝ) ^ (-54 : ℤ)) = v0) (e2 : rnd f (5764607523034235 * (2 : ℝ) ^ (-56 : ℤ)) = v2)
    (b0 : 0 ≤ v0 ∧ v0 ≤ 1) (b2 : 0 ≤ v2 ∧ v2 ≤ 1)
    (r0 : IsRep f (v0 - 1 / 2)) (r2 : IsRep f (v0 - 1 / 2 + v2)) :
    (windowVal (Fl L) .blackman n 0).Finite ∧ (windowVal (Fl L) .blackman n 0).toReal = v0 - 1 / 2 + v2 := by
  obtain ⟨m1, m2⟩ := Fl.ofUsize_val (L := L) (nat_le_emax hf (show n - 1 < usizeMod by omega))
  have hM : 1 ≤ rnd f (n - 1 : ℕ) := le_rnd_of_le (isRep_one f) (by
    have : 1 ≤ n - 1 := by omega
    exact_mod_cast this)
  obtain ⟨j1, j2⟩ := Fl.ofUsize_val (L := L) (n := 0) (by simp [(two_zpow_pos f.emax).le])
  rw [Nat.cast_zero, rnd_zero] at j2
  obtain ⟨t1, t2⟩ := Fl.two_val (L := L)
  obtain ⟨p1, p2⟩ := Fl.pi_val (L := L)
  have u := Fl.mul_val t1 p1 (by
    rw [t2, p2]
    apply FP.noOvf_of_le (z := (2 : ℝ) ^ (3 : ℤ)) (isRep_two_zpow (by have := f.hemin; have := f.hp; omega))
    · exact zpow_lt_zpow_right₀ (by norm_num) (by omega)
    · have h4 : rnd f Real.pi ≤ 2 ^ (2 : ℤ) :=
        rnd_le_of_le (isRep_two_zpow (by have := f.hemin; have := f.hp; omega)) (by norm_num; exact Real.pi_le_four)
      have h0 : 0 ≤ rnd f Real.pi := rnd_nonneg Real.pi_pos.le
      norm_num at h4
      rw [abs_of_nonneg (by positivity)]; norm_num; linarith)
  obtain ⟨w1, w2⟩ := Fl.mul_zero_val u.1 j1 j2
  obtain ⟨θ1, θ2⟩ := Fl.zero_div_val w1 w2 m1 (by rw [m2]; linarith)
  obtain ⟨φ1, φ2⟩ := Fl.mul_zero_val t1 θ1 θ2
  obtain ⟨a1, a1'⟩ := conv_val (L := L) a0_f64.1 (by rw [a0_f64.2, abs_of_pos] <;> norm_num [zpow_neg])
  rw [a0_f64.2, e0] at a1'
  obtain ⟨c1, c1'⟩ := conv_val (L := L) a2_f64.1 (by rw [a2_f64.2, abs_of_pos] <;> norm_num [zpow_neg])
  rw [a2_f64.2, e2] at c1'
  obtain ⟨h1, h1'⟩ := half_val (L := L)
  simp only [windowVal]
  rw [hc _ θ1 θ2, hc _ φ1 φ2]
  generalize (ofF64 (.div (.sub (.lit 1) (.lit (16 / 100))) (.lit 2)) : Fl L) = A at a1 a1' ⊢
  generalize (ofF64 (.div (.lit (16 / 100)) (.lit 2)) : Fl L) = C at c1 c1' ⊢
  generalize (ofF64 (.lit (1 / 2)) : Fl L) = H at h1 h1' ⊢
  have x1 := Fl.mul_val h1 (Fl.one_finite (L := L)) (by
    rw [h1', Fl.one_toReal]; apply Fl.noOvf_two; norm_num [abs_le])
  rw [h1', Fl.one_toReal, mul_one, rnd_of_isRep (Fl.isRep_half f)] at x1
  have x2 := Fl.mul_val c1 (Fl.one_finite (L := L)) (by
    rw [c1', Fl.one_toReal]; apply Fl.noOvf_two; rw [abs_le]; constructor <;> linarith)
  rw [c1', Fl.one_toReal, mul_one, ← c1', rnd_of_isRep (Fl.isRep_toReal C), c1'] at x2
  have x3 := Fl.sub_val a1 x1.1 (by
    rw [a1', x1.2]; apply Fl.noOvf_two; rw [abs_le]; constructor <;> linarith)
  rw [a1', x1.2, rnd_of_isRep r0] at x3
  have x4 := Fl.add_val x3.1 x2.1 (by
    rw [x3.2, x2.2]; apply Fl.noOvf_two; rw [abs_le]; constructor <;> linarith)
  rw [x3.2, x2.2, rnd_of_isRep r2] at x4
  exact x4

/-- **C59 fails for Blackman in f64**: if `cos 0 = 1`, the first value of every Blackman window is `-2^-56`. -/
theorem C59_blackman_f64 [Target] {L : Libm binary64} (hc : CosZero L) (b : Build) (n : ℕ) (h2 : 2 ≤ n) (hn : n < usizeMod)
    (o : ℕ → Option (Fl L)) (h : Yields b .blackman n o) :
    ∃ v, o 0 = some v ∧ v.Finite ∧ v.toReal = -(2 : ℝ) ^ (-56 : ℤ) := by
  refine ⟨_, by rw [(yields_iff b _ hn o).mp h 0, if_pos (by omega)], ?_⟩
  have hr : ∀ m e : ℤ, |m| ≤ 2 ^ 53 → -1074 ≤ e → IsRep binary64 ((m : ℝ) * (2 : ℝ) ^ e) := fun m e hm he =>
    isRep_of_le (f := binary64) (by simpa [binary64] using hm) (by simpa [binary64] using he)
  have := blackman_first (L := L) emax_f64 hc h2 hn (v0 := 7566047373982433 * (2 : ℝ) ^ (-54 : ℤ))
    (v2 := 5764607523034235 * (2 : ℝ) ^ (-56 : ℤ))
    (by
      apply rnd_of_isRep
      have := hr 7566047373982433 (-54) (by norm_num) (by norm_num)
      exact_mod_cast this)
    (by
      apply rnd_of_isRep
      have := hr 5764607523034235 (-56) (by norm_num) (by norm_num)
      exact_mod_cast this)
    (by norm_num [zpow_neg]) (by norm_num [zpow_neg])
    (by
      have := hr (-1441151880758559) (-54) (by norm_num) (by norm_num)
      norm_num [zpow_neg] at this ⊢; exact this)
    (by
      have := hr (-1) (-56) (by norm_num) (by norm_num)
      norm_num [zpow_neg] at this ⊢; exact this)
  refine ⟨this.1, ?_⟩
  rw [this.2]
  norm_num [zpow_neg]

/-- **C59 fails for Blackman in f32**: the first value is `-2^-26`. -/
theorem C59_blackman_f32 [Target] {L : Libm binary32} (hc : CosZero L) (b : Build) (n : ℕ) (h2 : 2 ≤ n) (hn : n < usizeMod)
    (o : ℕ → Option (Fl L)) (h : Yields b .blackman n o) :
    ∃ v, o 0 = some v ∧ v.Finite ∧ v.toReal = -(2 : ℝ) ^ (-26 : ℤ) := by
  refine ⟨_, by rw [(yields_iff b _ hn o).mp h 0, if_pos (by omega)], ?_⟩
  have hr : ∀ m e : ℤ, |m| ≤ 2 ^ 24 → -149 ≤ e → IsRep binary32 ((m : ℝ) * (2 : ℝ) ^ e) := fun m e hm he =>
    isRep_of_le (f := binary32) (by simpa [binary32] using hm) (by simpa [binary32] using he)
  have e0 : rnd binary32 (7566047373982433 * (2 : ℝ) ^ (-54 : ℤ)) = 14092861 * (2 : ℝ) ^ (-25 : ℤ) := by
    have := rnd_eq_of (f := binary32) (x := 7566047373982433 * (2 : ℝ) ^ (-54 : ℤ)) (m := 14092861) (e := -25)
      (by norm_num [binary32])
      (by rw [abs_of_pos] <;> norm_num [binary32, zpow_neg]) (by rw [abs_of_pos] <;> norm_num [binary32, zpow_neg])
      (by rw [zpow_neg, zpow_neg]; norm_num [abs_lt])
    rw [this]; norm_num
  have e2 : rnd binary32 (5764607523034235 * (2 : ℝ) ^ (-56 : ℤ)) = 10737418 * (2 : ℝ) ^ (-27 : ℤ) := by
    have := rnd_eq_of (f := binary32) (x := 5764607523034235 * (2 : ℝ) ^ (-56 : ℤ)) (m := 10737418) (e := -27)
      (by norm_num [binary32])
      (by rw [abs_of_pos] <;> norm_num [binary32, zpow_neg]) (by rw [abs_of_pos] <;> norm_num [binary32, zpow_neg])
      (by rw [zpow_neg, zpow_neg]; norm_num [abs_lt])
    rw [this]; norm_num
  have := blackman_first (L := L) emax_f32 hc h2 hn e0 e2
    (by norm_num [zpow_neg]) (by norm_num [zpow_neg])
    (by
      have := hr (-2684355) (-25) (by norm_num) (by norm_num)
      norm_num [zpow_neg] at this ⊢; exact this)
    (by
      have := hr (-1) (-26) (by norm_num) (by norm_num)
      norm_num [zpow_neg] at this ⊢; exact this)
  refine ⟨this.1, ?_⟩
  rw [this.2]
  norm_num [zpow_neg]

/-- The assumption holds of a correctly rounded cosine. -/
example : CosZero (Libm.roundedCos binary64) := (Libm.roundedCos_ok _).2.2

end Rasp
