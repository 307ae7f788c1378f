import Verif.Props.DbError
import Verif.Props.GainRange
import Verif.Props.MetersFloat

/-!
# C154: a level meter in decibels, and the gains it shows
-/

namespace Rasp
open FloatOps Fl Filter Topology
variable {f : Fmt} {L : Libm f} {b : Build} {k : ℝ}

/-- A relative error of `e < 1` shifts the level by at most `8.75 e / (1 - e)` decibels. -/
theorem logb_shift {x y e : ℝ} (hx : 0 < x) (he : e < 1) (h : |y - x| ≤ e * x) :
    0 < y ∧ |20 * Real.logb 10 y - 20 * Real.logb 10 x| ≤ 8.75 * (e / (1 - e)) := by
  have hl := log_ten_gt
  have he0 : 0 ≤ e := nonneg_of_mul_nonneg_left ((abs_nonneg _).trans h) hx
  have h1 : 0 < 1 - e := by linarith
  have h' := abs_le.mp h
  have hy : 0 < y := by nlinarith
  refine ⟨hy, ?_⟩
  have e1 : Real.log y - Real.log x = Real.log (y / x) := (Real.log_div hy.ne' hx.ne').symm
  have r0 : 0 < y / x := by positivity
  have r1 : y / x ≤ 1 + e := by rw [div_le_iff₀ hx]; linarith
  have r2 : 1 - e ≤ y / x := by rw [le_div_iff₀ hx]; linarith
  have u1 : Real.log (y / x) ≤ e / (1 - e) := by
    have := Real.log_le_sub_one_of_pos r0
    have h3 : e ≤ e / (1 - e) := by rw [le_div_iff₀ h1]; nlinarith
    linarith
  have u2 : -(e / (1 - e)) ≤ Real.log (y / x) := by
    have h2 := Real.one_sub_inv_le_log_of_pos r0
    have h3 : (y / x)⁻¹ ≤ (1 - e)⁻¹ := inv_anti₀ h1 r2
    have h4 : 1 - (1 - e)⁻¹ = -(e / (1 - e)) := by field_simp; ring
    linarith
  have h0 : 0 ≤ e / (1 - e) := by positivity
  rw [Real.logb, Real.logb, ← mul_sub, ← sub_div, e1, abs_mul, abs_div, abs_of_pos (show (0 : ℝ) < 20 by norm_num),
    abs_of_pos (show 0 < Real.log 10 by linarith), mul_div_assoc', div_le_iff₀ (by linarith)]
  have := abs_le.mpr ⟨u2, u1⟩
  nlinarith

/-- **C154.** A reading within a relative error `e` of `R`, converted to decibels. -/
theorem C154_reading (hf : f.Ordinary) (hD : AccurateDb L k) (hk0 : 0 ≤ k) (hk : (k + 30) * f.u ≤ 1 / 2000) (b : Build) {y : Fl L} (hy : y.Finite)
    {R e : ℝ} (he : e < 1) (hR : 1e-6 < (1 - e) * R) (hR' : (1 + e) * R ≤ 1e6) (h : |y.toReal - R| ≤ e * R) :
    ∃ z : Fl L, toDb b y = .ok z ∧ z.Finite ∧ |z.toReal - 20 * Real.logb 10 R| ≤ 8.75 * (e / (1 - e)) + 120 * (k + 3) * f.u := by
  have hR0 : 0 < R := pos_of_mul_pos_right (lt_trans (by norm_num) hR) (by linarith)
  obtain ⟨y0, d⟩ := logb_shift hR0 he h
  obtain ⟨z, z1, z2, z3⟩ := C98_to_db hf hD hk0 hk b y hy (sign_of_pos y0)
  have h' := abs_le.mp h
  rw [level_max (by linarith), level, if_pos (by linarith)] at z3
  refine ⟨z, z1, z2, ?_⟩
  have := abs_sub_le z.toReal (20 * Real.logb 10 y.toReal) (20 * Real.logb 10 R)
  linarith

theorem logb_rms {A : ℝ} (hA : A ≠ 0) : 20 * Real.logb 10 (|A| / √2) = 20 * Real.logb 10 |A| - 10 * Real.logb 10 2 := by
  have h : Real.logb 10 (√2) = Real.logb 10 2 / 2 := by
    rw [Real.logb, Real.logb, Real.log_sqrt (by norm_num)]; ring
  rw [Real.logb_div (abs_pos.mpr hA).ne' (by positivity), h]
  ring

/-- **C154.** Applying a gain of `d` decibels to samples of a sinusoid gives samples of a sinusoid of that amplitude, slightly less accurate. -/
theorem C154_fader (hf : f.Ordinary) (hD : AccurateDb L k) (hk0 : 0 ≤ k) (hk : (k + 30) * f.u ≤ 1 / 2000) (b : Build) {d : Fl L} (hd : d.Finite)
    (h1 : -120 < d.toReal) (h2 : d.toReal ≤ 130) {X : ℝ} (hov : 2 * (dbFactor d.toReal * X) ≤ 2 ^ f.emax) {A w φ η : ℝ} (hAX : |A| + η ≤ X)
    {x : ℕ → Fl L} (hx : SampledSine x A w φ η) : ∃ y : ℕ → Fl L, (∀ n, applyGain b (x n) (toSample d) = .ok (y n)) ∧
      SampledSine y (dbFactor d.toReal * A) w φ (dbFactor d.toReal * (η + (k + 18) * f.u * X) + f.tiny) := by
  have u0 := f.u_pos
  have hku : 0 ≤ k * f.u := by positivity
  obtain ⟨s1, s2⟩ := C98_to_sample hf hD hk0 hk d hd h2
  rw [amplitude, if_pos h1] at s2
  change |(toSample d).toReal - dbFactor d.toReal| ≤ (k + 16) * f.u * dbFactor d.toReal at s2
  have A0 : 0 < dbFactor d.toReal := by unfold dbFactor; positivity
  generalize dbFactor d.toReal = F at *
  obtain ⟨p1, _⟩ := logb_near A0 (by linarith) s2
  have hs : isSignNegative (toSample d) = false := sign_of_pos p1
  have e1 : ∀ n, applyGain b (x n) (toSample d) = .ok (x n *. toSample d) := fun n => by
    unfold applyGain
    rw [if_neg]
    rw [Bool.and_eq_true]
    rintro ⟨_, h⟩
    rw [hs, Fl.isFinite_iff.mpr s1] at h
    simp at h
  refine ⟨_, e1, fun n => ?_⟩
  have hxX : |(x n).toReal| ≤ X := by
    have h1 := (hx n).2
    have h2 : |A * Real.cos (w * n + φ)| ≤ |A| := by rw [abs_mul]; exact mul_le_of_le_one_right (abs_nonneg _) (Real.abs_cos_le_one _)
    have h3 := abs_sub_abs_le_abs_sub (x n).toReal (A * Real.cos (w * n + φ))
    linarith
  have hX : 0 ≤ X := (abs_nonneg _).trans hxX
  have g1 : (toSample d).toReal ≤ (1 + (k + 16) * f.u) * F := by linarith [(abs_le.mp s2).2]
  have hg : 1 + (k + 16) * f.u ≤ 2 := by linarith
  have hprod : |(x n).toReal * (toSample d).toReal| ≤ (1 + (k + 16) * f.u) * (F * X) := by
    rw [abs_mul, abs_of_pos p1]
    have := mul_le_mul hxX g1 p1.le hX
    linarith
  have hFX : 0 ≤ F * X := by positivity
  obtain ⟨z1, z2⟩ := mul_val (hx n).1 s1 (noOvf_of_le_emax (hprod.trans ((mul_le_mul_of_nonneg_right hg hFX).trans hov)))
  refine ⟨z1, ?_⟩
  have r := abs_rnd_sub_le_u f ((x n).toReal * (toSample d).toReal)
  rw [← z2] at r
  have q1 : |(x n).toReal * (toSample d).toReal - F * A * Real.cos (w * n + φ)| ≤ X * ((k + 16) * f.u * F) + F * η := by
    rw [show (x n).toReal * (toSample d).toReal - F * A * Real.cos (w * n + φ) =
      (x n).toReal * ((toSample d).toReal - F) + F * ((x n).toReal - A * Real.cos (w * n + φ)) by ring]
    refine (abs_add_le _ _).trans (add_le_add ?_ ?_)
    · rw [abs_mul]; exact mul_le_mul hxX s2 (abs_nonneg _) hX
    · rw [abs_mul, abs_of_pos A0]; exact mul_le_mul_of_nonneg_left (hx n).2 A0.le
  have q2 := abs_sub_le (x n *. toSample d).toReal ((x n).toReal * (toSample d).toReal) (F * A * Real.cos (w * n + φ))
  have q3 := mul_le_mul_of_nonneg_left hprod u0.le
  have q4 := mul_le_mul_of_nonneg_left (mul_le_mul_of_nonneg_right hg hFX) u0.le
  linarith

theorem dbFactor_level (d : ℝ) : 20 * Real.logb 10 |dbFactor d| = d := by
  unfold dbFactor
  rw [abs_of_pos (by positivity), Real.logb_rpow (by norm_num) (by norm_num)]
  ring

/-- **C154.** The ripple is small when the gain is close to one, at frequencies away from zero and half the sample rate. -/
theorem C154_ripple {g w : ℝ} (hg0 : 0 < g) (hg1 : g ≤ 1) (hw : Real.sin w ≠ 0) : ripple g w ≤ (1 - g) / (2 * √g * |Real.sin w|) := by
  have h1 : 0 < 2 * √g * |Real.sin w| := by have := abs_pos.mpr hw; positivity
  refine div_le_div_of_nonneg_left (by linarith) h1 (Real.le_sqrt_of_sq_le ?_)
  rw [mul_pow, mul_pow, Real.sq_sqrt hg0.le, sq_abs, Real.cos_two_mul', Real.cos_sq']
  nlinarith [sq_nonneg (1 - g)]

/-! ## In f64 -/

/-- The error of a root mean square, relative to it. -/
theorem rms_relative {a M c u κ β y : ℝ} (ha : 0 < a) (hu0 : 0 ≤ u) (hu : u ≤ 1 / 1000) (hM : M ≤ a ^ 2 / 2 * c) (hc : 0 ≤ c) (hκ : κ ≤ β * (a / √2))
    (h : |y - a / √2| ≤ (1 + u) * (√2 / a) * M + κ) : |y - a / √2| ≤ (1.001 * c + β) * (a / √2) := by
  have hss : √2 * √2 = 2 := Real.mul_self_sqrt (by norm_num)
  have hs0 : 0 < √2 := by positivity
  have hfirst : √2 / a * (a ^ 2 / 2 * c) = a / √2 * c := by
    field_simp
    linear_combination c * hss
  have m1 := mul_le_mul_of_nonneg_left hM (show 0 ≤ (1 + u) * (√2 / a) by positivity)
  rw [mul_assoc _ (√2 / a) (a ^ 2 / 2 * c), hfirst] at m1
  have m4 : (1 + u) * (a / √2 * c) ≤ 1.001 * (a / √2 * c) := mul_le_mul_of_nonneg_right (by linarith) (by positivity)
  linarith

/-- A reading in f64 with a small relative error. -/
theorem reading_f64 {L : Libm binary64} (hD : AccurateDb L 2) (b : Build) {y : Fl L} (hy : y.Finite) {A e : ℝ} (hA1 : 1 / 10 ^ 4 ≤ |A|) (hA2 : |A| ≤ 16)
    (he : e ≤ 0.071) (h : |y.toReal - |A| / √2| ≤ e * (|A| / √2)) :
    ∃ z : Fl L, toDb b y = .ok z ∧ z.Finite ∧ |z.toReal - (20 * Real.logb 10 |A| - 10 * Real.logb 10 2)| ≤ 9.5 * e + 1 / 10 ^ 12 := by
  have hu : binary64.u = 1 / 2 ^ 53 := by simp [Fmt.u, binary64]
  have hA : A ≠ 0 := by rintro rfl; norm_num at hA1
  have ha : 0 < |A| := abs_pos.mpr hA
  have hs : √2 ≤ 1.5 := (Real.sqrt_le_left (by norm_num)).mpr (by norm_num)
  have hs1 : 1 ≤ √2 := Real.le_sqrt_of_sq_le (by norm_num)
  have hl := logb_rms hA
  generalize |A| = a at *
  obtain ⟨R, hR⟩ : ∃ R, R = a / √2 := ⟨_, rfl⟩
  have hR1 : 1 / (2 * 10 ^ 4) ≤ R := by rw [hR, le_div_iff₀ (by linarith)]; norm_num at hA1 ⊢; linarith
  have hR2 : R ≤ 16 := by rw [hR, div_le_iff₀ (by linarith)]; linarith
  rw [← hR] at h hl
  have he0 : 0 ≤ e := nonneg_of_mul_nonneg_left ((abs_nonneg _).trans h) (by linarith)
  have r1 : 0.9 * R ≤ (1 - e) * R := mul_le_mul_of_nonneg_right (by linarith) (by linarith)
  have r2 : (1 + e) * R ≤ 2 * R := mul_le_mul_of_nonneg_right (by linarith) (by linarith)
  obtain ⟨z, z1, z2, z3⟩ := C154_reading binary64_ordinary hD (by norm_num) (by rw [hu]; norm_num) b hy (by linarith)
    (show 1e-6 < (1 - e) * R by norm_num at hR1 r1 ⊢; linarith) (by norm_num; linarith) h
  refine ⟨z, z1, z2, ?_⟩
  rw [hl, hu] at z3
  refine z3.trans ?_
  have h5 : e / (1 - e) ≤ 1.08 * e := by
    rw [div_le_iff₀ (by linarith)]
    nlinarith
  norm_num at h5 ⊢
  linarith

section
variable {L : Libm binary64} {d : RmsEnvDetector (Fl L)} {g : ℝ} (hD : AccurateDb L 2) (hgain : d.getReleaseGain = d.getAttackGain)
  (hgf : d.getAttackGain.Finite) (hgv : d.getAttackGain.toReal = g) (hg0 : 0 ≤ g) (hg1 : g ≤ 1 - 1 / 48001)
include hD hgain hgf hgv hg0 hg1

/-- **C154** in f64: a cleared RMS detector and `to_db` show the level of a sinusoid, 3.01 dB below that of its amplitude. -/
theorem C154_sine {A w φ : ℝ} (hA1 : 1 / 10 ^ 4 ≤ |A|) (hA2 : |A| ≤ 16) {x y : ℕ → Fl L} (hx : SampledSine x A w φ (|A| / 2 ^ 45))
    (hy : Responds b d.clear x y) (hr : ripple g w ≤ 1 / 20) {n : ℕ} (hn : g ^ (n + 1) ≤ 1 / 100) : ∃ z : Fl L, toDb b (y n) = .ok z ∧ z.Finite ∧
      |z.toReal - (20 * Real.logb 10 |A| - 10 * Real.logb 10 2)| ≤ 10 * ripple g w + 20 * g ^ (n + 1) + 1 / 10 ^ 6 := by
  have hu : binary64.u = 1 / 2 ^ 53 := by simp [Fmt.u, binary64]
  have ht : binary64.tiny ≤ 1 / 2 ^ 100 := by
    have : binary64.tiny ≤ (2 : ℝ) ^ (-100 : ℤ) := zpow_le_zpow_right₀ one_le_two (by decide)
    norm_num at this ⊢; exact this
  have ht0 := binary64.tiny_pos
  have hbig : (2 : ℝ) ^ (150 : ℤ) ≤ 2 ^ binary64.emax := zpow_le_zpow_right₀ one_le_two (by decide)
  have hA : A ≠ 0 := by rintro rfl; norm_num at hA1
  have ha : 0 < |A| := abs_pos.mpr hA
  have hz : d.clear.envelope = zero := rfl
  have hρ : 0 ≤ ripple g w := div_nonneg (by linarith) (Real.sqrt_nonneg _)
  have hp : 0 ≤ g ^ (n + 1) := pow_nonneg hg0 _
  have hX2 : (|A| + |A| / 2 ^ 45) ^ 2 ≤ 1.001 * |A| ^ 2 := by
    rw [show |A| + |A| / 2 ^ 45 = (1 + 1 / 2 ^ 45) * |A| by ring, mul_pow]
    exact mul_le_mul_of_nonneg_right (by norm_num) (by positivity)
  have hA2' : |A| ^ 2 ≤ 256 := by nlinarith
  obtain ⟨k1, k2⟩ := C153_rms (b := b) (d := d.clear) (X := |A| + |A| / 2 ^ 45) hgain hgf hgv ⟨hg0, by linarith⟩
    (by rw [hz]; exact ⟨zero_finite, by rw [zero_toReal, abs_zero]; positivity⟩) (by rw [hz, zero_toReal])
    (by norm_num at ht hbig hX2 ⊢; linarith) hA le_rfl hx hy n
  rw [hz, zero_toReal, hu, zero_add, ← sq_abs A] at k2
  generalize ripple g w = ρ at *
  generalize g ^ (n + 1) = p at *
  generalize hae : |A| = a at *
  have ha2 : 1 / 10 ^ 8 ≤ a ^ 2 := by nlinarith
  have hq : 9 * (1 / 2 ^ 53 * (a + a / 2 ^ 45) ^ 2 + binary64.tiny) / (1 - g) ≤ 1 / 10 ^ 9 * a ^ 2 := by
    rw [div_le_iff₀ (by linarith)]
    have h1 : 1 / 10 ^ 9 * a ^ 2 * (1 / 48001) ≤ 1 / 10 ^ 9 * a ^ 2 * (1 - g) := mul_le_mul_of_nonneg_left (by linarith) (by positivity)
    refine le_trans ?_ h1
    norm_num at ht hX2 ha2 ⊢
    linarith
  have hM : a ^ 2 / 2 * ρ + p * a ^ 2 + 2 * (a + a / 2 ^ 45) * (a / 2 ^ 45) + 9 * (1 / 2 ^ 53 * (a + a / 2 ^ 45) ^ 2 + binary64.tiny) / (1 - g) ≤
      a ^ 2 / 2 * (ρ + 2 * p + 4 / 10 ^ 9) := by
    have : 2 * (a + a / 2 ^ 45) * (a / 2 ^ 45) ≤ 1 / 10 ^ 9 * a ^ 2 := by
      rw [show 2 * (a + a / 2 ^ 45) * (a / 2 ^ 45) = (2 * (1 + 1 / 2 ^ 45) / 2 ^ 45) * a ^ 2 by ring]
      exact mul_le_mul_of_nonneg_right (by norm_num) (by positivity)
    nlinarith
  have hs : √2 ≤ 1.5 := (Real.sqrt_le_left (by norm_num)).mpr (by norm_num)
  have hκ : 1 / 2 ^ 53 * a + binary64.tiny ≤ 1 / 10 ^ 9 * (a / √2) := by
    have h1 : 0.6 * a ≤ a / √2 := by rw [le_div_iff₀ (by positivity)]; nlinarith
    norm_num at h1 ht hA1 ⊢
    linarith
  rw [add_assoc] at k2
  have key := rms_relative ha (by norm_num) (by norm_num) hM (by positivity) hκ k2
  rw [← hae] at key
  obtain ⟨z, z1, z2, z3⟩ := reading_f64 hD b k1 (by rw [hae]; exact hA1) (by rw [hae]; exact hA2) (by norm_num at hr hn ⊢; linarith) key
  refine ⟨z, z1, z2, ?_⟩
  rw [hae] at z3
  refine z3.trans ?_
  norm_num
  linarith

/-- **C154** in f64: a fader set to `v` decibels between a full-scale sinusoid and the meter moves its display by `v` decibels. -/
theorem C154_fader_f64 {v : Fl L} (hv : v.Finite) (h1 : -60 ≤ v.toReal) (h2 : v.toReal ≤ 24) {w φ : ℝ} {x y r : ℕ → Fl L}
    (hx : SampledSine x 1 w φ (1 / 2 ^ 53)) (hy : ∀ n, applyGain b (x n) (toSample v) = .ok (y n)) (hr : Responds b d.clear y r)
    (hρ : ripple g w ≤ 1 / 20) {n : ℕ} (hn : g ^ (n + 1) ≤ 1 / 100) : ∃ z : Fl L, toDb b (r n) = .ok z ∧ z.Finite ∧
      |z.toReal - (v.toReal - 10 * Real.logb 10 2)| ≤ 10 * ripple g w + 20 * g ^ (n + 1) + 1 / 10 ^ 6 := by
  have hu : binary64.u = 1 / 2 ^ 53 := by simp [Fmt.u, binary64]
  have ht : binary64.tiny ≤ 1 / 2 ^ 100 := by
    have : binary64.tiny ≤ (2 : ℝ) ^ (-100 : ℤ) := zpow_le_zpow_right₀ one_le_two (by decide)
    norm_num at this ⊢; exact this
  have hbig : (2 : ℝ) ^ (150 : ℤ) ≤ 2 ^ binary64.emax := zpow_le_zpow_right₀ one_le_two (by decide)
  have f1 : 1 / 10 ^ 3 ≤ dbFactor v.toReal := by
    have : (10 : ℝ) ^ (-3 : ℝ) ≤ 10 ^ (v.toReal / 20) := Real.rpow_le_rpow_of_exponent_le (by norm_num) (by linarith)
    unfold dbFactor
    refine le_trans (le_of_eq ?_) this
    rw [Real.rpow_neg (by norm_num)]; norm_num
  have f2 : dbFactor v.toReal ≤ 16 := by
    have h3 : (10 : ℝ) ^ (v.toReal / 20) ≤ 10 ^ (6 / 5 : ℝ) := Real.rpow_le_rpow_of_exponent_le (by norm_num) (by linarith)
    refine h3.trans ?_
    have h4 : ((10 : ℝ) ^ (6 / 5 : ℝ)) ^ 5 ≤ 16 ^ 5 := by
      rw [← Real.rpow_natCast, ← Real.rpow_mul (by norm_num)]; norm_num
    exact (pow_le_pow_iff_left₀ (by positivity) (by norm_num) (by norm_num)).mp h4
  obtain ⟨y', e1, e2⟩ := C154_fader (X := 1 + 1 / 2 ^ 53) binary64_ordinary hD (by norm_num) (by rw [hu]; norm_num) b hv (by linarith) (by linarith)
    (by norm_num at hbig ⊢; linarith) (by rw [abs_one]) hx
  obtain rfl : y' = y := funext fun n => by have := (e1 n).symm.trans (hy n); exact Except.ok.inj this
  rw [mul_one, hu] at e2
  obtain ⟨F, hF⟩ : ∃ F, F = dbFactor v.toReal := ⟨_, rfl⟩
  have hFa : |dbFactor v.toReal| = F := by rw [hF]; exact abs_of_pos (by linarith)
  have := C154_sine (b := b) hD hgain hgf hgv hg0 hg1 (A := dbFactor v.toReal) (w := w) (φ := φ) (by rw [hFa, hF]; norm_num at f1 ⊢; linarith)
    (by rw [hFa, hF]; exact f2) (x := y') (y := r) (fun n => ⟨(e2 n).1, (e2 n).2.trans (by rw [hFa]; rw [← hF] at f1 f2 ⊢; norm_num at f1 f2 ht ⊢; linarith)⟩) hr hρ hn
  rwa [dbFactor_level] at this

/-- A filter between a full-scale sinusoid and the meter. `δ` is the relative error of the mean square. -/
theorem filter_reading {σ τ : Type} [Processor σ (Fl L)] [Processor τ ℝ] {s : σ} {r : τ} {E K G θ w φ δ : ℝ} (ht : Tracks (L := L) s r (1 + 1 / 2 ^ 53) E)
    (hK : GainAtMost b r K) (hK1 : 4 ≤ K) (hK2 : K ≤ 120) (hE0 : 0 ≤ E) (hE : E ≤ 1 / 2) (hs : ShiftsBy r w G θ) (hG : 1 / 4 ≤ G) (hG' : G ≤ 4)
    (hδ : 4 * (K + 1) * E ≤ δ * G ^ 2) (hδ' : δ ≤ 1 / 50)
    {x y v : ℕ → Fl L} (hx : SampledSine x 1 w φ (1 / 2 ^ 53)) (hy : Responds b s x y) (hv : Responds b d.clear y v) (hρ : ripple g w ≤ 1 / 20) :
    ∀ᶠ n in atTop, ∃ z : Fl L, toDb b (v n) = .ok z ∧ z.Finite ∧
      |z.toReal - (20 * Real.logb 10 |G| - 10 * Real.logb 10 2)| ≤ 10 * ripple g w + 10 * δ + 1 / 10 ^ 3 := by
  have hu : binary64.u = 1 / 2 ^ 53 := by simp [Fmt.u, binary64]
  have htn : binary64.tiny ≤ 1 / 2 ^ 100 := by
    have : binary64.tiny ≤ (2 : ℝ) ^ (-100 : ℤ) := zpow_le_zpow_right₀ one_le_two (by decide)
    norm_num at this ⊢; exact this
  have ht0 := binary64.tiny_pos
  have hbig : (2 : ℝ) ^ (150 : ℤ) ≤ 2 ^ binary64.emax := zpow_le_zpow_right₀ one_le_two (by decide)
  have hG0 : 0 < G := by linarith
  have hz : d.clear.envelope = zero := rfl
  have hρ0 : 0 ≤ ripple g w := div_nonneg (by linarith) (Real.sqrt_nonneg _)
  obtain ⟨Y, hY⟩ : ∃ Y, Y = K + 1 := ⟨_, rfl⟩
  have hY2 : Y ^ 2 ≤ 15000 := by rw [hY]; nlinarith
  have hG2 : 1 / 16 ≤ G ^ 2 := by nlinarith
  obtain ⟨k1, k2⟩ := C153_response ht hK hs (d := d.clear) (Y := Y) hgain hgf hgv ⟨hg0, by linarith⟩ (by rw [hY]; norm_num; linarith)
    (by rw [hz]; exact ⟨zero_finite, by rw [zero_toReal, abs_zero]; positivity⟩) (by rw [hz, zero_toReal])
    (by norm_num at htn hbig hY2 ⊢; linarith) (A := 1) (by rw [mul_one]; exact hG0.ne') (by rw [mul_one, abs_of_pos hG0, hY]; linarith)
    (by rw [abs_one]) hx hy hv
  filter_upwards [k2 (1 / 10 ^ 7) (by norm_num)] with n hn
  rw [mul_one, abs_of_pos hG0, hu] at hn
  rw [abs_of_pos hG0]
  have kn := k1 n
  generalize ripple g w = ρ at *
  have hq : 9 * (1 / 2 ^ 53 * Y ^ 2 + binary64.tiny) / (1 - g) ≤ 2 / 10 ^ 5 * G ^ 2 := by
    rw [div_le_iff₀ (by linarith)]
    have h1 : 2 / 10 ^ 5 * (1 / 16) * (1 / 48001) ≤ 2 / 10 ^ 5 * G ^ 2 * (1 - g) :=
      mul_le_mul (mul_le_mul_of_nonneg_left hG2 (by norm_num)) (by linarith) (by norm_num) (by positivity)
    refine le_trans ?_ h1
    norm_num at htn hY2 ⊢
    linarith
  have hM : G ^ 2 / 2 * ρ + 2 * Y * (K * (1 / 2 ^ 53) + E) + 9 * (1 / 2 ^ 53 * Y ^ 2 + binary64.tiny) / (1 - g) ≤ G ^ 2 / 2 * (ρ + δ + 5 / 10 ^ 5) := by
    have : 2 * Y * (K * (1 / 2 ^ 53)) ≤ 1 / 10 ^ 7 * G ^ 2 := by
      have h3 : Y * K ≤ 15000 := by rw [hY]; nlinarith
      norm_num at h3 hG2 ⊢
      linarith
    rw [hY] at this ⊢
    rw [hY] at hq
    nlinarith
  have hs : √2 ≤ 1.5 := (Real.sqrt_le_left (by norm_num)).mpr (by norm_num)
  have hδ0 : 0 ≤ δ := by
    have : 0 ≤ δ * G ^ 2 := le_trans (by positivity) hδ
    exact nonneg_of_mul_nonneg_left this (by positivity)
  have hκ : 1 / 2 ^ 53 * G + binary64.tiny + 1 / 10 ^ 7 ≤ 1 / 10 ^ 6 * (G / √2) := by
    have h1 : 0.6 * G ≤ G / √2 := by rw [le_div_iff₀ (by positivity)]; nlinarith
    norm_num at h1 htn hG ⊢
    linarith
  rw [add_assoc, add_assoc, ← add_assoc (1 / 2 ^ 53 * G)] at hn
  have key := rms_relative hG0 (by norm_num) (by norm_num) hM (by positivity) hκ hn
  rw [← abs_of_pos hG0] at key
  obtain ⟨z, z1, z2, z3⟩ := reading_f64 hD b kn (by rw [abs_of_pos hG0]; norm_num at hG ⊢; linarith) (by rw [abs_of_pos hG0]; linarith)
    (by norm_num at hρ hδ' ⊢; linarith) key
  refine ⟨z, z1, z2, ?_⟩
  rw [abs_of_pos hG0] at z3
  refine z3.trans ?_
  norm_num
  linarith

/-- **C154** in f64: a Peak between a full-scale sinusoid at its frequency and the meter moves the display by its gain in decibels. -/
theorem C154_peak (hL : AccurateTrig L 2) {sr fc db q : Fl L} (hsr : sr.Finite) (hfc : fc.Finite)
    (hdb : db.Finite) (hq : q.Finite) (h1 : 1 ≤ sr.toReal) (h2 : sr.toReal ≤ 2 ^ 100) {r : ℝ} (hr : 1 / 40 ≤ r) (h3 : r * sr.toReal ≤ fc.toReal)
    (h4 : fc.toReal ≤ (1 / 2 - r) * sr.toReal) (hd : |db.toReal| ≤ 12) (h5 : 1 ≤ q.toReal) (h6 : q.toReal ≤ 2) (s : Peak (Fl L)) {φ : ℝ}
    {x y v : ℕ → Fl L} (hx : SampledSine x 1 (angle sr.toReal fc.toReal) φ (1 / 2 ^ 53)) (hy : Responds b (s.setCoefficients sr fc db q) x y)
    (hv : Responds b d.clear y v) (hρ : ripple g (angle sr.toReal fc.toReal) ≤ 1 / 20) :
    ∀ᶠ n in atTop, ∃ z : Fl L, toDb b (v n) = .ok z ∧ z.Finite ∧ |z.toReal - (db.toReal - 10 * Real.logb 10 2)| ≤
      10 * ripple g (angle sr.toReal fc.toReal) + 1.1 / (10 ^ 4 * r ^ 2) + 1 / 10 ^ 3 := by
  have hP : AccuratePow L 2 := ⟨fun x h h' => hD.powf x h (by linarith)⟩
  have hr0 : 0 < r := by linarith
  have hsr0 : 0 < sr.toReal := by linarith
  have hvp : ValidParams sr.toReal fc.toReal q.toReal :=
    ⟨lt_of_lt_of_le (mul_pos hr0 hsr0) h3, lt_of_le_of_lt h4 (by nlinarith), by linarith⟩
  have hdl := abs_le.mp hd
  have f0 : (10 : ℝ) ^ (3 / 5 : ℝ) ≤ 4 := by
    have h4 : ((10 : ℝ) ^ (3 / 5 : ℝ)) ^ 5 ≤ 4 ^ 5 := by
      rw [← Real.rpow_natCast, ← Real.rpow_mul (by norm_num)]; norm_num
    exact (pow_le_pow_iff_left₀ (by positivity) (by norm_num) (by norm_num)).mp h4
  have f1 : dbFactor db.toReal ≤ 4 :=
    (Real.rpow_le_rpow_of_exponent_le (by norm_num) (by linarith) : (10 : ℝ) ^ (db.toReal / 20) ≤ 10 ^ (3 / 5 : ℝ)).trans f0
  have f2 : 1 / 4 ≤ dbFactor db.toReal := by
    have h3 : (10 : ℝ) ^ (-(3 / 5) : ℝ) ≤ 10 ^ (db.toReal / 20) := Real.rpow_le_rpow_of_exponent_le (by norm_num) (by linarith)
    refine le_trans ?_ h3
    rw [Real.rpow_neg (by norm_num), one_div]
    exact inv_anti₀ (by positivity) f0
  have hqa : 1 / 2 ≤ q.toReal * 10 ^ (db.toReal / 40) := by
    have h3 : (10 : ℝ) ^ (-(3 / 10) : ℝ) ≤ 10 ^ (db.toReal / 40) := Real.rpow_le_rpow_of_exponent_le (by norm_num) (by linarith)
    have h4 : ((10 : ℝ) ^ (3 / 10 : ℝ)) ^ 10 ≤ 2 ^ 10 := by
      rw [← Real.rpow_natCast, ← Real.rpow_mul (by norm_num)]; norm_num
    have h5' : (10 : ℝ) ^ (3 / 10 : ℝ) ≤ 2 := (pow_le_pow_iff_left₀ (by positivity) (by norm_num) (by norm_num)).mp h4
    have h6' : (1 : ℝ) / 2 ≤ 10 ^ (-(3 / 10) : ℝ) := by
      rw [Real.rpow_neg (by norm_num), one_div]
      exact inv_anti₀ (by positivity) h5'
    nlinarith
  obtain ⟨t1, -⟩ := C134_gain_f64 hL hP hsr hfc hdb h1 h2 (r := r) (by linarith) h3 h4 hd (X := 1 + 1 / 2 ^ 53) (by norm_num) (by norm_num)
  have hK : GainAtMost b ((Peak.new : Peak ℝ).setCoefficients sr.toReal fc.toReal db.toReal q.toReal) 25 := by
    refine (C133_peak b hvp hqa (Peak.new : Peak ℝ)).gainAtMost (((Peak.new : Peak ℝ).implements _ _ _ _).isConvolution b) ?_
    have : |dbFactor db.toReal - 1| ≤ 3 := abs_le.mpr ⟨by linarith, by linarith⟩
    linarith
  have hS : ShiftsBy ((Peak.new : Peak ℝ).setCoefficients sr.toReal fc.toReal db.toReal q.toReal) (angle sr.toReal fc.toReal) (dbFactor db.toReal) 0 := by
    intro A φ
    simpa only [add_zero] using (C40_centre_gains hvp A φ).2.2.2.1 (Peak.new : Peak ℝ) db.toReal
  have hrr : 1 / 1600 ≤ r ^ 2 := by nlinarith
  have hE : 6 / (10 ^ 9 * r ^ 2) * (1 + 1 / 2 ^ 53 + 1 / 2 ^ 200) ≤ 6.1 / (10 ^ 9 * r ^ 2) := by
    rw [div_mul_eq_mul_div]
    exact div_le_div_of_nonneg_right (by norm_num) (by positivity)
  have hE1 : 6.1 / (10 ^ 9 * r ^ 2) ≤ 1 / 2 := by
    rw [div_le_iff₀ (by positivity)]
    norm_num at hrr ⊢
    linarith
  have key := filter_reading hD hgain hgf hgv hg0 hg1 (b := b) ((t1 q hq h5 h6 s Peak.new).le hE) hK (by norm_num) (by norm_num) (by positivity) hE1 hS f2 f1
    (δ := 1.05 / (10 ^ 5 * r ^ 2)) (by
      have h16 : 1 / 16 ≤ dbFactor db.toReal ^ 2 := by nlinarith
      refine le_trans ?_ (mul_le_mul_of_nonneg_left h16 (by positivity))
      rw [mul_div_assoc', div_mul_div_comm, div_le_div_iff₀ (by positivity) (by positivity)]
      nlinarith) (by
      rw [div_le_iff₀ (by positivity)]
      norm_num at hrr ⊢
      linarith) hx hy hv hρ
  filter_upwards [key] with n hn
  obtain ⟨z, z1, z2, z3⟩ := hn
  refine ⟨z, z1, z2, ?_⟩
  rw [dbFactor_level] at z3
  refine z3.trans ?_
  have : 10 * (1.05 / (10 ^ 5 * r ^ 2)) ≤ 1.1 / (10 ^ 4 * r ^ 2) := by
    rw [mul_div_assoc', div_le_div_iff₀ (by positivity) (by positivity)]
    nlinarith
  linarith

/-- **C154** in f64: a shelf between a full-scale sinusoid at its corner and the meter moves the display by half its gain in decibels. -/
theorem C154_shelves (hL : AccurateTrig L 2) {sr fc db slope : Fl L} (hsr : sr.Finite) (hfc : fc.Finite)
    (hdb : db.Finite) (hsl : slope.Finite) (h1 : 1 ≤ sr.toReal) (h2 : sr.toReal ≤ 2 ^ 100) {r : ℝ} (hr : 1 / 16 ≤ r) (h3 : r * sr.toReal ≤ fc.toReal)
    (h4 : fc.toReal ≤ (1 / 2 - r) * sr.toReal) (hd : |db.toReal| ≤ 12) (h5 : 3 / 5 ≤ slope.toReal) (h6 : slope.toReal ≤ 1) {φ : ℝ}
    {x y v : ℕ → Fl L} (hx : SampledSine x 1 (angle sr.toReal fc.toReal) φ (1 / 2 ^ 53))
    (hy : (∃ s : LowShelf (Fl L), Responds b (s.setCoefficients sr fc db slope) x y) ∨ ∃ s : HighShelf (Fl L), Responds b (s.setCoefficients sr fc db slope) x y)
    (hv : Responds b d.clear y v) (hρ : ripple g (angle sr.toReal fc.toReal) ≤ 1 / 20) :
    ∀ᶠ n in atTop, ∃ z : Fl L, toDb b (v n) = .ok z ∧ z.Finite ∧ |z.toReal - (db.toReal / 2 - 10 * Real.logb 10 2)| ≤
      10 * ripple g (angle sr.toReal fc.toReal) + 5.7 / (10 ^ 4 * r ^ 2) + 1 / 10 ^ 3 := by
  have hP : AccuratePow L 2 := ⟨fun x h h' => hD.powf x h (by linarith)⟩
  have hr0 : 0 < r := by linarith
  have hsr0 : 0 < sr.toReal := by linarith
  have hvp : ValidShelf sr.toReal fc.toReal slope.toReal :=
    ⟨lt_of_lt_of_le (mul_pos hr0 hsr0) h3, lt_of_le_of_lt h4 (by nlinarith), by linarith, h6⟩
  have hdl := abs_le.mp hd
  have f0 : (10 : ℝ) ^ (3 / 5 : ℝ) ≤ 4 := by
    have h4 : ((10 : ℝ) ^ (3 / 5 : ℝ)) ^ 5 ≤ 4 ^ 5 := by
      rw [← Real.rpow_natCast, ← Real.rpow_mul (by norm_num)]; norm_num
    exact (pow_le_pow_iff_left₀ (by positivity) (by norm_num) (by norm_num)).mp h4
  have f1 : dbFactor db.toReal ≤ 4 :=
    (Real.rpow_le_rpow_of_exponent_le (by norm_num) (by linarith) : (10 : ℝ) ^ (db.toReal / 20) ≤ 10 ^ (3 / 5 : ℝ)).trans f0
  have g0 : (10 : ℝ) ^ (3 / 10 : ℝ) ≤ 2 := by
    have h4 : ((10 : ℝ) ^ (3 / 10 : ℝ)) ^ 10 ≤ 2 ^ 10 := by
      rw [← Real.rpow_natCast, ← Real.rpow_mul (by norm_num)]; norm_num
    exact (pow_le_pow_iff_left₀ (by positivity) (by norm_num) (by norm_num)).mp h4
  have g0' : (1 : ℝ) / 2 ≤ 10 ^ (-(3 / 10) : ℝ) := by
    rw [Real.rpow_neg (by norm_num), one_div]
    exact inv_anti₀ (by positivity) g0
  have a1 : (10 : ℝ) ^ (db.toReal / 40) ≤ 2 := (Real.rpow_le_rpow_of_exponent_le (by norm_num) (by linarith)).trans g0
  have a2 : 1 / 2 ≤ (10 : ℝ) ^ (db.toReal / 40) := g0'.trans (Real.rpow_le_rpow_of_exponent_le (by norm_num) (by linarith))
  have eh : dbFactor (db.toReal / 2) = 10 ^ (db.toReal / 40) := by unfold dbFactor; congr 1; ring
  have hSl : ((10 : ℝ) ^ (db.toReal / 40) + 1 / 10 ^ (db.toReal / 40)) * (1 / slope.toReal - 1) ≤ 2 := by
    have b1 : (10 : ℝ) ^ (db.toReal / 40) + 1 / 10 ^ (db.toReal / 40) ≤ 5 / 2 := by
      have h0 : (0 : ℝ) < 10 ^ (db.toReal / 40) := by positivity
      rw [← sub_nonneg, show (5 / 2 : ℝ) - (10 ^ (db.toReal / 40) + 1 / 10 ^ (db.toReal / 40)) =
        (2 - 10 ^ (db.toReal / 40)) * (10 ^ (db.toReal / 40) - 1 / 2) / 10 ^ (db.toReal / 40) by field_simp; ring]
      exact div_nonneg (mul_nonneg (by linarith) (by linarith)) h0.le
    have b2 : 1 / slope.toReal - 1 ≤ 2 / 3 := by
      have : 1 / slope.toReal ≤ 1 / (3 / 5) := one_div_le_one_div_of_le (by norm_num) h5
      norm_num at this ⊢; linarith
    have b3 : 0 ≤ 1 / slope.toReal - 1 := by
      have : 1 / 1 ≤ 1 / slope.toReal := one_div_le_one_div_of_le (by linarith) h6
      linarith
    have := mul_le_mul b1 b2 b3 (by norm_num)
    linarith
  obtain ⟨-, t2⟩ := C134_gain_f64 hL hP hsr hfc hdb h1 h2 (r := r) (by linarith) h3 h4 hd (X := 1 + 1 / 2 ^ 53) (by norm_num) (by norm_num)
  obtain ⟨t3, t4⟩ := t2 slope hsl h5 h6
  obtain ⟨p1, p2⟩ := C133_shelves b hvp hSl
  obtain ⟨c1, c2⟩ := C71_shelf_corner hvp db.toReal
  have hrr : 1 / 256 ≤ r ^ 2 := by nlinarith
  have hE : 3 / (10 ^ 8 * r ^ 2) * (1 + 1 / 2 ^ 53 + 1 / 2 ^ 200) ≤ 3.1 / (10 ^ 8 * r ^ 2) := by
    rw [div_mul_eq_mul_div]
    exact div_le_div_of_nonneg_right (by norm_num) (by positivity)
  have hE1 : 3.1 / (10 ^ 8 * r ^ 2) ≤ 1 / 2 := by
    rw [div_le_iff₀ (by positivity)]
    norm_num at hrr ⊢
    linarith
  have hδ : 4 * (110 + 1) * (3.1 / (10 ^ 8 * r ^ 2)) ≤ 5.6 / (10 ^ 5 * r ^ 2) * dbFactor (db.toReal / 2) ^ 2 := by
    have h16 : 1 / 4 ≤ dbFactor (db.toReal / 2) ^ 2 := by rw [eh]; nlinarith
    refine le_trans ?_ (mul_le_mul_of_nonneg_left h16 (by positivity))
    rw [mul_div_assoc', div_mul_div_comm, div_le_div_iff₀ (by positivity) (by positivity)]
    nlinarith
  have hδ' : 5.6 / (10 ^ 5 * r ^ 2) ≤ 1 / 50 := by
    rw [div_le_iff₀ (by positivity)]
    norm_num at hrr ⊢
    linarith
  have main : ∀ᶠ n in atTop, ∃ z : Fl L, toDb b (v n) = .ok z ∧ z.Finite ∧ |z.toReal - (20 * Real.logb 10 |dbFactor (db.toReal / 2)| - 10 * Real.logb 10 2)| ≤
      10 * ripple g (angle sr.toReal fc.toReal) + 10 * (5.6 / (10 ^ 5 * r ^ 2)) + 1 / 10 ^ 3 := by
    rcases hy with ⟨s, hy⟩ | ⟨s, hy⟩
    · obtain ⟨G, θ, l1, l2, l3⟩ := c1 LowShelf.new
      obtain rfl := le_antisymm l2 l1
      exact filter_reading hD hgain hgf hgv hg0 hg1 (b := b) ((t3 s LowShelf.new).le hE)
        ((p1 (LowShelf.new : LowShelf ℝ)).gainAtMost (((LowShelf.new : LowShelf ℝ).implements _ _ _ _).isConvolution b) (show _ ≤ (110 : ℝ) by linarith))
        (by norm_num) (by norm_num) (by positivity) hE1 l3 (by rw [eh]; linarith) (by rw [eh]; linarith) hδ hδ' hx hy hv hρ
    · obtain ⟨G, θ, l1, l2, l3⟩ := c2 HighShelf.new
      obtain rfl := le_antisymm l2 l1
      exact filter_reading hD hgain hgf hgv hg0 hg1 (b := b) ((t4 s HighShelf.new).le hE)
        ((p2 (HighShelf.new : HighShelf ℝ)).gainAtMost (((HighShelf.new : HighShelf ℝ).implements _ _ _ _).isConvolution b) (show _ ≤ (110 : ℝ) by linarith))
        (by norm_num) (by norm_num) (by positivity) hE1 l3 (by rw [eh]; linarith) (by rw [eh]; linarith) hδ hδ' hx hy hv hρ
  filter_upwards [main] with n hn
  obtain ⟨z, z1, z2, z3⟩ := hn
  refine ⟨z, z1, z2, ?_⟩
  rw [dbFactor_level] at z3
  refine z3.trans ?_
  have : 10 * (5.6 / (10 ^ 5 * r ^ 2)) ≤ 5.7 / (10 ^ 4 * r ^ 2) := by
    rw [mul_div_assoc', div_le_div_iff₀ (by positivity) (by positivity)]
    nlinarith
  linarith

end

/-- A sinusoid at a quarter of the sample rate, without error. -/
theorem quarter_sine : SampledSine (fun n => if n % 4 = 0 then (one : Fl L) else if n % 4 = 2 then neg one else zero) 1 (Real.pi / 2) 0 0 := by
  intro n
  have e : Real.cos (Real.pi / 2 * n + 0) = Real.cos (Real.pi / 2 * (n % 4 : ℕ)) := by
    have : (n : ℝ) = 4 * (n / 4 : ℕ) + (n % 4 : ℕ) := by exact_mod_cast (Nat.div_add_mod n 4).symm
    rw [add_zero, this, show Real.pi / 2 * (4 * ((n / 4 : ℕ) : ℝ) + (n % 4 : ℕ)) = Real.pi / 2 * (n % 4 : ℕ) + (n / 4 : ℕ) * (2 * Real.pi) by ring,
      Real.cos_add_nat_mul_two_pi]
  beta_reduce
  rw [one_mul, e]
  have h4 : n % 4 < 4 := Nat.mod_lt _ (by norm_num)
  interval_cases n % 4
  · simp [one_finite, one_toReal]
  · simp [zero_finite, zero_toReal]
  · refine ⟨by simp [neg_finite, one_finite], ?_⟩
    have : Real.pi / 2 * (2 : ℕ) = Real.pi := by push_cast; ring
    rw [this]
    simp [neg_toReal, one_toReal]
  · refine ⟨by simp [zero_finite], ?_⟩
    have : Real.pi / 2 * (3 : ℕ) = Real.pi / 2 + Real.pi := by push_cast; ring
    rw [this, Real.cos_add_pi]
    simp [zero_toReal]

/-- The conditions of `C154_sine`, `C154_fader_f64`, `C154_peak` and `C154_shelves`: a correctly rounding library, a sinusoid of 12 kHz at 48 kHz, a
detector with gain 15/16 and, in the first two, its 80th reading. -/
example : ∃ (L : Libm binary64) (d : RmsEnvDetector (Fl L)) (sr fc v : Fl L) (x : ℕ → Fl L), AccurateDb L 2 ∧ AccurateTrig L 2 ∧
    d.getReleaseGain = d.getAttackGain ∧ d.getAttackGain.Finite ∧ d.getAttackGain.toReal = 15 / 16 ∧ (15 / 16 : ℝ) ≤ 1 - 1 / 48001 ∧
    SampledSine x 1 (angle sr.toReal fc.toReal) 0 (1 / 2 ^ 53) ∧ ripple (15 / 16) (angle sr.toReal fc.toReal) ≤ 1 / 20 ∧ (15 / 16 : ℝ) ^ (79 + 1) ≤ 1 / 100 ∧
    sr.Finite ∧ fc.Finite ∧ v.Finite ∧ sr.toReal = 48000 ∧ fc.toReal = 12000 ∧ v.toReal = 6 ∧
    1 / 16 * sr.toReal ≤ fc.toReal ∧ fc.toReal ≤ (1 / 2 - 1 / 16) * sr.toReal := by
  let L : Libm binary64 := { Libm.roundedDb binary64 with
    cos := fun x => FP.ofReal binary64 false (Real.cos x.toReal), sin := fun x => FP.ofReal binary64 false (Real.sin x.toReal) }
  have hD := Libm.roundedDb_accurate binary64_ordinary (by simp [Fmt.u, binary64]; norm_num)
  have ex : ∀ n : ℕ, n ≤ 50000 → ∃ a : Fl L, a.Finite ∧ a.toReal = n := fun n hn => by
    have hn' : (n : ℝ) ≤ 50000 := by exact_mod_cast hn
    have hl : (2 : ℝ) ^ (101 : ℤ) ≤ binary64.lim := zpow_le_zpow_right₀ one_le_two (by decide)
    exact exists_of_isRep L (isRep_nat (by norm_num [binary64]; omega)) (by rw [abs_of_nonneg (by positivity)]; norm_num at hl ⊢; linarith)
  obtain ⟨a, ha1, ha2⟩ := ex 48000 (by norm_num)
  obtain ⟨c, hc1, hc2⟩ := ex 12000 (by norm_num)
  obtain ⟨v, hv1, hv2⟩ := ex 6 (by norm_num)
  obtain ⟨g, hg1, hg2⟩ : ∃ x : Fl L, x.Finite ∧ x.toReal = 15 / 16 :=
    exists_of_isRep L ⟨15, -4, by norm_num [binary64], by norm_num [binary64], by norm_num⟩
      (by have := FP.one_lt_lim binary64; norm_num [abs_of_pos]; linarith)
  have hw : angle a.toReal c.toReal = Real.pi / 2 := by rw [ha2, hc2]; unfold angle; push_cast; ring
  refine ⟨L, ⟨g, g, zero⟩, a, c, v, _, ⟨hD.log10, hD.powf⟩, .of_rounded binary64_roomy (fun _ _ => rfl) (fun _ _ => rfl), rfl, hg1, hg2, by norm_num,
    by rw [hw]; exact fun n => ⟨(quarter_sine n).1, (quarter_sine n).2.trans (by norm_num)⟩, ?_, by norm_num, ha1, hc1, hv1, by exact_mod_cast ha2,
    by exact_mod_cast hc2, by exact_mod_cast hv2, by rw [ha2, hc2]; norm_num, by rw [ha2, hc2]; norm_num⟩
  rw [hw, ripple, show 2 * (Real.pi / 2) = Real.pi by ring, Real.cos_pi, show (1 : ℝ) - 2 * (15 / 16) * -1 + (15 / 16) ^ 2 = (31 / 16) ^ 2 by norm_num,
    Real.sqrt_sq (by norm_num)]
  norm_num

end Rasp
