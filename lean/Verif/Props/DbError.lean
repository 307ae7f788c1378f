import Verif.Lemmas.DbError

/-!
# C98: the decibel conversions in floating point
-/

namespace Rasp
open FloatOps Fl
variable {f : Fmt} {L : Libm f} {k : ℝ}

theorem sign_of_pos {x : Fl L} (h : 0 < x.toReal) : isSignNegative x = false := by
  cases x with
  | nan s => exact absurd h (lt_irrefl _)
  | inf s => exact absurd h (lt_irrefl _)
  | fin s a ha =>
    cases s with
    | false => rfl
    | true =>
      have : (0 : ℝ) < -a := h
      linarith [ha.1]

theorem sign_mul_of_pos {x y : Fl L} (hx : x.Finite) (hy : y.Finite) (h : 0 < x.toReal * y.toReal) : isSignNegative (x *. y) = false := by
  obtain ⟨s, a, ha, rfl⟩ := FP.finite_cases hx
  obtain ⟨s', a', ha', rfl⟩ := FP.finite_cases hy
  exact FP.signBit_ofReal_pos h

/-- The logarithm branch of `to_db`, at any level above the floor: the relative error, up to underflow. -/
theorem C98_to_db_fine (hf : f.Ordinary) (hD : AccurateDb L k) (hk0 : 0 ≤ k) (hk : (k + 30) * f.u ≤ 1 / 2000) (b : Build) (x : Fl L)
    (hx : x.Finite) (h : rnd f (rnd binary64 (1 / 1000000)) < x.toReal) :
    ∃ y : Fl L, toDb b x = .ok y ∧ y.Finite ∧
      |y.toReal - 20 * Real.logb 10 x.toReal| ≤ (k + 2) * f.u * |20 * Real.logb 10 x.toReal| + 22 * f.tiny := by
  have u0 := f.u_pos
  have t0 := f.tiny_pos
  have hku : 0 ≤ k * f.u := by positivity
  have hn := floor_near hf (by linarith)
  have h5 : 5e-7 < x.toReal := by have := abs_le.mp hn; norm_num at this ⊢; linarith
  obtain ⟨c, c1, c2, e⟩ := C64_to_db_above (L := L) (by have := hf.prec; omega) b x (fun _ => sign_of_pos (by linarith)) hx h
  obtain ⟨l1, l2⟩ := hD.log10 x hx h5
  have hE := logb_le_emax (L := L) hf h5
  generalize FloatOps.log10 x = v at *
  generalize Real.logb 10 x.toReal = l at *
  rw [abs_mul, show |(20 : ℝ)| = 20 by norm_num]
  have a0 := abs_nonneg l
  have b1 : |v.toReal| ≤ (1 + k * f.u) * |l| + f.tiny := by
    have := abs_add_le (v.toReal - l) l
    rw [sub_add_cancel] at this
    linarith
  have m1 : k * f.u * |l| ≤ 1 / 2000 * |l| := mul_le_mul_of_nonneg_right (by linarith) a0
  have ht : f.tiny ≤ f.u / 1000 := hf.tiny_le
  have hno : |c.toReal * v.toReal| ≤ 2 ^ f.emax := by
    rw [c2, abs_mul, show |(20 : ℝ)| = 20 by norm_num]
    linarith
  obtain ⟨p1, p2⟩ := mul_val c1 l1 (noOvf_of_le_emax hno)
  refine ⟨_, e, p1, ?_⟩
  rw [p2, c2]
  have r := abs_rnd_sub_le_u f (20 * v.toReal)
  rw [abs_mul, show |(20 : ℝ)| = 20 by norm_num] at r
  have q := abs_add_le (rnd f (20 * v.toReal) - 20 * v.toReal) (20 * (v.toReal - l))
  rw [show rnd f (20 * v.toReal) - 20 * v.toReal + 20 * (v.toReal - l) = rnd f (20 * v.toReal) - 20 * l by ring, abs_mul,
    show |(20 : ℝ)| = 20 by norm_num] at q
  have m2 := mul_le_mul_of_nonneg_left b1 u0.le
  have m3 := mul_le_mul_of_nonneg_left m1 u0.le
  have m4 : f.u * f.tiny ≤ f.tiny / 2000 := by nlinarith
  have m5 : 0 ≤ f.u * |l| := by positivity
  nlinarith

theorem to_db_below (hp : 7 ≤ f.p) (b : Build) (x : Fl L) (hs : b.debug = true → isSignNegative x = false)
    (hx : x.Finite) (h : ¬ rnd f (rnd binary64 (1 / 1000000)) < x.toReal) :
    ∃ y : Fl L, toDb b x = .ok y ∧ y.Finite ∧ y.toReal = -120 := by
  have hc := int_const (L := L) hp (z := -120) (by norm_num)
  refine ⟨_, ?_, by exact_mod_cast hc.1, by exact_mod_cast hc.2⟩
  obtain ⟨c1, c2⟩ := floor_const (L := L)
  unfold toDb
  rw [if_neg, if_neg]
  · norm_num
  · rw [Bool.and_eq_true, Fl.isFinite_iff, Fl.lt_iff c1 hx, c2]
    exact fun h' => h h'.1
  · rw [Bool.and_eq_true]
    rintro ⟨h1, h2⟩
    rw [hs h1] at h2; simp at h2

/-- **C98.** `to_db` of every finite amplitude is finite and close to the ideal level, the floor at -120 dB included: the error is
`(k + 3) 2^-p` relative to the larger of 120 and the level. -/
theorem C98_to_db (hf : f.Ordinary) (hD : AccurateDb L k) (hk0 : 0 ≤ k) (hk : (k + 30) * f.u ≤ 1 / 2000) (b : Build) (x : Fl L)
    (hx : x.Finite) (hs : isSignNegative x = false) :
    ∃ y : Fl L, toDb b x = .ok y ∧ y.Finite ∧ |y.toReal - level x.toReal| ≤ (k + 3) * f.u * max 120 |level x.toReal| := by
  have u0 := f.u_pos
  have hku : 0 ≤ k * f.u := by positivity
  have hn := floor_near hf (by linarith)
  have hn' := abs_le.mp hn
  have hx0 : 0 ≤ x.toReal := toReal_nonneg_of_sign hx hs
  have hm : (120 : ℝ) ≤ max 120 |level x.toReal| := le_max_left _ _
  have hE : (k + 3) * f.u * 120 ≤ (k + 3) * f.u * max 120 |level x.toReal| := mul_le_mul_of_nonneg_left hm (by positivity)
  have ht := hf.tiny_le
  have near : |x.toReal - 1e-6| ≤ 2.1 * f.u * 1e-6 → 0 < x.toReal ∧ |20 * Real.logb 10 x.toReal + 120| ≤ 18.9 * f.u := by
    intro h
    have := logb_near (x := 1e-6) (y := x.toReal) (e := 2.1 * f.u) (by norm_num) (by linarith) h
    rw [logb_million] at this
    refine ⟨this.1, ?_⟩
    rw [sub_neg_eq_add] at this
    linarith [this.2]
  by_cases h : rnd f (rnd binary64 (1 / 1000000)) < x.toReal
  · obtain ⟨y, y1, y2, y3⟩ := C98_to_db_fine hf hD hk0 hk b x hx h
    refine ⟨y, y1, y2, ?_⟩
    by_cases h6 : 1e-6 < x.toReal
    · rw [level, if_pos h6] at hm ⊢
      refine y3.trans ?_
      have m := mul_le_mul_of_nonneg_left (le_max_right 120 |20 * Real.logb 10 x.toReal|) (show 0 ≤ (k + 2) * f.u by positivity)
      have m' := mul_le_mul_of_nonneg_left hm u0.le
      nlinarith
    · have hN := near (by
        rw [abs_le]; norm_num at h6 hn' ⊢; constructor <;> nlinarith)
      have hl : level x.toReal = -120 := by rw [level, if_neg h6]
      rw [hl] at hE ⊢
      refine le_trans ?_ hE
      have q := abs_add_le (y.toReal - 20 * Real.logb 10 x.toReal) (20 * Real.logb 10 x.toReal + 120)
      rw [show y.toReal - 20 * Real.logb 10 x.toReal + (20 * Real.logb 10 x.toReal + 120) = y.toReal - -120 by ring] at q
      have q2 : |20 * Real.logb 10 x.toReal| ≤ 120 + 18.9 * f.u := by
        have := abs_sub (20 * Real.logb 10 x.toReal + 120) 120
        rw [add_sub_cancel_right] at this
        norm_num at this ⊢
        linarith [hN.2]
      have q3 := mul_le_mul_of_nonneg_left q2 (show 0 ≤ (k + 2) * f.u by positivity)
      have q4 : (k + 2) * f.u * (18.9 * f.u) ≤ 0.01 * f.u := by
        have : (k + 2) * f.u ≤ 1 / 2000 := by linarith
        nlinarith
      linarith [hN.2]
  · obtain ⟨y, y1, y2, y3⟩ := to_db_below (L := L) (by have := hf.prec; omega) b x (fun _ => hs) hx h
    refine ⟨y, y1, y2, ?_⟩
    refine le_trans ?_ hE
    rw [y3]
    by_cases h6 : 1e-6 < x.toReal
    · have hN := near (by
        rw [abs_le]; norm_num at h6 hn' h ⊢; constructor <;> nlinarith)
      rw [level, if_pos h6, ← abs_neg, show -(-120 - 20 * Real.logb 10 x.toReal) = 20 * Real.logb 10 x.toReal + 120 by ring]
      linarith [hN.2]
    · rw [level, if_neg h6, sub_self, abs_zero]
      positivity

/-- **C98.** `to_sample` of every level up to 130 dB is finite and has a relative error of at most `(k + 16) 2^-p`. -/
theorem C98_to_sample (hf : f.Ordinary) (hD : AccurateDb L k) (hk0 : 0 ≤ k) (hk : (k + 30) * f.u ≤ 1 / 2000) (d : Fl L)
    (hd : d.Finite) (h : d.toReal ≤ 130) :
    (toSample d).Finite ∧ |(toSample d).toReal - amplitude d.toReal| ≤ (k + 16) * f.u * amplitude d.toReal := by
  have u0 := f.u_pos
  have hku : 0 ≤ k * f.u := by positivity
  have hp : 7 ≤ f.p := by have := hf.prec; omega
  by_cases h1 : -120 < d.toReal
  · obtain ⟨c1, c2⟩ := int_const (L := L) hp (z := 20) (by norm_num)
    have c1' : (ofF64 (.lit 20) : Fl L).Finite := c1
    have c2' : (ofF64 (.lit 20) : Fl L).toReal = 20 := by have := c2; push_cast at this; exact this
    obtain ⟨n1, n2⟩ := int_const (L := L) hp (z := -120) (by norm_num)
    have n1' : (ofF64 (.lit (-120)) : Fl L).Finite := by exact_mod_cast n1
    have n2' : (ofF64 (.lit (-120)) : Fl L).toReal = -120 := by exact_mod_cast n2
    have e : toSample d = powf (ofF64 (.lit 10)) (d /. ofF64 (.lit 20)) := by
      unfold toSample
      rw [if_pos]
      rw [Bool.and_eq_true, Fl.isFinite_iff, Fl.lt_iff n1' hd, n2']
      exact ⟨h1, hd⟩
    have hx : |d.toReal / 20| ≤ 6.5 := by rw [abs_le]; constructor <;> norm_num <;> linarith
    obtain ⟨q1, q2⟩ := div_val hd c1' (by rw [c2']; norm_num)
      (by rw [c2']; exact noOvf_of_le_emax (by have := hf.emax_ge; norm_num at this hx ⊢; linarith))
    rw [c2'] at q2
    have hδ := abs_rnd_sub_le_u f (d.toReal / 20)
    have ht := hf.tiny_le
    have m := mul_le_mul_of_nonneg_left hx u0.le
    have hδ' : |20 * (d /. ofF64 (.lit 20)).toReal - d.toReal| ≤ 130.02 * f.u := by
      rw [q2, show 20 * rnd f (d.toReal / 20) - d.toReal = 20 * (rnd f (d.toReal / 20) - d.toReal / 20) by ring, abs_mul]
      norm_num
      linarith
    have hv7 : |(d /. ofF64 (.lit 20)).toReal| ≤ 7 := by
      have := abs_add_le (20 * (d /. ofF64 (.lit 20)).toReal - d.toReal) d.toReal
      rw [sub_add_cancel, abs_mul] at this
      have hd' : |d.toReal| ≤ 130 := by rw [abs_le]; constructor <;> linarith
      norm_num at this
      linarith
    obtain ⟨p1, p2⟩ := hD.powf (d /. ofF64 (.lit 20)) q1 hv7
    have am := amp_near (a := d.toReal) (b := 20 * (d /. ofF64 (.lit 20)).toReal) (d := 130.02 * f.u) (by linarith) hδ'
    rw [mul_div_cancel_left₀ _ (by norm_num : (20 : ℝ) ≠ 0)] at am
    rw [e, amplitude, if_pos h1]
    refine ⟨p1, ?_⟩
    have A0 : (0 : ℝ) < 10 ^ (d.toReal / 20) := by positivity
    generalize (10 : ℝ) ^ (d.toReal / 20) = A at *
    generalize (10 : ℝ) ^ (d /. ofF64 (.lit 20)).toReal = B at *
    have t := abs_add_le ((powf (ofF64 (.lit 10)) (d /. ofF64 (.lit 20))).toReal - B) (B - A)
    rw [sub_add_sub_cancel] at t
    have hB : B ≤ (1 + 15.35 * f.u) * A := by
      have := (abs_le.mp am).2
      have : 0 ≤ f.u * A := by positivity
      nlinarith
    have m2 := mul_le_mul_of_nonneg_left hB hku
    have m3 : k * f.u * (15.35 * f.u) ≤ 0.6 * f.u := by
      have : k * f.u ≤ 1 / 2000 := by linarith
      nlinarith
    have m4 := mul_le_mul_of_nonneg_right m3 A0.le
    have m5 : 0 ≤ f.u * A := by positivity
    nlinarith
  · rw [(C64_to_sample hp d).1 fun _ => not_lt.mp h1, amplitude, if_neg h1]
    exact ⟨zero_finite, by simp⟩

/-- **C98.** Amplitudes in [1.01e-6, 1e6] survive `to_sample (to_db x)` with a relative error of at most `(16 k + 59) 2^-p`. -/
theorem C98_there_and_back (hf : f.Ordinary) (hD : AccurateDb L k) (hk0 : 0 ≤ k) (hk : (k + 30) * f.u ≤ 1 / 2000) (b : Build) (x : Fl L)
    (hx : x.Finite) (h1 : 1.01e-6 ≤ x.toReal) (h2 : x.toReal ≤ 1e6) :
    ∃ d : Fl L, toDb b x = .ok d ∧ (toSample d).Finite ∧ |(toSample d).toReal - x.toReal| ≤ (16 * k + 59) * f.u * x.toReal := by
  have u0 := f.u_pos
  have hku : 0 ≤ k * f.u := by positivity
  have hx0 : 0 < x.toReal := by linarith
  obtain ⟨d, d1, d2, d3⟩ := C98_to_db hf hD hk0 hk b x hx (sign_of_pos hx0)
  refine ⟨d, d1, ?_⟩
  have hl : level x.toReal = 20 * Real.logb 10 x.toReal := by rw [level, if_pos (by norm_num at h1 ⊢; linarith)]
  have hi : 20 * Real.logb 10 x.toReal ≤ 120 := by
    have : Real.logb 10 x.toReal ≤ 6 := by
      rw [Real.logb_le_iff_le_rpow (by norm_num) hx0]; norm_num at h2 ⊢; exact h2
    linarith
  have lo : -120 + 0.08 ≤ 20 * Real.logb 10 x.toReal := by
    have e1 := Real.logb_le_logb_of_le (b := 10) (by norm_num) (show (0 : ℝ) < 1.01e-6 by norm_num) h1
    rw [show (1.01e-6 : ℝ) = 1e-6 * 1.01 by norm_num, Real.logb_mul (by norm_num) (by norm_num)] at e1
    have e2 := logb_million
    have e3 : 0.004 ≤ Real.logb 10 1.01 := by
      rw [Real.logb, le_div_iff₀ (Real.log_pos (by norm_num))]
      have := Real.one_sub_inv_le_log_of_pos (show (0 : ℝ) < 1.01 by norm_num)
      have := log_ten_lt
      norm_num at *
      linarith
    linarith
  rw [hl, max_eq_left (by rw [abs_le]; constructor <;> linarith)] at d3
  have h3 : (k + 3) * f.u * 120 ≤ 0.06 := by nlinarith
  have d3' := abs_le.mp d3
  obtain ⟨s1, s2⟩ := C98_to_sample hf hD hk0 hk d d2 (by linarith)
  refine ⟨s1, ?_⟩
  rw [amplitude, if_pos (by linarith)] at s2
  have am := amp_near (a := 20 * Real.logb 10 x.toReal) (b := d.toReal) (by linarith) d3
  rw [mul_div_cancel_left₀ _ (by norm_num : (20 : ℝ) ≠ 0), Real.rpow_logb (by norm_num) (by norm_num) hx0] at am
  generalize (10 : ℝ) ^ (d.toReal / 20) = B at *
  generalize x.toReal = X at *
  have t := abs_add_le ((toSample d).toReal - B) (B - X)
  rw [sub_add_sub_cancel] at t
  have hB : B ≤ 1.0071 * X := by
    have := (abs_le.mp am).2
    nlinarith
  have m := mul_le_mul_of_nonneg_left hB (show 0 ≤ (k + 16) * f.u by positivity)
  have m1 : 0 ≤ k * f.u * X := by positivity
  have m2 : 0 ≤ f.u * X := by positivity
  nlinarith

theorem level_lipschitz {x y d : ℝ} (hx : 0 < x) (hy : 0 < y) (h : |20 * Real.logb 10 x - 20 * Real.logb 10 y| ≤ d) :
    |level x - level y| ≤ d := by
  rw [level_eq hx, level_eq hy, max_comm (-120), max_comm (-120)]
  exact (abs_max_sub_max_le_abs _ _ _).trans h

/-- **C98.** Levels in (-120, 120] dB survive `to_db (to_sample d)` with an error of at most `(130 k + 507) 2^-p` dB. -/
theorem C98_back_and_there (hf : f.Ordinary) (hD : AccurateDb L k) (hk0 : 0 ≤ k) (hk : (k + 30) * f.u ≤ 1 / 2000) (b : Build) (d : Fl L)
    (hd : d.Finite) (h1 : -120 < d.toReal) (h2 : d.toReal ≤ 120) :
    ∃ y : Fl L, toDb b (toSample d) = .ok y ∧ y.Finite ∧ |y.toReal - d.toReal| ≤ (130 * k + 507) * f.u := by
  have u0 := f.u_pos
  have hku : 0 ≤ k * f.u := by positivity
  obtain ⟨s1, s2⟩ := C98_to_sample hf hD hk0 hk d hd (by linarith)
  rw [amplitude, if_pos h1] at s2
  have A0 : (0 : ℝ) < 10 ^ (d.toReal / 20) := by positivity
  obtain ⟨p1, p2⟩ := logb_near A0 (by linarith) s2
  obtain ⟨y, y1, y2, y3⟩ := C98_to_db hf hD hk0 hk b (toSample d) s1 (sign_of_pos p1)
  refine ⟨y, y1, y2, ?_⟩
  have hl := level_lipschitz p1 A0 p2
  have hA : level (10 ^ (d.toReal / 20)) = d.toReal := by
    rw [level_eq A0, Real.logb_rpow (by norm_num) (by norm_num), mul_div_cancel₀ _ (by norm_num : (20 : ℝ) ≠ 0), max_eq_right h1.le]
  rw [hA] at hl
  have hl' := abs_le.mp hl
  have hm : max 120 |level (toSample d).toReal| ≤ 121 := by
    have := level_ge (toSample d).toReal
    refine max_le (by norm_num) (abs_le.mpr ⟨by linarith, by linarith⟩)
  have m := mul_le_mul_of_nonneg_left hm (show 0 ≤ (k + 3) * f.u by positivity)
  have t := abs_add_le (y.toReal - level (toSample d).toReal) (level (toSample d).toReal - d.toReal)
  rw [sub_add_sub_cancel] at t
  linarith

/-- **C98.** Applying a gain given in decibels moves the level by that much, down to the floor, with an error of at most
`(130 k + 525) 2^-p` dB. -/
theorem C98_gain (hf : f.Ordinary) (hD : AccurateDb L k) (hk0 : 0 ≤ k) (hk : (k + 30) * f.u ≤ 1 / 2000) (b : Build) (x d : Fl L)
    (hx : x.Finite) (hx0 : 0 < x.toReal) (hd : d.Finite) (h1 : -120 < d.toReal) (h2 : d.toReal ≤ 120)
    (h3 : 20 * Real.logb 10 x.toReal + d.toReal ≤ 120) :
    ∃ z y : Fl L, applyGain b x (toSample d) = .ok z ∧ toDb b z = .ok y ∧ y.Finite ∧
      |y.toReal - max (-120) (20 * Real.logb 10 x.toReal + d.toReal)| ≤ (130 * k + 525) * f.u := by
  have u0 := f.u_pos
  have hku : 0 ≤ k * f.u := by positivity
  obtain ⟨s1, s2⟩ := C98_to_sample hf hD hk0 hk d hd (by linarith)
  rw [amplitude, if_pos h1] at s2
  have A0 : (0 : ℝ) < 10 ^ (d.toReal / 20) := by positivity
  obtain ⟨p1, _⟩ := logb_near A0 (by linarith) s2
  have hs : isSignNegative (toSample d) = false := sign_of_pos p1
  have e1 : applyGain b x (toSample d) = .ok (x *. toSample d) := by
    unfold applyGain
    rw [if_neg]
    rw [Bool.and_eq_true]
    rintro ⟨_, h⟩
    rw [hs, Fl.isFinite_iff.mpr s1] at h
    simp at h
  have eL : Real.logb 10 (x.toReal * 10 ^ (d.toReal / 20)) = Real.logb 10 x.toReal + d.toReal / 20 := by
    rw [Real.logb_mul hx0.ne' A0.ne', Real.logb_rpow (by norm_num) (by norm_num)]
  have P0 : 0 < x.toReal * 10 ^ (d.toReal / 20) := by positivity
  have hP6 : x.toReal * 10 ^ (d.toReal / 20) ≤ 1e6 := by
    have : Real.logb 10 (x.toReal * 10 ^ (d.toReal / 20)) ≤ 6 := by rw [eL]; linarith
    rw [Real.logb_le_iff_le_rpow (by norm_num) P0] at this
    norm_num at this ⊢; exact this
  have hPl : level (x.toReal * 10 ^ (d.toReal / 20)) = max (-120) (20 * Real.logb 10 x.toReal + d.toReal) := by
    rw [level_eq P0, eL]; congr 1; ring
  have hsig := sign_mul_of_pos hx s1 (mul_pos hx0 p1)
  have hprod : |x.toReal * (toSample d).toReal - x.toReal * 10 ^ (d.toReal / 20)| ≤ (k + 16) * f.u * (x.toReal * 10 ^ (d.toReal / 20)) := by
    rw [← mul_sub, abs_mul, abs_of_pos hx0]
    have := mul_le_mul_of_nonneg_left s2 hx0.le
    linarith
  have hpp : 0 < x.toReal * (toSample d).toReal := by positivity
  rw [← hPl]
  generalize x.toReal * 10 ^ (d.toReal / 20) = P at *
  have hw : x.toReal * (toSample d).toReal ≤ 1.01 * P := by
    have := (abs_le.mp hprod).2
    have : (k + 16) * f.u * P ≤ 1 / 2000 * P := mul_le_mul_of_nonneg_right (by linarith) P0.le
    linarith
  obtain ⟨z1, z2⟩ := mul_val hx s1 (noOvf_of_le_emax (by
    have := hf.emax_ge
    rw [abs_of_pos hpp]; norm_num at this hP6 ⊢; linarith))
  obtain ⟨y, y1, y2, y3⟩ := C98_to_db hf hD hk0 hk b _ z1 hsig
  refine ⟨_, y, e1, y1, y2, ?_⟩
  have r := abs_rnd_sub_le_u f (x.toReal * (toSample d).toReal)
  rw [← z2, abs_of_pos hpp] at r
  have hz0 : 0 ≤ (x *. toSample d).toReal := toReal_nonneg_of_sign z1 hsig
  generalize (x *. toSample d).toReal = z at *
  generalize x.toReal * (toSample d).toReal = w at *
  have ht := hf.roomy.tiny
  have s1 : f.u ^ 3 ≤ f.u * (1 / 60000) ^ 2 := by
    have : f.u ^ 2 ≤ (1 / 60000) ^ 2 := pow_le_pow_left₀ u0.le (by linarith) 2
    nlinarith
  have hzP : |z - P| ≤ (k + 17.1) * f.u * P + f.tiny := by
    have := abs_add_le (z - w) (w - P)
    rw [sub_add_sub_cancel] at this
    have m := mul_le_mul_of_nonneg_left hw u0.le
    have m2 : 0 ≤ f.u * P := by positivity
    linarith
  have hlev : |level z - level P| ≤ 9 * (k + 18) * f.u := by
    by_cases h7 : 1e-7 ≤ P
    · have hz : |z - P| ≤ ((k + 18) * f.u) * P := by
        have m3 := mul_le_mul_of_nonneg_left h7 u0.le
        norm_num at m3 s1
        linarith
      obtain ⟨q1, q2⟩ := logb_near P0 (by linarith) hz
      exact level_lipschitz q1 P0 (by linarith)
    · have hz : z ≤ 2e-7 := by
        have := (abs_le.mp hzP).2
        have m3 : (k + 17.1) * f.u * P ≤ 1 / 2000 * P := mul_le_mul_of_nonneg_right (by linarith) P0.le
        norm_num at h7 s1 ⊢
        linarith
      rw [level, if_neg (by norm_num at hz ⊢; linarith), level, if_neg (by norm_num at h7 ⊢; linarith), sub_self, abs_zero]
      positivity
  have hlev' := abs_le.mp hlev
  have hPi : level P ≤ 120 := by rw [hPl]; exact max_le (by norm_num) h3
  have hm : max 120 |level z| ≤ 121 := by
    have := level_ge z
    refine max_le (by norm_num) (abs_le.mpr ⟨by linarith, by linarith⟩)
  have m := mul_le_mul_of_nonneg_left hm (show 0 ≤ (k + 3) * f.u by positivity)
  have t := abs_add_le (y.toReal - level z) (level z - level P)
  rw [sub_add_sub_cancel] at t
  linarith

/-- **C98.** In f32 with functions accurate to two units, amplitudes up to one million: 3.6e-5 dB each way, 5.5e-6 there and back. -/
theorem C98_f32 {L : Libm binary32} (hD : AccurateDb L 2) (b : Build) (x d : Fl L) (hx : x.Finite) (hd : d.Finite) :
    (isSignNegative x = false → x.toReal ≤ 1e6 → ∃ y : Fl L, toDb b x = .ok y ∧ y.Finite ∧ |y.toReal - level x.toReal| ≤ 3.6e-5) ∧
    (d.toReal ≤ 130 → (toSample d).Finite ∧ |(toSample d).toReal - amplitude d.toReal| ≤ 1.1e-6 * amplitude d.toReal) ∧
    (1.01e-6 ≤ x.toReal → x.toReal ≤ 1e6 → ∃ y : Fl L, toDb b x = .ok y ∧ (toSample y).Finite ∧
      |(toSample y).toReal - x.toReal| ≤ 5.5e-6 * x.toReal) ∧
    (-120 < d.toReal → d.toReal ≤ 120 → ∃ y : Fl L, toDb b (toSample d) = .ok y ∧ y.Finite ∧ |y.toReal - d.toReal| ≤ 4.6e-5) := by
  have hu : binary32.u = 1 / 2 ^ 24 := by simp [Fmt.u, binary32]
  have hk : ((2 : ℝ) + 30) * binary32.u ≤ 1 / 2000 := by rw [hu]; norm_num
  refine ⟨fun h1 h2 => ?_, fun h => ?_, fun h1 h2 => ?_, fun h1 h2 => ?_⟩
  · obtain ⟨y, y1, y2, y3⟩ := C98_to_db binary32_ordinary hD (by norm_num) hk b x hx h1
    refine ⟨y, y1, y2, y3.trans ?_⟩
    rw [level_max h2, hu]
    norm_num
  · obtain ⟨s1, s2⟩ := C98_to_sample binary32_ordinary hD (by norm_num) hk d hd h
    refine ⟨s1, s2.trans (mul_le_mul_of_nonneg_right (by rw [hu]; norm_num) (amplitude_nonneg _))⟩
  · obtain ⟨y, y1, y2, y3⟩ := C98_there_and_back binary32_ordinary hD (by norm_num) hk b x hx h1 h2
    refine ⟨y, y1, y2, y3.trans (mul_le_mul_of_nonneg_right (by rw [hu]; norm_num) (by linarith))⟩
  · obtain ⟨y, y1, y2, y3⟩ := C98_back_and_there binary32_ordinary hD (by norm_num) hk b d hd h1 h2
    exact ⟨y, y1, y2, y3.trans (by rw [hu]; norm_num)⟩

/-- **C98.** … and in f64. -/
theorem C98_f64 {L : Libm binary64} (hD : AccurateDb L 2) (b : Build) (x d : Fl L) (hx : x.Finite) (hd : d.Finite) :
    (isSignNegative x = false → x.toReal ≤ 1e6 → ∃ y : Fl L, toDb b x = .ok y ∧ y.Finite ∧ |y.toReal - level x.toReal| ≤ 6.7e-14) ∧
    (d.toReal ≤ 130 → (toSample d).Finite ∧ |(toSample d).toReal - amplitude d.toReal| ≤ 2e-15 * amplitude d.toReal) ∧
    (1.01e-6 ≤ x.toReal → x.toReal ≤ 1e6 → ∃ y : Fl L, toDb b x = .ok y ∧ (toSample y).Finite ∧
      |(toSample y).toReal - x.toReal| ≤ 1.1e-14 * x.toReal) ∧
    (-120 < d.toReal → d.toReal ≤ 120 → ∃ y : Fl L, toDb b (toSample d) = .ok y ∧ y.Finite ∧ |y.toReal - d.toReal| ≤ 8.6e-14) := by
  have hu : binary64.u = 1 / 2 ^ 53 := by simp [Fmt.u, binary64]
  have hk : ((2 : ℝ) + 30) * binary64.u ≤ 1 / 2000 := by rw [hu]; norm_num
  refine ⟨fun h1 h2 => ?_, fun h => ?_, fun h1 h2 => ?_, fun h1 h2 => ?_⟩
  · obtain ⟨y, y1, y2, y3⟩ := C98_to_db binary64_ordinary hD (by norm_num) hk b x hx h1
    refine ⟨y, y1, y2, y3.trans ?_⟩
    rw [level_max h2, hu]
    norm_num
  · obtain ⟨s1, s2⟩ := C98_to_sample binary64_ordinary hD (by norm_num) hk d hd h
    refine ⟨s1, s2.trans (mul_le_mul_of_nonneg_right (by rw [hu]; norm_num) (amplitude_nonneg _))⟩
  · obtain ⟨y, y1, y2, y3⟩ := C98_there_and_back binary64_ordinary hD (by norm_num) hk b x hx h1 h2
    refine ⟨y, y1, y2, y3.trans (mul_le_mul_of_nonneg_right (by rw [hu]; norm_num) (by linarith))⟩
  · obtain ⟨y, y1, y2, y3⟩ := C98_back_and_there binary64_ordinary hD (by norm_num) hk b d hd h1 h2
    exact ⟨y, y1, y2, y3.trans (by rw [hu]; norm_num)⟩

/-- A library that rounds `log10` and `powf` correctly. -/
noncomputable def Libm.roundedDb (f : Fmt) : Libm f :=
  { exp := id, cos := id, sin := id, log10 := fun x => FP.ofReal f false (Real.logb 10 x.toReal),
    powf := fun x y => FP.ofReal f false (x.toReal ^ y.toReal) }

/-- It meets the assumption, so the bounds are about programs that exist. -/
theorem Libm.roundedDb_accurate (hf : f.Ordinary) (hu : 60000 * f.u ≤ 1) : AccurateDb (Libm.roundedDb f) 2 := by
  have u0 := f.u_pos
  have hE := hf.emax_ge
  constructor
  · intro x hx h0
    have hl := logb_le_emax (L := Libm.roundedDb f) hf h0
    have hno : FP.NoOvf f (Real.logb 10 x.toReal) := noOvf_of_le_emax (by linarith [abs_nonneg (Real.logb 10 x.toReal)])
    obtain ⟨h2, h3⟩ := FP.ofReal_of_noOvf (s := false) hno
    have h4 := abs_rnd_sub_le_u f (Real.logb 10 x.toReal)
    have h5 : 0 ≤ f.u * |Real.logb 10 x.toReal| := by positivity
    rw [← h3] at h4
    exact ⟨h2, h4.trans (by linarith)⟩
  · intro x hx h7
    obtain ⟨c1, c2⟩ := int_const (L := Libm.roundedDb f) (by have := hf.prec; omega) (z := 10) (by norm_num)
    have c1' : (ofF64 (.lit 10) : Fl (Libm.roundedDb f)).Finite := c1
    have c2' : (ofF64 (.lit 10) : Fl (Libm.roundedDb f)).toReal = 10 := by have := c2; push_cast at this; exact this
    have e : FloatOps.powf (ofF64 (.lit 10) : Fl (Libm.roundedDb f)) x = FP.ofReal f false ((ofF64 (.lit 10) : Fl (Libm.roundedDb f)).toReal ^ x.toReal) := rfl
    rw [e, c2']
    rw [abs_le] at h7
    have lo : (10 : ℝ) ^ (-7 : ℝ) ≤ 10 ^ x.toReal := Real.rpow_le_rpow_of_exponent_le (by norm_num) h7.1
    have hi : (10 : ℝ) ^ x.toReal ≤ 10 ^ (7 : ℝ) := Real.rpow_le_rpow_of_exponent_le (by norm_num) h7.2
    norm_num at lo hi hE
    have p0 : (0 : ℝ) < 10 ^ x.toReal := by positivity
    generalize (10 : ℝ) ^ x.toReal = v at *
    have := FP.ofReal_of_noOvf (f := f) (s := false) (x := v) (noOvf_of_le_emax (by rw [abs_of_pos p0]; linarith))
    refine ⟨this.1, ?_⟩
    have h := abs_rnd_sub_le_u f v
    rw [abs_of_pos p0, ← this.2] at h
    refine h.trans ?_
    have ht := hf.roomy.tiny
    have s1 : f.u ^ 3 ≤ f.u * (1 / 60000) ^ 2 := by
      have : f.u ^ 2 ≤ (1 / 60000) ^ 2 := pow_le_pow_left₀ u0.le (by linarith) 2
      nlinarith
    have := mul_le_mul_of_nonneg_left lo u0.le
    norm_num at s1 this
    linarith

example : AccurateDb (Libm.roundedDb binary32) 2 ∧ AccurateDb (Libm.roundedDb binary64) 2 :=
  ⟨Libm.roundedDb_accurate binary32_ordinary (by simp [Fmt.u, binary32]; norm_num),
   Libm.roundedDb_accurate binary64_ordinary (by simp [Fmt.u, binary64]; norm_num)⟩

/-- Full scale, one half, and -6 dB are amplitudes and levels of the theorems. -/
example (L : Libm binary32) : ∃ x d : Fl L, x.Finite ∧ d.Finite ∧ x.toReal = 1 / 2 ∧ d.toReal = -6 ∧ level (x.toReal * 2) = 0 ∧
    1.01e-6 ≤ x.toReal ∧ x.toReal ≤ 1e6 ∧ -120 < d.toReal ∧ d.toReal ≤ 120 ∧ 20 * Real.logb 10 x.toReal + d.toReal ≤ 120 := by
  obtain ⟨d, d1, d2⟩ : ∃ d : Fl L, d.Finite ∧ d.toReal = -6 := by
    have := int_const (L := L) (by decide) (z := -6) (by norm_num)
    exact ⟨_, this.1, by rw [this.2]; norm_num⟩
  obtain ⟨x, x1, x2⟩ : ∃ x : Fl L, x.Finite ∧ x.toReal = 1 / 2 :=
    exists_of_isRep L ⟨1, -1, by norm_num [binary32], by norm_num [binary32], by norm_num⟩
      (by have := FP.one_lt_lim binary32; norm_num [abs_of_pos]; linarith)
  refine ⟨x, d, x1, d1, x2, d2, ?_, by rw [x2]; norm_num, by rw [x2]; norm_num, by rw [d2]; norm_num, by rw [d2]; norm_num, ?_⟩
  · rw [x2, level]; norm_num
  · have : Real.logb 10 x.toReal ≤ 0 := Real.logb_nonpos (by norm_num) (by rw [x2]; norm_num) (by rw [x2]; norm_num)
    rw [d2]; linarith

end Rasp
