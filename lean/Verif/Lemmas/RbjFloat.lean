import Verif.Lemmas.Approx
import Verif.Lemmas.CoeffErr
import Verif.Lemmas.RbjReal
import Verif.Props.LowCutoff
import Verif.Spec.Libm
import Mathlib.Analysis.SpecialFunctions.Trigonometric.Bounds

/-!
# Rounding errors of the rbj coefficients
-/

namespace Rasp
open FloatOps Fl
variable {f : Fmt} {L : Libm f} {k : ℝ} {sr fc q : Fl L}

/-- The format has some range: underflow is far below the precision. -/
structure Fmt.Roomy (f : Fmt) : Prop where
  small : f.emin + 3 * f.p ≤ 0
  large : f.p + 3 ≤ f.emax

theorem binary32_roomy : binary32.Roomy := ⟨by norm_num [binary32], by norm_num [binary32]⟩
theorem binary64_roomy : binary64.Roomy := ⟨by norm_num [binary64], by norm_num [binary64]⟩

theorem Fmt.u_mul (f : Fmt) : f.u * 2 ^ f.p = 1 := by unfold Fmt.u; field_simp

theorem Fmt.Roomy.tiny (h : f.Roomy) : f.tiny ≤ f.u ^ 3 := by
  unfold Fmt.tiny Fmt.u
  rw [one_div, inv_pow, ← pow_mul, ← zpow_natCast, ← zpow_neg]
  exact zpow_le_zpow_right₀ (by norm_num) (by have := h.small; push_cast; omega)

theorem Fmt.Roomy.emax (h : f.Roomy) : 8 ≤ f.u * 2 ^ f.emax := by
  have h1 : (2 : ℝ) ^ ((f.p : ℤ) + 3) ≤ 2 ^ f.emax := zpow_le_zpow_right₀ (by norm_num) h.large
  rw [zpow_add₀ (by norm_num), zpow_natCast] at h1
  have := mul_le_mul_of_nonneg_left h1 f.u_pos.le
  rw [← mul_assoc, f.u_mul] at this
  norm_num at this
  exact this

/-- The computed angle. -/
theorem angle_approx (hf : f.Roomy) (hu : f.u ≤ 1 / 64) (h1 : sr.Finite) (h2 : fc.Finite) (hsr : 1 ≤ sr.toReal) (hmax : 8 * sr.toReal ≤ 2 ^ f.emax)
    (hc0 : 0 < fc.toReal) (hc : 2 * fc.toReal < sr.toReal) : Approx (flAngle sr fc) (angle sr.toReal fc.toReal) (14 * f.u) := by
  have ht := hf.tiny
  have ht0 := f.tiny_pos
  have hu0 := f.u_pos
  have hπ := Real.pi_lt_d2
  have hπ3 := Real.pi_gt_three
  have htu : f.tiny ≤ f.u / 1000 := by nlinarith [sq_nonneg f.u]
  have hmax' : 8 ≤ (2 : ℝ) ^ f.emax := by linarith
  have a1 : Approx (FloatOps.pi : Fl L) Real.pi (3.2 * f.u) := by
    refine ⟨pi_val.1, ?_⟩
    rw [pi_val.2]
    have := abs_rnd_sub_le_u f Real.pi
    rw [abs_of_pos Real.pi_pos] at this
    nlinarith
  have a2 : Approx ((two : Fl L) *. FloatOps.pi) (2 * Real.pi) (12.9 * f.u) := by
    refine Approx.mul .two a1 (x := 6.4 * f.u) (B := 6.4) ?_ ?_ (by linarith) ?_
    · norm_num; linarith
    · rw [abs_of_pos (by positivity)]; linarith
    · linarith
  have a3 : Approx ((two : Fl L) *. FloatOps.pi *. fc) (2 * Real.pi * fc.toReal) (19.5 * f.u * fc.toReal + f.tiny) := by
    refine Approx.mul a2 (.refl h2) (x := 12.9 * f.u * fc.toReal) (B := 6.55 * fc.toReal) ?_ ?_ (by linarith) ?_
    · rw [abs_of_pos hc0]; simp
    · rw [abs_of_pos (by positivity)]; nlinarith
    · nlinarith
  have e : angle sr.toReal fc.toReal = 2 * Real.pi * fc.toReal / sr.toReal := by
    unfold angle; rfl
  have hr : fc.toReal / sr.toReal ≤ 1 / 2 := by rw [div_le_div_iff₀ (by linarith) (by norm_num)]; linarith
  have hr0 : 0 < fc.toReal / sr.toReal := div_pos hc0 (by linarith)
  have hts : f.tiny / sr.toReal ≤ f.tiny := div_le_self ht0.le hsr
  have hA : |2 * Real.pi * fc.toReal / sr.toReal| ≤ 3.15 := by
    rw [abs_of_pos (by positivity), mul_div_assoc]; nlinarith
  rw [e]
  refine Approx.div a3 (.refl h1) (x := 9.8 * f.u) (B := 3.4) (by linarith) ?_ ?_ (by linarith) ?_
  · simp only [mul_zero, add_zero, sub_zero]
    nlinarith
  · linarith
  · linarith

theorem trig_approx (hL : AccurateTrig L k) (hu : f.u ≤ 1 / 64) {w : Fl L} {t : ℝ} (hw : Approx w t (14 * f.u)) (h0 : 0 ≤ t)
    (h1 : t ≤ Real.pi) : Approx (cos w) (Real.cos t) ((k + 14) * f.u) ∧ Approx (sin w) (Real.sin t) ((k + 14) * f.u) := by
  have hπ := Real.pi_lt_d2
  have hb : |w.toReal| ≤ 4 := by
    have h2 := abs_le.mp hw.2
    rw [abs_le]; constructor <;> linarith
  obtain ⟨c1, c2⟩ := hL.cos w hw.1 hb
  obtain ⟨s1, s2⟩ := hL.sin w hw.1 hb
  refine ⟨⟨c1, ?_⟩, ⟨s1, ?_⟩⟩
  · have h2 := Real.abs_cos_sub_cos_le w.toReal t
    have h3 := abs_add_le ((cos w).toReal - Real.cos w.toReal) (Real.cos w.toReal - Real.cos t)
    rw [sub_add_sub_cancel] at h3
    linarith [hw.2]
  · have h2 := Real.abs_sin_sub_sin_le w.toReal t
    have h3 := abs_add_le ((sin w).toReal - Real.sin w.toReal) (Real.sin w.toReal - Real.sin t)
    rw [sub_add_sub_cancel] at h3
    linarith [hw.2]

/-- Error of the coefficients. -/
noncomputable def coeffErr (f : Fmt) (k q : ℝ) : ℝ := (5 * k + 86) * f.u * (1 + 1 / (2 * q))

/-- Distance of the poles from the unit circle. -/
noncomputable def rbjMargin (sr fc q : ℝ) : ℝ :=
  (Real.sin (angle sr fc) * min 1 (1 / (2 * q)) / (1 + alphaQ sr fc q)) ^ 2

/-- Parameters for which the precision suffices. -/
structure Resolved (k : ℝ) (sr fc q : Fl L) : Prop where
  hsr : sr.Finite ∧ 1 ≤ sr.toReal ∧ 8 * sr.toReal ≤ 2 ^ f.emax
  hfc : fc.Finite
  hq : q.Finite ∧ q.toReal ≤ 2 ^ f.p
  valid : ValidParams sr.toReal fc.toReal q.toReal
  margin : 8 * coeffErr f k q.toReal ≤ rbjMargin sr.toReal fc.toReal q.toReal

theorem rbj_poleMargin {sr fc q : ℝ} (h : ValidParams sr fc q) :
    PoleMargin (-2 * Real.cos (angle sr fc) / (1 + alphaQ sr fc q)) ((1 - alphaQ sr fc q) / (1 + alphaQ sr fc q))
      (rbjMargin sr fc q) := by
  have hs := h.sin_pos
  have hα := h.alphaQ_pos
  have hq : 0 < q := h.2.2
  have hmin : 0 < min 1 (1 / (2 * q)) := lt_min one_pos (by positivity)
  have e : alphaQ sr fc q = Real.sin (angle sr fc) * (1 / (2 * q)) := by unfold alphaQ; ring
  unfold rbjMargin
  refine ⟨h.stableQ, by positivity, ?_, ?_⟩
  · rw [show (1 - (1 - alphaQ sr fc q) / (1 + alphaQ sr fc q)) ^ 2 = 4 * (alphaQ sr fc q / (1 + alphaQ sr fc q)) ^ 2 by
      field_simp; ring]
    refine mul_le_mul_of_nonneg_left (pow_le_pow_left₀ (by positivity) ?_ 2) (by norm_num)
    refine div_le_div_of_nonneg_right ?_ (by positivity)
    rw [e]
    exact mul_le_mul_of_nonneg_left (min_le_right _ _) hs.le
  · rw [show (1 + (1 - alphaQ sr fc q) / (1 + alphaQ sr fc q) + -2 * Real.cos (angle sr fc) / (1 + alphaQ sr fc q)) *
      (1 + (1 - alphaQ sr fc q) / (1 + alphaQ sr fc q) - -2 * Real.cos (angle sr fc) / (1 + alphaQ sr fc q)) =
      4 * (1 - Real.cos (angle sr fc) ^ 2) / (1 + alphaQ sr fc q) ^ 2 by field_simp; ring, ← Real.sin_sq, mul_div_assoc 4 (Real.sin (angle sr fc) ^ 2), ← div_pow (Real.sin (angle sr fc))]
    refine mul_le_mul_of_nonneg_left (pow_le_pow_left₀ (by positivity) ?_ 2) (by norm_num)
    refine div_le_div_of_nonneg_right ?_ (by positivity)
    exact mul_le_of_le_one_right hs.le (min_le_left _ _)

/-- All intermediate results. -/
structure Parts (k : ℝ) (sr fc q : Fl L) : Prop where
  cos : Approx (FloatOps.cos (flAngle sr fc)) (Real.cos (angle sr.toReal fc.toReal)) ((k + 14) * f.u)
  alpha : Approx (flAlpha sr fc q) (alphaQ sr.toReal fc.toReal q.toReal) ((k + 16) * f.u * (1 / (2 * q.toReal)))
  plus : Approx (one +. flAlpha sr fc q) (1 + alphaQ sr.toReal fc.toReal q.toReal) ((k + 18) * f.u * (1 + 1 / (2 * q.toReal)))
  minus : Approx (one -. flAlpha sr fc q) (1 - alphaQ sr.toReal fc.toReal q.toReal) ((k + 18) * f.u * (1 + 1 / (2 * q.toReal)))
  twice : Approx (neg two *. FloatOps.cos (flAngle sr fc)) (-2 * Real.cos (angle sr.toReal fc.toReal)) ((2 * k + 31) * f.u)

/-- What the margin says about the format. -/
structure Scale (f : Fmt) (k q : ℝ) : Prop where
  u : (5 * k + 86) * f.u ≤ 1 / 8
  uh : (5 * k + 86) * (f.u * (1 / (2 * q))) ≤ 1 / 8
  e : (5 * k + 86) * f.u * (1 + 1 / (2 * q)) ≤ 1 / 8
  tiny : f.tiny ≤ f.u / 1000
  tinyh : f.tiny ≤ f.u * (1 / (2 * q)) / 100
  emax : 8 ≤ f.u * 2 ^ f.emax

theorem Resolved.scale (hf : f.Roomy) (hk : 0 ≤ k) (h : Resolved k sr fc q) : Scale f k q.toReal := by
  have hu := f.u_pos
  have hq : 0 < q.toReal := h.valid.2.2
  have hh : 0 < 1 / (2 * q.toReal) := by positivity
  have e : (5 * k + 86) * f.u * (1 + 1 / (2 * q.toReal)) ≤ 1 / 8 := by
    have h1 := h.margin
    have h2 := (rbj_poleMargin h.valid).le_one
    unfold coeffErr at h1
    linarith
  have e1 : 0 ≤ (5 * k + 86) * f.u := by positivity
  have e2 : 0 ≤ (5 * k + 86) * (f.u * (1 / (2 * q.toReal))) := by positivity
  have u1 : (5 * k + 86) * f.u ≤ 1 / 8 := by nlinarith
  have u2 : 86 * f.u ≤ 1 / 8 := by nlinarith
  have t := hf.tiny
  have hhu : f.u / 2 ≤ 1 / (2 * q.toReal) := by
    rw [div_le_div_iff₀ (by norm_num) (by positivity)]
    have := mul_le_mul_of_nonneg_left h.hq.2 hu.le
    rw [f.u_mul] at this
    linarith
  refine ⟨u1, by nlinarith, e, ?_, ?_, hf.emax⟩
  · nlinarith [sq_nonneg f.u]
  · have := mul_le_mul_of_nonneg_left hhu hu.le
    nlinarith [sq_nonneg f.u]

theorem Resolved.parts (hL : AccurateTrig L k) (hf : f.Roomy) (hk : 0 ≤ k) (h : Resolved k sr fc q) : Parts k sr fc q := by
  have hu0 := f.u_pos
  have ht0 := f.tiny_pos
  have hq : 0 < q.toReal := h.valid.2.2
  obtain ⟨u1, uh, ue, t1, t2, em⟩ := h.scale hf hk
  have u64 : f.u ≤ 1 / 64 := by nlinarith
  have s0 := h.valid.sin_pos
  have s1 := Real.sin_le_one (angle sr.toReal fc.toReal)
  have c1 := Real.abs_cos_le_one (angle sr.toReal fc.toReal)
  have hα := h.valid.alphaQ_pos
  have hang : 0 ≤ angle sr.toReal fc.toReal ∧ angle sr.toReal fc.toReal ≤ Real.pi := by
    have h1 := h.valid.1
    have h2 := h.valid.2.1
    have h3 := Real.pi_pos
    unfold angle
    refine ⟨by have := h.hsr.2.1; positivity, ?_⟩
    rw [div_le_iff₀ (by linarith)]
    nlinarith
  have em8 : 8 ≤ (2 : ℝ) ^ f.emax := by nlinarith
  have aw := angle_approx hf u64 h.hsr.1 h.hfc h.hsr.2.1 h.hsr.2.2 h.valid.1 (by linarith [h.valid.2.1])
  obtain ⟨ac, as⟩ := trig_approx hL u64 aw hang.1 hang.2
  obtain ⟨H, hH⟩ : ∃ H, H = 1 / (2 * q.toReal) := ⟨_, rfl⟩
  have hH0 : 0 < H := by rw [hH]; positivity
  rw [← hH] at uh ue t2
  have eα : alphaQ sr.toReal fc.toReal q.toReal = Real.sin (angle sr.toReal fc.toReal) * H := by rw [hH]; unfold alphaQ; ring
  have αH : alphaQ sr.toReal fc.toReal q.toReal ≤ H := by rw [eα]; nlinarith
  have hE : H ≤ 2 ^ f.emax / 16 := by
    have : f.u * H ≤ f.u * (2 ^ f.emax / 16) := by nlinarith
    exact le_of_mul_le_mul_left this hu0
  have q2 : 2 * q.toReal ≤ 2 ^ f.emax := by
    have h1 := mul_le_mul_of_nonneg_left h.hq.2 hu0.le
    rw [f.u_mul] at h1
    have : f.u * (2 * q.toReal) ≤ f.u * 2 ^ f.emax := by linarith
    exact le_of_mul_le_mul_left this hu0
  obtain ⟨tq1, tq2⟩ := two_mul_val h.hq.1 (by rw [abs_of_pos (by positivity)]; exact q2)
  have aα : Approx (flAlpha sr fc q) (alphaQ sr.toReal fc.toReal q.toReal) ((k + 16) * f.u * H) := by
    have a2q : Approx (two *. q) (2 * q.toReal) 0 := ⟨tq1, by simp [tq2]⟩
    have eq1 : alphaQ sr.toReal fc.toReal q.toReal = Real.sin (angle sr.toReal fc.toReal) / (2 * q.toReal) := rfl
    have e1 : H * (2 * q.toReal) = 1 := by rw [hH]; field_simp
    rw [eq1]
    refine Approx.div as a2q (x := (k + 14) * f.u * H) (B := 1.3 * H) (by positivity) ?_ ?_ (by linarith) ?_
    · simp only [mul_zero, add_zero, sub_zero]
      rw [mul_assoc, e1, mul_one]
    · rw [← eq1, abs_of_pos hα]
      nlinarith
    · nlinarith
  have hα16 : (k + 16) * f.u * H ≤ 1 / 32 := by nlinarith [mul_pos hu0 hH0]
  have k0 : 0 ≤ k * f.u := by positivity
  have kH : 0 ≤ k * f.u * H := by positivity
  refine ⟨ac, hH ▸ aα, ?_, ?_, ?_⟩
  · rw [← hH]
    refine Approx.add .one aα (B := 1.1 * (1 + H)) ?_ (by nlinarith) ?_
    · rw [abs_of_pos (by linarith)]; linarith
    · nlinarith [mul_pos hu0 hH0]
  · rw [← hH]
    refine Approx.sub .one aα (B := 1.1 * (1 + H)) ?_ (by nlinarith) ?_
    · have : |1 - alphaQ sr.toReal fc.toReal q.toReal| ≤ 1 + H := by rw [abs_le]; constructor <;> linarith
      linarith
    · nlinarith [mul_pos hu0 hH0]
  · refine Approx.mul (Approx.two.neg) ac (x := 2 * ((k + 14) * f.u)) (B := 2.3) ?_ ?_ (by linarith) ?_
    · norm_num; linarith
    · rw [abs_mul]; norm_num; nlinarith
    · linarith

end Rasp
