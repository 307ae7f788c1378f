import Verif.Lemmas.Diff

/-!
# Steady-state responses of stable filters
-/

namespace Rasp
open FloatOps Filter Topology

variable {σ : Type} [Processor σ ℝ] {s : σ} {c0 c1 b0 b1 b2 a1 a2 : ℝ}

/-- Constant input. -/
theorem ImplementsFrom.constant (h : ImplementsFrom s c0 c1 b0 b1 b2 a1 a2) (hs : StablePair a1 a2) {g : ℝ}
    (hg : g * (1 + a1 + a2) = b0 + b1 + b2) (c : ℝ) : ConvergesTo s (fun _ => c) (fun _ => g * c) :=
  h.convergesTo hs fun _ => by linear_combination c * hg

/-- Alternating input. -/
theorem ImplementsFrom.alternating (h : ImplementsFrom s c0 c1 b0 b1 b2 a1 a2) (hs : StablePair a1 a2) {g : ℝ}
    (hg : g * (1 - a1 + a2) = b0 - b1 + b2) (c : ℝ) :
    ConvergesTo s (fun n => (-1) ^ n * c) (fun n => g * ((-1) ^ n * c)) :=
  h.convergesTo hs fun n => by
    rw [pow_succ, pow_succ]
    linear_combination (-1) ^ n * c * hg

/-- Sinusoidal input, with the response `g + h i` at its frequency. -/
theorem ImplementsFrom.sinusoid (hi : ImplementsFrom s c0 c1 b0 b1 b2 a1 a2) (hs : StablePair a1 a2) {g h w : ℝ}
    (hre : g * (1 + a1 * Real.cos w + a2 * Real.cos (2 * w)) + h * (a1 * Real.sin w + a2 * Real.sin (2 * w)) =
      b0 + b1 * Real.cos w + b2 * Real.cos (2 * w))
    (him : h * (1 + a1 * Real.cos w + a2 * Real.cos (2 * w)) - g * (a1 * Real.sin w + a2 * Real.sin (2 * w)) =
      -(b1 * Real.sin w + b2 * Real.sin (2 * w))) (A φ : ℝ) :
    ConvergesTo s (fun n => A * Real.cos (w * n + φ)) (fun n => A * (g * Real.cos (w * n + φ) - h * Real.sin (w * n + φ))) :=
  hi.convergesTo hs fun n => by
    set θ := w * ((n + 2 : ℕ) : ℝ) + φ with hθ
    have e1 : w * ((n + 1 : ℕ) : ℝ) + φ = θ - w := by rw [hθ]; push_cast; ring
    have e2 : w * (n : ℝ) + φ = θ - 2 * w := by rw [hθ]; push_cast; ring
    rw [e1, e2, Real.cos_sub, Real.sin_sub, Real.cos_sub, Real.sin_sub]
    linear_combination A * Real.cos θ * hre - A * Real.sin θ * him

/-- The numerator or denominator polynomial on the unit circle. -/
noncomputable def poly (u0 u1 u2 w : ℝ) : ℂ :=
  ⟨u0 + u1 * Real.cos w + u2 * Real.cos (2 * w), -(u1 * Real.sin w + u2 * Real.sin (2 * w))⟩

theorem poly_eq (u0 u1 u2 w : ℝ) : poly u0 u1 u2 w =
    u0 + u1 * Complex.exp (-(w * Complex.I)) + u2 * Complex.exp (-(w * Complex.I)) ^ 2 := by
  have e1 : Complex.exp (-(w * Complex.I)) = ⟨Real.cos w, -Real.sin w⟩ := by
    rw [← neg_mul, ← Complex.ofReal_neg, Complex.exp_mul_I]
    apply Complex.ext
    · simp [← Complex.ofReal_cos, ← Complex.ofReal_sin, -Complex.ofReal_neg]
    · simp [← Complex.ofReal_cos, ← Complex.ofReal_sin, -Complex.ofReal_neg]
  rw [e1, poly]
  apply Complex.ext
  · simp [pow_two, Real.cos_two_mul]
    have := Real.sin_sq_add_cos_sq w
    left; linear_combination this
  · simp [pow_two, Real.sin_two_mul]
    ring

/-- A stable denominator has no zero on the unit circle. -/
theorem StablePair.poly_ne_zero (hs : StablePair a1 a2) (w : ℝ) : poly 1 a1 a2 w ≠ 0 := by
  obtain ⟨p, q, h1, h2, hp, hq⟩ := hs.roots
  rw [poly_eq]
  set z := Complex.exp (-(w * Complex.I)) with hz
  have hzn : ‖z‖ = 1 := by
    rw [hz, ← neg_mul, ← Complex.ofReal_neg]
    exact Complex.norm_exp_ofReal_mul_I _
  have e : ((1 : ℝ) : ℂ) + a1 * z + a2 * z ^ 2 = (1 - p * z) * (1 - q * z) := by
    rw [← h2, show (a1 : ℂ) = -(p + q) by rw [h1]; ring]; push_cast; ring
  have aux : ∀ r : ℂ, ‖r‖ < 1 → 1 - r * z ≠ 0 := by
    intro r hr h0
    have : r * z = 1 := by linear_combination -h0
    have h3 := congrArg norm this
    rw [norm_mul, hzn, mul_one, norm_one] at h3
    linarith
  rw [e]
  exact mul_ne_zero (aux p hp) (aux q hq)

theorem freqResponse_eq (b0 b1 b2 a1 a2 w : ℝ) : freqResponse b0 b1 b2 a1 a2 w = poly b0 b1 b2 w / poly 1 a1 a2 w := by
  rw [freqResponse, poly_eq, poly_eq, Complex.ofReal_one]

/-- Sinusoids come out as sinusoids of the same frequency, scaled and shifted by the frequency response. -/
theorem ImplementsFrom.frequency (hi : ImplementsFrom s c0 c1 b0 b1 b2 a1 a2) (hs : StablePair a1 a2) (w A φ : ℝ) :
    ConvergesTo s (fun n => A * Real.cos (w * n + φ))
      (fun n => ‖freqResponse b0 b1 b2 a1 a2 w‖ * A * Real.cos (w * n + φ + (freqResponse b0 b1 b2 a1 a2 w).arg)) := by
  set H := freqResponse b0 b1 b2 a1 a2 w with hH
  have hmul : H * poly 1 a1 a2 w = poly b0 b1 b2 w := by
    rw [hH, freqResponse_eq, div_mul_cancel₀ _ (hs.poly_ne_zero w)]
  have hre := congrArg Complex.re hmul
  have him := congrArg Complex.im hmul
  simp only [Complex.mul_re, Complex.mul_im, poly] at hre him
  have := hi.sinusoid hs (g := H.re) (h := H.im) (w := w) (by linarith) (by linarith) A φ
  convert this using 2 with n
  rw [Real.cos_add]
  have h1 := Complex.norm_mul_cos_arg H
  have h2 := Complex.norm_mul_sin_arg H
  rw [← h1, ← h2]; ring

end Rasp
