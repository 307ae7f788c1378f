import Verif.Spec.Analog
import Verif.Props.Filters
import Verif.Props.Rbj

/-!
# C69, C70: frequency responses
-/

namespace Rasp
open FloatOps Filter

/-! ## C69 -/

/-- **C69.** From every state, a stable filter turns sinusoids into sinusoids of the same frequency, with the gain and
phase of `B(z)/A(z)` on the unit circle. -/
theorem C69_frequency_response (w : ℝ) :
    (∀ s : OnePole ℝ, |s.a1| < 1 → SinusoidGain s w (freqResponse s.b0 0 0 s.a1 0 w)) ∧
    (∀ s : OneZero ℝ, SinusoidGain s w (freqResponse s.b0 s.b1 0 0 0 w)) ∧
    (∀ s : TwoPole ℝ, |s.a2| < 1 → |s.a1| < 1 + s.a2 → SinusoidGain s w (freqResponse s.b0 0 0 s.a1 s.a2 w)) ∧
    (∀ s : TwoZero ℝ, SinusoidGain s w (freqResponse s.b0 s.b1 s.b2 0 0 w)) ∧
    (∀ s : Biquad1 ℝ, |s.a2| < 1 → |s.a1| < 1 + s.a2 →
      SinusoidGain s w (freqResponse s.b0 s.b1 s.b2 s.a1 s.a2 w)) ∧
    (∀ s : Biquad2 ℝ, |s.a2| < 1 → |s.a1| < 1 + s.a2 →
      SinusoidGain s w (freqResponse s.b0 s.b1 s.b2 s.a1 s.a2 w)) :=
  ⟨fun s h A φ => s.implementsFrom.frequency (stablePair_one h) w A φ,
   fun s A φ => s.implementsFrom.frequency stablePair_zero w A φ,
   fun s h1 h2 A φ => s.implementsFrom.frequency ⟨h1, h2⟩ w A φ,
   fun s A φ => s.implementsFrom.frequency stablePair_zero w A φ,
   fun s h1 h2 A φ => s.implementsFrom.frequency ⟨h1, h2⟩ w A φ,
   fun s h1 h2 A φ => s.implementsFrom.frequency ⟨h1, h2⟩ w A φ⟩

/-! ## C70 -/

theorem tan_half_pos {sr f q : ℝ} (h : ValidParams sr f q) : 0 < Real.tan (angle sr f / 2) := by
  obtain ⟨h1, h2, _⟩ := h
  have hsr : 0 < sr := by linarith
  have hp := Real.pi_pos
  apply Real.tan_pos_of_pos_of_lt_pi_div_two
  · unfold angle; positivity
  · unfold angle
    rw [div_lt_div_iff_of_pos_right two_pos, div_lt_iff₀ hsr]
    nlinarith

theorem half_angle {w : ℝ} (h : Real.cos (w / 2) ≠ 0) :
    Real.cos w = (1 - Real.tan (w / 2) ^ 2) / (1 + Real.tan (w / 2) ^ 2) ∧
    Real.sin w = 2 * Real.tan (w / 2) / (1 + Real.tan (w / 2) ^ 2) := by
  have e : 2 * (w / 2) = w := by ring
  have ec := Real.cos_two_mul (w / 2)
  have es := Real.sin_two_mul (w / 2)
  rw [e] at ec es
  have hsc := Real.sin_sq_add_cos_sq (w / 2)
  have h1 : (1 : ℝ) + Real.tan (w / 2) ^ 2 ≠ 0 := by positivity
  have ht : Real.tan (w / 2) * Real.cos (w / 2) = Real.sin (w / 2) := Real.tan_mul_cos h
  have h2 : (1 + Real.tan (w / 2) ^ 2) * Real.cos (w / 2) ^ 2 = 1 := by
    rw [← ht] at hsc; linear_combination hsc
  constructor
  · rw [eq_div_iff h1, ec]
    linear_combination 2 * h2
  · rw [eq_div_iff h1, es, ← ht]
    linear_combination 2 * Real.tan (w / 2) * h2

/-- `e^(-iw)` in terms of the tangent of the half angle. -/
theorem exp_half_angle {w : ℝ} (h : Real.cos (w / 2) ≠ 0) :
    (1 + Complex.I * (Real.tan (w / 2) : ℂ) ≠ 0) ∧
    Complex.exp (-(w * Complex.I)) = (1 - Complex.I * (Real.tan (w / 2) : ℂ)) / (1 + Complex.I * (Real.tan (w / 2) : ℂ)) := by
  have hne : 1 + Complex.I * (Real.tan (w / 2) : ℂ) ≠ 0 := by
    intro h0
    have := congrArg Complex.re h0
    simp [-Complex.ofReal_tan] at this
  refine ⟨hne, ?_⟩
  rw [eq_div_iff hne]
  obtain ⟨hc, hs⟩ := half_angle h
  have h1 : (1 : ℝ) + Real.tan (w / 2) ^ 2 ≠ 0 := by positivity
  have e1 : Complex.exp (-(w * Complex.I)) = ⟨Real.cos w, -Real.sin w⟩ := by
    rw [← neg_mul, ← Complex.ofReal_neg, Complex.exp_mul_I]
    apply Complex.ext
    · simp [← Complex.ofReal_cos, ← Complex.ofReal_sin, -Complex.ofReal_neg]
    · simp [← Complex.ofReal_cos, ← Complex.ofReal_sin, -Complex.ofReal_neg]
  rw [e1, hc, hs]
  generalize Real.tan (w / 2) = t at *
  apply Complex.ext
  · simp
    field_simp
    ring
  · simp
    field_simp
    ring

/-- The frequency response written with unnormalised coefficients and the half-angle tangent. -/
theorem freqResponse_bilinear {b0 b1 b2 a0 a1 a2 w : ℝ} (h0 : a0 ≠ 0) (h : Real.cos (w / 2) ≠ 0) {u : ℂ}
    (hu : u = Complex.I * (Real.tan (w / 2) : ℂ)) :
    freqResponse (b0 / a0) (b1 / a0) (b2 / a0) (a1 / a0) (a2 / a0) w =
      (b0 * (1 + u) ^ 2 + b1 * ((1 - u) * (1 + u)) + b2 * (1 - u) ^ 2) /
      (a0 * (1 + u) ^ 2 + a1 * ((1 - u) * (1 + u)) + a2 * (1 - u) ^ 2) := by
  obtain ⟨hne, he⟩ := exp_half_angle h
  rw [freqResponse, he, ← hu]
  rw [← hu] at hne
  have h0' : (a0 : ℂ) ≠ 0 := by exact_mod_cast h0
  have hk : (a0 : ℂ) * (1 + u) ^ 2 ≠ 0 := mul_ne_zero h0' (pow_ne_zero 2 hne)
  rw [← mul_div_mul_left _ _ hk]
  push_cast
  congr 1 <;> field_simp

/-! The prototypes, in terms of `k = tan (w0/2)` and `u = i tan (w/2)`. -/
section
variable {k q A r R : ℝ} (u : ℂ)

/-- `cos w0` as a function of `k`. -/
noncomputable def cosOf (k : ℝ) : ℝ := (1 - k ^ 2) / (1 + k ^ 2)

/-- The response to `u` of a biquad with these coefficients. -/
noncomputable def bilinear (b0 b1 b2 a0 a1 a2 : ℝ) (u : ℂ) : ℂ :=
  (b0 * (1 + u) ^ 2 + b1 * ((1 - u) * (1 + u)) + b2 * (1 - u) ^ 2) /
      (a0 * (1 + u) ^ 2 + a1 * ((1 - u) * (1 + u)) + a2 * (1 - u) ^ 2)

theorem one_add_sq_ne_zero (k : ℝ) : (1 : ℂ) + (k : ℂ) ^ 2 ≠ 0 := by
  have : (1 : ℝ) + k ^ 2 ≠ 0 := by positivity
  exact_mod_cast this

/-- Numerators and denominators with a common factor. -/
theorem div_eq_of_scale {n d N D : ℂ} (k : ℂ) (hk : k ≠ 0) (hn : k * n = N) (hd : k * d = D) : n / d = N / D := by
  rw [← hn, ← hd, mul_div_mul_left _ _ hk]

theorem bilinear_lowPass (hk : 0 < k) (hq : 0 < q) : bilinear ((1 - cosOf k) / 2) (1 - cosOf k) ((1 - cosOf k) / 2) (1 + (k / ((1 + k ^ 2) * q))) (-2 * cosOf k) (1 - (k / ((1 + k ^ 2) * q))) u =
    analogLowPass q (u / k) := by
  have h1 : (1 : ℂ) + (k : ℂ) ^ 2 ≠ 0 := one_add_sq_ne_zero k
  have h2 : (k : ℂ) ≠ 0 := by exact_mod_cast hk.ne'
  have h3 : (q : ℂ) ≠ 0 := by exact_mod_cast hq.ne'
  refine div_eq_of_scale ((1 + (k : ℂ) ^ 2) / (4 * (k : ℂ) ^ 2)) (div_ne_zero h1 (by simpa using h2)) ?_ ?_ <;>
  · simp only [cosOf]
    push_cast
    field_simp
    ring

theorem bilinear_highPass (hk : 0 < k) (hq : 0 < q) : bilinear ((1 + cosOf k) / 2) (-1 - cosOf k) ((1 + cosOf k) / 2) (1 + (k / ((1 + k ^ 2) * q))) (-2 * cosOf k) (1 - (k / ((1 + k ^ 2) * q))) u =
    analogHighPass q (u / k) := by
  have h1 : (1 : ℂ) + (k : ℂ) ^ 2 ≠ 0 := one_add_sq_ne_zero k
  have h2 : (k : ℂ) ≠ 0 := by exact_mod_cast hk.ne'
  have h3 : (q : ℂ) ≠ 0 := by exact_mod_cast hq.ne'
  refine div_eq_of_scale ((1 + (k : ℂ) ^ 2) / (4 * (k : ℂ) ^ 2)) (div_ne_zero h1 (by simpa using h2)) ?_ ?_ <;>
  · simp only [cosOf]
    push_cast
    field_simp
    ring

theorem bilinear_bandPass1 (hk : 0 < k) (hq : 0 < q) : bilinear (q * (k / ((1 + k ^ 2) * q))) (0) (-q * (k / ((1 + k ^ 2) * q))) (1 + (k / ((1 + k ^ 2) * q))) (-2 * cosOf k) (1 - (k / ((1 + k ^ 2) * q))) u =
    analogBandPass1 q (u / k) := by
  have h1 : (1 : ℂ) + (k : ℂ) ^ 2 ≠ 0 := one_add_sq_ne_zero k
  have h2 : (k : ℂ) ≠ 0 := by exact_mod_cast hk.ne'
  have h3 : (q : ℂ) ≠ 0 := by exact_mod_cast hq.ne'
  refine div_eq_of_scale ((1 + (k : ℂ) ^ 2) / (4 * (k : ℂ) ^ 2)) (div_ne_zero h1 (by simpa using h2)) ?_ ?_ <;>
  · try simp only [cosOf]
    push_cast
    field_simp
    ring

theorem bilinear_bandPass2 (hk : 0 < k) (hq : 0 < q) : bilinear ((k / ((1 + k ^ 2) * q))) (0) (-(k / ((1 + k ^ 2) * q))) (1 + (k / ((1 + k ^ 2) * q))) (-2 * cosOf k) (1 - (k / ((1 + k ^ 2) * q))) u =
    analogBandPass2 q (u / k) := by
  have h1 : (1 : ℂ) + (k : ℂ) ^ 2 ≠ 0 := one_add_sq_ne_zero k
  have h2 : (k : ℂ) ≠ 0 := by exact_mod_cast hk.ne'
  have h3 : (q : ℂ) ≠ 0 := by exact_mod_cast hq.ne'
  refine div_eq_of_scale ((1 + (k : ℂ) ^ 2) / (4 * (k : ℂ) ^ 2)) (div_ne_zero h1 (by simpa using h2)) ?_ ?_ <;>
  · try simp only [cosOf]
    push_cast
    field_simp
    ring

theorem bilinear_bandStop (hk : 0 < k) (hq : 0 < q) : bilinear (1) (-2 * cosOf k) (1) (1 + (k / ((1 + k ^ 2) * q))) (-2 * cosOf k) (1 - (k / ((1 + k ^ 2) * q))) u =
    analogBandStop q (u / k) := by
  have h1 : (1 : ℂ) + (k : ℂ) ^ 2 ≠ 0 := one_add_sq_ne_zero k
  have h2 : (k : ℂ) ≠ 0 := by exact_mod_cast hk.ne'
  have h3 : (q : ℂ) ≠ 0 := by exact_mod_cast hq.ne'
  refine div_eq_of_scale ((1 + (k : ℂ) ^ 2) / (4 * (k : ℂ) ^ 2)) (div_ne_zero h1 (by simpa using h2)) ?_ ?_ <;>
  · simp only [cosOf]
    push_cast
    field_simp
    ring

theorem bilinear_allPass (hk : 0 < k) (hq : 0 < q) : bilinear (1 - (k / ((1 + k ^ 2) * q))) (-2 * cosOf k) (1 + (k / ((1 + k ^ 2) * q))) (1 + (k / ((1 + k ^ 2) * q))) (-2 * cosOf k) (1 - (k / ((1 + k ^ 2) * q))) u =
    analogAllPass q (u / k) := by
  have h1 : (1 : ℂ) + (k : ℂ) ^ 2 ≠ 0 := one_add_sq_ne_zero k
  have h2 : (k : ℂ) ≠ 0 := by exact_mod_cast hk.ne'
  have h3 : (q : ℂ) ≠ 0 := by exact_mod_cast hq.ne'
  refine div_eq_of_scale ((1 + (k : ℂ) ^ 2) / (4 * (k : ℂ) ^ 2)) (div_ne_zero h1 (by simpa using h2)) ?_ ?_ <;>
  · simp only [cosOf]
    push_cast
    field_simp
    ring

theorem bilinear_peak (hk : 0 < k) (hq : 0 < q) (hA : 0 < A) : bilinear (1 + (k / ((1 + k ^ 2) * q)) * A) (-2 * cosOf k) (1 - (k / ((1 + k ^ 2) * q)) * A) (1 + (k / ((1 + k ^ 2) * q)) / A) (-2 * cosOf k) (1 - (k / ((1 + k ^ 2) * q)) / A) u =
    analogPeak q A (u / k) := by
  have h1 : (1 : ℂ) + (k : ℂ) ^ 2 ≠ 0 := one_add_sq_ne_zero k
  have h2 : (k : ℂ) ≠ 0 := by exact_mod_cast hk.ne'
  have h3 : (q : ℂ) ≠ 0 := by exact_mod_cast hq.ne'
  have h4 : (A : ℂ) ≠ 0 := by exact_mod_cast hA.ne'
  refine div_eq_of_scale ((1 + (k : ℂ) ^ 2) / (4 * (k : ℂ) ^ 2)) (div_ne_zero h1 (by simpa using h2)) ?_ ?_ <;>
  · simp only [cosOf]
    push_cast
    field_simp
    ring

theorem bilinear_lowShelf (hk : 0 < k) : bilinear (A * (A + 1 - (A - 1) * cosOf k + 2 * Real.sqrt A * (2 * k / (1 + k ^ 2) / 2 * R))) (2 * A * (A - 1 - (A + 1) * cosOf k)) (A * (A + 1 - (A - 1) * cosOf k - 2 * Real.sqrt A * (2 * k / (1 + k ^ 2) / 2 * R))) (A + 1 + (A - 1) * cosOf k + 2 * Real.sqrt A * (2 * k / (1 + k ^ 2) / 2 * R)) (-2 * (A - 1 + (A + 1) * cosOf k)) (A + 1 + (A - 1) * cosOf k - 2 * Real.sqrt A * (2 * k / (1 + k ^ 2) / 2 * R)) u =
    analogLowShelf A R (u / k) := by
  have h1 : (1 : ℂ) + (k : ℂ) ^ 2 ≠ 0 := one_add_sq_ne_zero k
  have h2 : (k : ℂ) ≠ 0 := by exact_mod_cast hk.ne'
  rw [analogLowShelf, ← mul_div_assoc]
  refine div_eq_of_scale ((1 + (k : ℂ) ^ 2) / (8 * (k : ℂ) ^ 2)) (div_ne_zero h1 (by simpa using h2)) ?_ ?_ <;>
  · simp only [cosOf]
    push_cast
    field_simp
    ring

theorem bilinear_highShelf (hk : 0 < k) : bilinear (A * (A + 1 + (A - 1) * cosOf k + 2 * Real.sqrt A * (2 * k / (1 + k ^ 2) / 2 * R))) (-2 * A * (A - 1 + (A + 1) * cosOf k)) (A * (A + 1 + (A - 1) * cosOf k - 2 * Real.sqrt A * (2 * k / (1 + k ^ 2) / 2 * R))) (A + 1 - (A - 1) * cosOf k + 2 * Real.sqrt A * (2 * k / (1 + k ^ 2) / 2 * R)) (2 * (A - 1 - (A + 1) * cosOf k)) (A + 1 - (A - 1) * cosOf k - 2 * Real.sqrt A * (2 * k / (1 + k ^ 2) / 2 * R)) u =
    analogHighShelf A R (u / k) := by
  have h1 : (1 : ℂ) + (k : ℂ) ^ 2 ≠ 0 := one_add_sq_ne_zero k
  have h2 : (k : ℂ) ≠ 0 := by exact_mod_cast hk.ne'
  rw [analogHighShelf, ← mul_div_assoc]
  refine div_eq_of_scale ((1 + (k : ℂ) ^ 2) / (8 * (k : ℂ) ^ 2)) (div_ne_zero h1 (by simpa using h2)) ?_ ?_ <;>
  · simp only [cosOf]
    push_cast
    field_simp
    ring

end

section
variable {sr f q S w : ℝ}

theorem ValidParams.cos_half (h : ValidParams sr f q) : Real.cos (angle sr f / 2) ≠ 0 := by
  intro h0
  have := tan_half_pos h
  rw [Real.tan_eq_sin_div_cos, h0, div_zero] at this
  exact lt_irrefl _ this

theorem ValidParams.cosOf_eq (h : ValidParams sr f q) : Real.cos (angle sr f) = cosOf (Real.tan (angle sr f / 2)) :=
  (half_angle h.cos_half).1

theorem ValidParams.alphaQ_eq (h : ValidParams sr f q) :
    alphaQ sr f q = Real.tan (angle sr f / 2) / ((1 + Real.tan (angle sr f / 2) ^ 2) * q) := by
  have := h.2.2
  rw [alphaQ, (half_angle h.cos_half).2]; field_simp

theorem analogPoint_eq (sr f w : ℝ) :
    analogPoint sr f w = Complex.I * (Real.tan (w / 2) : ℂ) / (Real.tan (angle sr f / 2) : ℝ) := by
  rw [analogPoint, Complex.ofReal_div, mul_div_assoc]

/-- From the response to the prototype. -/
theorem Implements.analog {σ : Type} [Processor σ ℝ] {s : σ} {b0 b1 b2 a0 a1 a2 : ℝ} {H : ℂ}
    (hi : Implements s (b0 / a0) (b1 / a0) (b2 / a0) (a1 / a0) (a2 / a0)) (h0 : a0 ≠ 0)
    (hs : StablePair (a1 / a0) (a2 / a0)) (hw : Real.cos (w / 2) ≠ 0)
    (hH : bilinear b0 b1 b2 a0 a1 a2 (Complex.I * (Real.tan (w / 2) : ℂ)) = H) : SinusoidGain s w H := by
  intro A φ
  have := hi.from.frequency hs w A φ
  rwa [freqResponse_bilinear h0 hw rfl, ← bilinear, hH] at this

/-- A processor has at most one response at each frequency, so the statements of C69 and C70 determine it. -/
theorem SinusoidGain.unique {σ : Type} [Processor σ ℝ] {s : σ} {H H' : ℂ} (h : SinusoidGain s w H)
    (h' : SinusoidGain s w H') : H = H' := by
  have key : ∀ φ : ℝ, Filter.Tendsto (fun n : ℕ => ((H - H') * Complex.exp ((w * n + φ : ℝ) * Complex.I)).re)
      Filter.atTop (nhds 0) := by
    intro φ
    obtain ⟨y, hy⟩ := (h 1 φ).1 ⟨true⟩ fun n => 1 * Real.cos (w * n + φ)
    have h1 := (h 1 φ).2 _ _ hy
    have h2 := (h' 1 φ).2 _ _ hy
    have h3 := h2.sub h1
    rw [sub_zero] at h3
    refine h3.congr fun n => ?_
    have e : ∀ G : ℂ, (G * Complex.exp ((w * n + φ : ℝ) * Complex.I)).re = ‖G‖ * 1 * Real.cos (w * n + φ + G.arg) := by
      intro G
      conv_lhs => rw [← Complex.norm_mul_exp_arg_mul_I G, mul_assoc, ← Complex.exp_add, ← add_mul, ← Complex.ofReal_add,
        Complex.re_ofReal_mul, Complex.exp_ofReal_mul_I_re]
      rw [mul_one, add_comm]
    rw [sub_mul, Complex.sub_re, e, e]
    ring
  have k0 := key 0
  have k1 := key (-(Real.pi / 2))
  have k2 : Filter.Tendsto (fun n : ℕ => ((H - H') * Complex.exp ((w * n : ℝ) * Complex.I)).im) Filter.atTop (nhds 0) := by
    refine k1.congr fun n => ?_
    have : Complex.exp ((w * n + -(Real.pi / 2) : ℝ) * Complex.I) = -Complex.I * Complex.exp ((w * n : ℝ) * Complex.I) := by
      rw [Complex.ofReal_add, add_mul, Complex.exp_add, mul_comm]
      congr 1
      have := Complex.exp_neg_pi_div_two_mul_I
      push_cast
      rw [← this]
      congr 1; ring
    rw [this]
    simp only [Complex.mul_re, Complex.mul_im, Complex.neg_re, Complex.neg_im, Complex.I_re, Complex.I_im]
    ring
  simp only [add_zero] at k0
  have k3 := (k0.pow 2).add (k2.pow 2)
  have k4 : ∀ n : ℕ, ((H - H') * Complex.exp ((w * n : ℝ) * Complex.I)).re ^ 2 +
      ((H - H') * Complex.exp ((w * n : ℝ) * Complex.I)).im ^ 2 = ‖H - H'‖ ^ 2 := by
    intro n
    rw [← mul_one ‖H - H'‖, ← Complex.norm_exp_ofReal_mul_I (w * n), ← norm_mul, Complex.sq_norm, Complex.normSq_apply]
    ring
  simp only [k4] at k3
  have k5 := tendsto_nhds_unique k3 tendsto_const_nhds
  have : ‖H - H'‖ = 0 := by
    rw [← sq_eq_zero_iff, ← k5]; norm_num
  exact sub_eq_zero.mp (norm_eq_zero.mp this)

/-- **C70.** For valid parameters, every rbj filter has at each frequency other than Nyquist the response of its analog
prototype, with the frequency axis warped by the bilinear transform. -/
theorem C70_analog_prototypes (h : ValidParams sr f q) (hw : Real.cos (w / 2) ≠ 0) :
    (∀ s : LowPass ℝ, SinusoidGain (s.setCoefficients sr f q) w (analogLowPass q (analogPoint sr f w))) ∧
    (∀ s : HighPass ℝ, SinusoidGain (s.setCoefficients sr f q) w (analogHighPass q (analogPoint sr f w))) ∧
    (∀ s : BandPass1 ℝ, SinusoidGain (s.setCoefficients sr f q) w (analogBandPass1 q (analogPoint sr f w))) ∧
    (∀ s : BandPass2 ℝ, SinusoidGain (s.setCoefficients sr f q) w (analogBandPass2 q (analogPoint sr f w))) ∧
    (∀ s : BandStop ℝ, SinusoidGain (s.setCoefficients sr f q) w (analogBandStop q (analogPoint sr f w))) ∧
    (∀ s : AllPass ℝ, SinusoidGain (s.setCoefficients sr f q) w (analogAllPass q (analogPoint sr f w))) ∧
    (∀ (s : Peak ℝ) (db : ℝ), SinusoidGain (s.setCoefficients sr f db q) w
      (analogPeak q (10 ^ (db / 40)) (analogPoint sr f w))) := by
  have hk := tan_half_pos h
  have hq := h.2.2
  rw [analogPoint_eq]
  refine ⟨fun s => ?_, fun s => ?_, fun s => ?_, fun s => ?_, fun s => ?_, fun s => ?_, fun s db => ?_⟩
  · refine (s.implements sr f q).analog h.den h.stableQ hw ?_
    rw [h.cosOf_eq, h.alphaQ_eq]; exact bilinear_lowPass _ hk hq
  · refine (s.implements sr f q).analog h.den h.stableQ hw ?_
    rw [h.cosOf_eq, h.alphaQ_eq]; exact bilinear_highPass _ hk hq
  · refine (s.implements sr f q).analog h.den h.stableQ hw ?_
    rw [h.cosOf_eq, h.alphaQ_eq]; exact bilinear_bandPass1 _ hk hq
  · refine (s.implements sr f q).analog h.den h.stableQ hw ?_
    rw [h.cosOf_eq, h.alphaQ_eq]; exact bilinear_bandPass2 _ hk hq
  · refine (s.implements sr f q).analog h.den h.stableQ hw ?_
    rw [h.cosOf_eq, h.alphaQ_eq]; exact bilinear_bandStop _ hk hq
  · refine (s.implements sr f q).analog h.den h.stableQ hw ?_
    rw [h.cosOf_eq, h.alphaQ_eq]; exact bilinear_allPass _ hk hq
  · refine (s.implements sr f db q).analog (h.peak_den db) (h.stablePeak db) hw ?_
    rw [h.cosOf_eq, h.alphaQ_eq]; exact bilinear_peak _ hk hq (gainA_pos db)

/-- **C70**, shelves. -/
theorem C70_analog_shelves (h : ValidShelf sr f S) (hw : Real.cos (w / 2) ≠ 0) (db : ℝ) :
    (∀ s : LowShelf ℝ, SinusoidGain (s.setCoefficients sr f db S) w
      (analogLowShelf (10 ^ (db / 40)) (shelfInvQ (10 ^ (db / 40)) S) (analogPoint sr f w))) ∧
    (∀ s : HighShelf ℝ, SinusoidGain (s.setCoefficients sr f db S) w
      (analogHighShelf (10 ^ (db / 40)) (shelfInvQ (10 ^ (db / 40)) S) (analogPoint sr f w))) := by
  have hk := tan_half_pos h.params
  have hα : alphaS sr f (gainA db) S = 2 * Real.tan (angle sr f / 2) / (1 + Real.tan (angle sr f / 2) ^ 2) / 2 *
      shelfInvQ (gainA db) S := by
    rw [alphaS, (half_angle h.params.cos_half).2, shelfInvQ]
  rw [analogPoint_eq]
  refine ⟨fun s => ?_, fun s => ?_⟩
  · refine (s.implements sr f db S).analog (h.low_den db) (h.stableLow db) hw ?_
    rw [h.params.cosOf_eq, hα]; exact bilinear_lowShelf _ hk
  · refine (s.implements sr f db S).analog (h.high_den db) (h.stableHigh db) hw ?_
    rw [h.params.cosOf_eq, hα]; exact bilinear_highShelf _ hk

/-- Not vacuous: 440 Hz through a filter at 1 kHz, 48 kHz sampling. -/
example : ValidParams 48000 1000 0.7 ∧ ValidShelf 48000 1000 0.5 ∧ Real.cos (angle 48000 440 / 2) ≠ 0 := by
  have h : ValidParams 48000 440 1 := by unfold ValidParams; norm_num
  refine ⟨?_, ?_, h.cos_half⟩
  · unfold ValidParams; norm_num
  · unfold ValidShelf; norm_num
end

end Rasp
