import Verif.Spec.GroupDelay
import Verif.Spec.Analog
import Verif.Lemmas.Response
import Verif.Props.Phase
import Verif.Props.Leaky
import Verif.Props.Delay
import Verif.Props.LinearReal
import Mathlib.MeasureTheory.Integral.IntervalIntegral.FundThmCalculus
import Mathlib.Analysis.SpecialFunctions.Complex.LogDeriv
import Mathlib.Analysis.SpecialFunctions.ExpDeriv

/-!
# C120: group delays
-/

namespace Rasp
open Real (cos sin)
open Filter Topology

variable {σ : Type} [Processor σ ℝ] {s : σ}

/-! ## Gain, phase and group delay are determined by the processor -/

/-- A sinusoid that dies away is none. -/
theorem sinusoid_zero {g h w : ℝ} (H : ∀ φ, Tendsto (fun n : ℕ => g * cos (w * n + φ) - h * sin (w * n + φ)) atTop (𝓝 0)) : g = 0 ∧ h = 0 := by
  have h1 := ((H 0).pow 2).add ((H (Real.pi / 2)).pow 2)
  have e : (fun n : ℕ => (g * cos (w * n + 0) - h * sin (w * n + 0)) ^ 2 + (g * cos (w * n + Real.pi / 2) - h * sin (w * n + Real.pi / 2)) ^ 2) =
      fun _ => g ^ 2 + h ^ 2 := by
    funext n
    rw [add_zero, Real.cos_add_pi_div_two, Real.sin_add_pi_div_two]
    linear_combination (g ^ 2 + h ^ 2) * Real.sin_sq_add_cos_sq (w * n)
  rw [e] at h1
  have h2 := tendsto_nhds_unique h1 tendsto_const_nhds
  constructor <;> nlinarith [sq_nonneg g, sq_nonneg h]

/-- **C120**, gain and phase are unique. -/
theorem C120_shift_unique {w G G' θ θ' : ℝ} (h : ShiftsBy s w G θ) (h' : ShiftsBy s w G' θ') (hG : 0 < G) (hG' : 0 < G') :
    G = G' ∧ cos θ = cos θ' ∧ sin θ = sin θ' := by
  have key : ∀ φ, Tendsto (fun n : ℕ => (G * cos θ - G' * cos θ') * cos (w * n + φ) - (G * sin θ - G' * sin θ') * sin (w * n + φ)) atTop (𝓝 0) := by
    intro φ
    obtain ⟨ht, hc⟩ := h 1 φ
    obtain ⟨-, hc'⟩ := h' 1 φ
    obtain ⟨y, hy⟩ := ht ⟨true⟩ (fun n => 1 * cos (w * n + φ))
    have := (hc' _ y hy).sub (hc _ y hy)
    rw [sub_self] at this
    refine this.congr fun n => ?_
    dsimp only
    rw [Real.cos_add (w * n + φ) θ, Real.cos_add (w * n + φ) θ']
    ring
  obtain ⟨e1, e2⟩ := sinusoid_zero key
  have hsq : G ^ 2 = G' ^ 2 := by
    linear_combination (-G ^ 2) * Real.sin_sq_add_cos_sq θ + G' ^ 2 * Real.sin_sq_add_cos_sq θ' + (G * cos θ + G' * cos θ') * e1 +
      (G * sin θ + G' * sin θ') * e2
  have hGG : G = G' := by nlinarith
  subst hGG
  exact ⟨rfl, mul_left_cancel₀ hG.ne' (by linarith), mul_left_cancel₀ hG.ne' (by linarith)⟩

/-- **C120**, a processor has at most one group delay at each frequency. -/
theorem C120_unique {w τ τ' : ℝ} (h : GroupDelay s w τ) (h' : GroupDelay s w τ') : τ = τ' := by
  obtain ⟨G, θ, hs, hd⟩ := h
  obtain ⟨G', θ', hs', hd'⟩ := h'
  have hsin : ∀ᶠ v in 𝓝 w, sin (θ v - θ' v) = 0 ∧ cos (θ v - θ' v) = 1 := by
    filter_upwards [hs, hs'] with v h1 h2
    obtain ⟨-, e1, e2⟩ := C120_shift_unique h1.2 h2.2 h1.1 h2.1
    rw [Real.sin_sub, Real.cos_sub, e1, e2]
    exact ⟨by ring, by linear_combination Real.sin_sq_add_cos_sq (θ' v)⟩
  have d1 := (hd.sub hd').sin
  have d2 : HasDerivAt (fun v => sin ((θ - θ') v)) 0 w :=
    (hasDerivAt_const w (0 : ℝ)).congr_of_eventuallyEq (hsin.mono fun v hv => hv.1)
  have h3 := d1.unique d2
  have h4 : cos ((θ - θ') w) = 1 := hsin.self_of_nhds.2
  rw [h4] at h3
  linarith

/-! ## From the frequency response -/

/-- The group delay is the fall of the angle of the frequency response. -/
theorem groupDelay_of_response {H : ℝ → ℂ} {H' : ℂ} {w : ℝ} (hs : ∀ v, SinusoidGain s v (H v)) (hd : HasDerivAt H H' w) (h0 : H w ≠ 0) :
    GroupDelay s w (-(H' / H w).im) := by
  refine ⟨fun v => ‖H v‖, fun v => (H w).arg + (Complex.log (H v / H w)).im, ?_, ?_⟩
  · filter_upwards [hd.continuousAt.eventually_ne h0] with v hv
    refine ⟨norm_pos_iff.2 hv, fun A φ => ?_⟩
    set r := H v / H w with hr
    have hv' : H v = H w * r := (mul_div_cancel₀ _ h0).symm
    have a1 := Complex.norm_mul_cos_arg (H v)
    have a2 := Complex.norm_mul_sin_arg (H v)
    have b1 := Complex.norm_mul_cos_arg (H w)
    have b2 := Complex.norm_mul_sin_arg (H w)
    have c1 := Complex.norm_mul_cos_arg r
    have c2 := Complex.norm_mul_sin_arg r
    have hn : ‖H v‖ = ‖H w‖ * ‖r‖ := by rw [hv', norm_mul]
    have k1 : ‖H v‖ * cos ((H w).arg + r.arg) = (H v).re := by
      rw [hn, Real.cos_add, hv', Complex.mul_re, ← b1, ← b2, ← c1, ← c2]; ring
    have k2 : ‖H v‖ * sin ((H w).arg + r.arg) = (H v).im := by
      rw [hn, Real.sin_add, hv', Complex.mul_im, ← b1, ← b2, ← c1, ← c2]; ring
    rw [← a1] at k1
    rw [← a2] at k2
    have hp : ‖H v‖ ≠ 0 := norm_ne_zero_iff.2 hv
    have k1' := mul_left_cancel₀ hp k1
    have k2' := mul_left_cancel₀ hp k2
    have := hs v A φ
    simp only [Complex.log_im]
    convert this using 3 with n
    rw [Real.cos_add _ ((H w).arg + r.arg), Real.cos_add _ (H v).arg, k1', k2']
  · have hq : HasDerivAt (fun v => H v / H w) (H' / H w) w := hd.div_const _
    have hl := hq.clog_real (by rw [div_self h0]; exact Complex.one_mem_slitPlane)
    rw [div_self h0, div_one] at hl
    have := (Complex.imCLM.hasFDerivAt.comp_hasDerivAt w hl).const_add (H w).arg
    rw [neg_neg]
    exact this

/-- The polynomial of the taps and its derivative. -/
theorem poly_hasDerivAt (u0 u1 u2 w : ℝ) : HasDerivAt (poly u0 u1 u2)
    (-Complex.I * (u1 * Complex.exp (-(w * Complex.I)) + 2 * u2 * Complex.exp (-(w * Complex.I)) ^ 2)) w := by
  have h1 : HasDerivAt (fun v : ℝ => Complex.exp (-(v * Complex.I))) (Complex.exp (-(w * Complex.I)) * -(1 * Complex.I)) w :=
    ((Complex.ofRealCLM.hasDerivAt.mul_const Complex.I).neg).cexp
  have h2 := ((h1.const_mul (u1 : ℂ)).const_add (u0 : ℂ)).add ((h1.pow 2).const_mul (u2 : ℂ))
  have e : poly u0 u1 u2 = fun v : ℝ => (u0 + u1 * Complex.exp (-(v * Complex.I)) + u2 * Complex.exp (-(v * Complex.I)) ^ 2 : ℂ) :=
    funext fun v => poly_eq u0 u1 u2 v
  rw [e]
  refine h2.congr_deriv ?_
  push_cast
  ring

theorem tapCentre_eq (u0 u1 u2 w : ℝ) : tapCentre u0 u1 u2 w =
    -((-Complex.I * (u1 * Complex.exp (-(w * Complex.I)) + 2 * u2 * Complex.exp (-(w * Complex.I)) ^ 2)) / poly u0 u1 u2 w).im := by
  rw [tapCentre, poly_eq, mul_div_assoc]
  simp

variable {c0 c1 b0 b1 b2 a1 a2 : ℝ}

/-- The group delay of a stable second-order filter: where its feedforward taps are centred less where its feedback taps are. -/
theorem ImplementsFrom.groupDelay (hi : ImplementsFrom s c0 c1 b0 b1 b2 a1 a2) (hs : StablePair a1 a2) {w : ℝ}
    (h0 : poly b0 b1 b2 w ≠ 0) : GroupDelay s w (tapCentre b0 b1 b2 w - tapCentre 1 a1 a2 w) := by
  have hA := hs.poly_ne_zero w
  have hd := (poly_hasDerivAt b0 b1 b2 w).div (poly_hasDerivAt 1 a1 a2 w) hA
  have := groupDelay_of_response (s := s) (H := fun v => poly b0 b1 b2 v / poly 1 a1 a2 v) (w := w)
    (fun v A φ => by simpa only [freqResponse_eq] using hi.frequency hs v A φ) hd (div_ne_zero h0 hA)
  convert this using 1
  rw [tapCentre_eq, tapCentre_eq, ← neg_sub', ← Complex.sub_im]
  congr 2
  field_simp

/-! ## In real numbers -/

/-- The square of the size of the sum of the taps. -/
theorem poly_normSq (u0 u1 u2 w : ℝ) : Complex.normSq (poly u0 u1 u2 w) = ((u0 + u2) * cos w + u1) ^ 2 + ((u0 - u2) * sin w) ^ 2 := by
  rw [poly, Complex.normSq_mk, Real.cos_two_mul, Real.sin_two_mul]
  have := Real.sin_sq_add_cos_sq w
  have e : sin w ^ 2 = 1 - cos w ^ 2 := by linarith
  ring_nf
  rw [e]
  ring

theorem poly_ne_iff {u0 u1 u2 w : ℝ} : poly u0 u1 u2 w ≠ 0 ↔ ((u0 + u2) * cos w + u1) ^ 2 + ((u0 - u2) * sin w) ^ 2 ≠ 0 := by
  rw [← poly_normSq, Ne, Ne, Complex.normSq_eq_zero]

theorem tapCentre_real {u0 u1 u2 w : ℝ} (h : poly u0 u1 u2 w ≠ 0) : tapCentre u0 u1 u2 w =
    1 - (u0 - u2) * (u0 + u2 + u1 * cos w) / (((u0 + u2) * cos w + u1) ^ 2 + ((u0 - u2) * sin w) ^ 2) := by
  have e0 : (u1 * Complex.exp (-(w * Complex.I)) + 2 * u2 * Complex.exp (-(w * Complex.I)) ^ 2 : ℂ) = poly 0 u1 (2 * u2) w := by
    rw [poly_eq]; push_cast; ring
  rw [tapCentre, e0, ← poly_eq, Complex.div_re, poly_normSq]
  rw [poly_ne_iff] at h
  have e : sin w ^ 2 = 1 - cos w ^ 2 := by linarith [Real.sin_sq_add_cos_sq w]
  rw [← add_div, eq_sub_iff_add_eq, ← add_div, div_eq_one_iff_eq h]
  simp only [poly, Real.cos_two_mul, Real.sin_two_mul]
  ring_nf
  rw [e]
  ring

theorem poly_scale (k u0 u1 u2 w : ℝ) : poly (k * u0) (k * u1) (k * u2) w = k * poly u0 u1 u2 w := by
  rw [poly_eq, poly_eq]; push_cast; ring

theorem tapCentre_scale {k : ℝ} (hk : k ≠ 0) (u0 u1 u2 w : ℝ) : tapCentre (k * u0) (k * u1) (k * u2) w = tapCentre u0 u1 u2 w := by
  have hk' : (k : ℂ) ≠ 0 := by exact_mod_cast hk
  unfold tapCentre
  congr 1
  rw [show (((k * u1 : ℝ) : ℂ) * Complex.exp (-(w * Complex.I)) + 2 * ((k * u2 : ℝ) : ℂ) * Complex.exp (-(w * Complex.I)) ^ 2) =
      k * (u1 * Complex.exp (-(w * Complex.I)) + 2 * u2 * Complex.exp (-(w * Complex.I)) ^ 2) by push_cast; ring,
    show (((k * u0 : ℝ) : ℂ) + ((k * u1 : ℝ) : ℂ) * Complex.exp (-(w * Complex.I)) + ((k * u2 : ℝ) : ℂ) * Complex.exp (-(w * Complex.I)) ^ 2) =
      k * (u0 + u1 * Complex.exp (-(w * Complex.I)) + u2 * Complex.exp (-(w * Complex.I)) ^ 2) by push_cast; ring,
    mul_div_mul_left _ _ hk']

/-- Symmetric taps are centred in the middle. -/
theorem tapCentre_symm {u0 u1 w : ℝ} (h : poly u0 u1 u0 w ≠ 0) : tapCentre u0 u1 u0 w = 1 := by
  rw [tapCentre_real h, sub_self, zero_mul, zero_div, sub_zero]

/-- So are antisymmetric ones. -/
theorem tapCentre_anti {u0 w : ℝ} (h : poly u0 0 (-u0) w ≠ 0) : tapCentre u0 0 (-u0) w = 1 := by
  rw [tapCentre_real h, add_neg_cancel, zero_mul, add_zero, mul_zero, zero_div, sub_zero]

/-- The taps of the common denominator of the rbj filters. -/
theorem tapCentre_rbj {c α w : ℝ} (h : poly (1 + α) (-2 * c) (1 - α) w ≠ 0) : tapCentre (1 + α) (-2 * c) (1 - α) w = 1 - rbjDelay c α w := by
  rw [tapCentre_real h, rbjDelay]
  congr 1
  have e1 : (1 + α - (1 - α)) * (1 + α + (1 - α) + -2 * c * cos w) = 4 * (α * (1 - c * cos w)) := by ring
  have e2 : ((1 + α + (1 - α)) * cos w + -2 * c) ^ 2 + ((1 + α - (1 - α)) * sin w) ^ 2 = 4 * ((cos w - c) ^ 2 + (α * sin w) ^ 2) := by ring
  rw [e1, e2, mul_div_mul_left _ _ (by norm_num)]

theorem rbjDelay_neg (c α w : ℝ) : rbjDelay c (-α) w = -rbjDelay c α w := by
  unfold rbjDelay; rw [neg_mul, neg_mul, neg_sq, neg_div]

section rbj
variable {sr f q : ℝ}

theorem rbj_poly_ne {c α w : ℝ} (hc : |c| < 1) (hα : α ≠ 0) : poly (1 + α) (-2 * c) (1 - α) w ≠ 0 := by
  rw [poly_ne_iff]
  have := Complex.normSq_pos.2 (phaseDen_ne (c := c) (w := w) hc hα)
  simp only [phaseDen, Complex.normSq_mk] at this
  nlinarith

/-- Divided by the first feedback coefficient. -/
theorem Implements.groupDelay_div {b0 b1 b2 a0 a1 a2 : ℝ} (hi : Implements s (b0 / a0) (b1 / a0) (b2 / a0) (a1 / a0) (a2 / a0))
    (h0 : a0 ≠ 0) (hs : StablePair (a1 / a0) (a2 / a0)) {w : ℝ} (hb : poly b0 b1 b2 w ≠ 0) :
    GroupDelay s w (tapCentre b0 b1 b2 w - tapCentre a0 a1 a2 w) := by
  have hk : a0⁻¹ ≠ 0 := inv_ne_zero h0
  have := hi.from.groupDelay hs (w := w) (by
    simp only [div_eq_inv_mul, poly_scale]
    exact mul_ne_zero (by exact_mod_cast hk) hb)
  convert this using 2
  · simp only [div_eq_inv_mul]; exact (tapCentre_scale hk _ _ _ _).symm
  · rw [← div_self h0]; simp only [div_eq_inv_mul]; exact (tapCentre_scale hk _ _ _ _).symm

/-- **C120**, the rbj filters with a quality factor. -/
theorem C120_rbj (h : ValidParams sr f q) (w : ℝ) :
    (∀ s : LowPass ℝ, cos w ≠ -1 → GroupDelay (s.setCoefficients sr f q) w (rbjDelay (cos (angle sr f)) (alphaQ sr f q) w)) ∧
    (∀ s : HighPass ℝ, cos w ≠ 1 → GroupDelay (s.setCoefficients sr f q) w (rbjDelay (cos (angle sr f)) (alphaQ sr f q) w)) ∧
    (∀ s : BandPass1 ℝ, sin w ≠ 0 → GroupDelay (s.setCoefficients sr f q) w (rbjDelay (cos (angle sr f)) (alphaQ sr f q) w)) ∧
    (∀ s : BandPass2 ℝ, sin w ≠ 0 → GroupDelay (s.setCoefficients sr f q) w (rbjDelay (cos (angle sr f)) (alphaQ sr f q) w)) ∧
    (∀ s : BandStop ℝ, cos w ≠ cos (angle sr f) →
      GroupDelay (s.setCoefficients sr f q) w (rbjDelay (cos (angle sr f)) (alphaQ sr f q) w)) ∧
    (∀ s : AllPass ℝ, GroupDelay (s.setCoefficients sr f q) w (2 * rbjDelay (cos (angle sr f)) (alphaQ sr f q) w)) ∧
    (∀ (s : Peak ℝ) (db : ℝ), GroupDelay (s.setCoefficients sr f db q) w
      (rbjDelay (cos (angle sr f)) (alphaQ sr f q / gainA db) w - rbjDelay (cos (angle sr f)) (alphaQ sr f q * gainA db) w)) := by
  have hc := h.cos_abs
  obtain ⟨hc1, hc2⟩ := abs_lt.1 hc
  set c := cos (angle sr f) with hcd
  have hα := h.alphaQ_pos
  have hq := h.2.2
  have hden := tapCentre_rbj (rbj_poly_ne (w := w) hc hα.ne')
  refine ⟨fun s hw => ?_, fun s hw => ?_, fun s hw => ?_, fun s hw => ?_, fun s hw => ?_, fun s => ?_, fun s db => ?_⟩
  · have hb : poly ((1 - c) / 2) (1 - c) ((1 - c) / 2) w ≠ 0 := by
      rw [poly_ne_iff]
      have : (1 - c) * (cos w + 1) ≠ 0 := mul_ne_zero (by linarith) fun h0 => hw (by linarith)
      have := pow_ne_zero 2 this
      intro h0; apply this; linarith
    have := (s.implements sr f q).groupDelay_div h.den h.stableQ hb
    rw [tapCentre_symm hb, hden, sub_sub_cancel] at this
    exact this
  · have hb : poly ((1 + c) / 2) (-1 - c) ((1 + c) / 2) w ≠ 0 := by
      rw [poly_ne_iff]
      have : (1 + c) * (cos w - 1) ≠ 0 := mul_ne_zero (by linarith) fun h0 => hw (by linarith)
      have := pow_ne_zero 2 this
      intro h0; apply this; linarith
    have := (s.implements sr f q).groupDelay_div h.den h.stableQ hb
    rw [tapCentre_symm hb, hden, sub_sub_cancel] at this
    exact this
  · have hb : poly (q * alphaQ sr f q) 0 (-(q * alphaQ sr f q)) w ≠ 0 := by
      rw [poly_ne_iff]
      have : 2 * (q * alphaQ sr f q) * sin w ≠ 0 := mul_ne_zero (by positivity) hw
      have := pow_ne_zero 2 this
      intro h0; apply this; linarith
    have := (s.implements sr f q).groupDelay_div h.den h.stableQ (by rw [neg_mul]; exact hb)
    rw [neg_mul, tapCentre_anti hb, hden, sub_sub_cancel] at this
    exact this
  · have hb : poly (alphaQ sr f q) 0 (-alphaQ sr f q) w ≠ 0 := by
      rw [poly_ne_iff]
      have : 2 * alphaQ sr f q * sin w ≠ 0 := mul_ne_zero (by positivity) hw
      have := pow_ne_zero 2 this
      intro h0; apply this; linarith
    have := (s.implements sr f q).groupDelay_div h.den h.stableQ hb
    rw [tapCentre_anti hb, hden, sub_sub_cancel] at this
    exact this
  · have hb : poly 1 (-2 * c) 1 w ≠ 0 := by
      rw [poly_ne_iff]
      have := pow_ne_zero 2 (sub_ne_zero.2 hw)
      intro h0; apply this; linarith
    have := (s.implements sr f q).groupDelay_div h.den h.stableQ hb
    rw [tapCentre_symm hb, hden, sub_sub_cancel] at this
    exact this
  · have hb : poly (1 + -alphaQ sr f q) (-2 * c) (1 - -alphaQ sr f q) w ≠ 0 := rbj_poly_ne hc (neg_ne_zero.2 hα.ne')
    have := (s.implements sr f q).groupDelay_div (w := w) h.den h.stableQ (by simpa [sub_eq_add_neg] using hb)
    have e := tapCentre_rbj hb
    rw [rbjDelay_neg, ← sub_eq_add_neg, sub_neg_eq_add] at e
    rw [e, hden] at this
    convert this using 1
    ring
  · have h1 := tapCentre_rbj (rbj_poly_ne (w := w) hc (mul_pos hα (gainA_pos db)).ne')
    have h2 := tapCentre_rbj (rbj_poly_ne (w := w) hc (div_pos hα (gainA_pos db)).ne')
    have := (s.implements sr f db q).groupDelay_div (h.peak_den db) (h.stablePeak db) (rbj_poly_ne (w := w) hc (mul_pos hα (gainA_pos db)).ne')
    rw [h1, h2] at this
    convert this using 1
    ring

theorem rbjDelay_den_pos {c α : ℝ} (hc : |c| < 1) (hα : α ≠ 0) (w : ℝ) : 0 < (cos w - c) ^ 2 + (α * sin w) ^ 2 := by
  have := Complex.normSq_pos.2 (phaseDen_ne (c := c) (w := w) hc hα)
  simp only [phaseDen, Complex.normSq_mk] at this
  nlinarith

theorem rbjDelay_pos {c α : ℝ} (hc : |c| < 1) (hα : 0 < α) (w : ℝ) : 0 < rbjDelay c α w := by
  refine div_pos (mul_pos hα ?_) (rbjDelay_den_pos hc hα.ne' w)
  have h1 : |c * cos w| < 1 := by
    rw [abs_mul]
    calc |c| * |cos w| ≤ |c| * 1 := mul_le_mul_of_nonneg_left (Real.abs_cos_le_one w) (abs_nonneg c)
      _ < 1 := by linarith
  linarith [(abs_lt.1 h1).2]

theorem rbjDelay_centre {α w : ℝ} (hs : 0 < sin w) (hα : 0 < α) : rbjDelay (cos w) α w = 1 / α := by
  have e : 1 - cos w * cos w = sin w ^ 2 := by linarith [Real.sin_sq_add_cos_sq w]
  rw [rbjDelay, sub_self, e]
  field_simp
  ring

/-- **C120**, sizes: positive everywhere, `2q / sin w0` samples at the centre frequency, `1/(2q)` times the cotangent and the tangent of `w0/2` at
the two ends; for `Peak` at its centre with the sign of the gain. -/
theorem C120_rbj_values (h : ValidParams sr f q) :
    (∀ w, 0 < rbjDelay (cos (angle sr f)) (alphaQ sr f q) w) ∧
    rbjDelay (cos (angle sr f)) (alphaQ sr f q) (angle sr f) = 2 * q / sin (angle sr f) ∧
    rbjDelay (cos (angle sr f)) (alphaQ sr f q) 0 = cos (angle sr f / 2) / sin (angle sr f / 2) / (2 * q) ∧
    rbjDelay (cos (angle sr f)) (alphaQ sr f q) Real.pi = sin (angle sr f / 2) / cos (angle sr f / 2) / (2 * q) ∧
    ∀ (s : Peak ℝ) (db : ℝ), GroupDelay (s.setCoefficients sr f db q) (angle sr f) ((gainA db - 1 / gainA db) * (2 * q / sin (angle sr f))) := by
  have hα := h.alphaQ_pos
  have hs := h.sin_pos
  have hq : 0 < q := h.2.2
  have hα' : 1 / alphaQ sr f q = 2 * q / sin (angle sr f) := by unfold alphaQ; field_simp
  obtain ⟨ha0, ha1⟩ := angle_mem h
  have hs2 : 0 < sin (angle sr f / 2) := Real.sin_pos_of_pos_of_lt_pi (by linarith) (by linarith)
  have hc2 : 0 < cos (angle sr f / 2) := Real.cos_pos_of_mem_Ioo ⟨by linarith, by linarith⟩
  have e1 : cos (angle sr f) = 1 - 2 * sin (angle sr f / 2) ^ 2 := by
    have := Real.cos_two_mul (angle sr f / 2)
    rw [show 2 * (angle sr f / 2) = angle sr f by ring] at this
    rw [this]; linarith [Real.sin_sq_add_cos_sq (angle sr f / 2)]
  have e2 : sin (angle sr f) = 2 * sin (angle sr f / 2) * cos (angle sr f / 2) := by
    have := Real.sin_two_mul (angle sr f / 2)
    rwa [show 2 * (angle sr f / 2) = angle sr f by ring] at this
  have e3 := Real.sin_sq_add_cos_sq (angle sr f / 2)
  refine ⟨rbjDelay_pos h.cos_abs hα, (rbjDelay_centre hs hα).trans hα', ?_, ?_, fun s db => ?_⟩
  · rw [rbjDelay, Real.cos_zero, Real.sin_zero, alphaQ, e2, e1]
    field_simp
    ring
  · have e4 : 1 - 2 * sin (angle sr f / 2) ^ 2 = 2 * cos (angle sr f / 2) ^ 2 - 1 := by linarith
    rw [rbjDelay, Real.cos_pi, Real.sin_pi, alphaQ, e2, e1, e4]
    rw [show (-1 - (2 * cos (angle sr f / 2) ^ 2 - 1)) = -(2 * cos (angle sr f / 2) ^ 2) by ring]
    field_simp
    ring
  · have := (C120_rbj h (angle sr f)).2.2.2.2.2.2 s db
    have hA := gainA_pos db
    rw [rbjDelay_centre hs (by positivity), rbjDelay_centre hs (by positivity)] at this
    convert this using 1
    rw [← hα']
    field_simp

/-- The angle of the common denominator rises by the delay. -/
theorem phaseOf_hasDerivAt {c α w : ℝ} (hα : 0 < α) (hs : 0 < sin w) : HasDerivAt (phaseOf c α) (rbjDelay c α w) w := by
  have hD : HasDerivAt (phaseDen c α) (⟨-sin w, α * cos w⟩ : ℂ) w := by
    have e : phaseDen c α = fun w => ((cos w - c : ℝ) : ℂ) + ((α * sin w : ℝ) : ℂ) * Complex.I := funext fun w => Complex.mk_eq_add_mul_I _ _
    rw [e]
    have h1 : HasDerivAt (fun w => ((cos w - c : ℝ) : ℂ)) ((-sin w : ℝ) : ℂ) w := ((Real.hasDerivAt_cos w).sub_const c).ofReal_comp
    have h2 : HasDerivAt (fun w => ((α * sin w : ℝ) : ℂ)) ((α * cos w : ℝ) : ℂ) w := ((Real.hasDerivAt_sin w).const_mul α).ofReal_comp
    refine (h1.add (h2.mul_const Complex.I)).congr_deriv ?_
    exact (Complex.mk_eq_add_mul_I _ _).symm
  have him : 0 < (phaseDen c α w).im := mul_pos hα hs
  have hl := hD.clog_real (Or.inr him.ne')
  have := Complex.imCLM.hasFDerivAt.comp_hasDerivAt w hl
  have e : phaseOf c α = fun v => (Complex.log (phaseDen c α v)).im := funext fun v => (Complex.log_im _).symm
  rw [e]
  refine this.congr_deriv ?_
  show ((⟨-sin w, α * cos w⟩ : ℂ) / phaseDen c α w).im = _
  rw [Complex.div_im, rbjDelay]
  simp only [phaseDen, Complex.normSq_mk]
  rw [← sub_div]
  have e3 := Real.sin_sq_add_cos_sq w
  congr 1
  · linear_combination α * e3
  · ring

/-- **C120**, the delays add up to the same total whatever the parameters: over all frequencies `AllPass` delays by two samples on average, the other
filters by one. -/
theorem C120_total (h : ValidParams sr f q) : ∫ w in (0 : ℝ)..Real.pi, rbjDelay (cos (angle sr f)) (alphaQ sr f q) w = Real.pi := by
  have hα := h.alphaQ_pos
  obtain ⟨p0, -, p2, -, pc⟩ := h.risingPhase hα
  rw [intervalIntegral.integral_eq_sub_of_hasDerivAt_of_le Real.pi_pos.le pc
    (fun w hw => phaseOf_hasDerivAt hα (Real.sin_pos_of_pos_of_lt_pi hw.1 hw.2)), p0, p2, sub_zero]
  refine Continuous.intervalIntegrable ?_ _ _
  unfold rbjDelay
  exact Continuous.div (by fun_prop) (by fun_prop) fun w => (rbjDelay_den_pos h.cos_abs hα.ne' w).ne'

end rbj

/-! ## The shelves -/

/-- The shelves' numerators and denominators at their own frequency: the size depends on the gain only through `(A - 1)^2`. -/
theorem tapCentre_shelf {A B w e : ℝ} (he : e ^ 2 = 1) (hB : 0 < B) (hs : 0 < sin w) {u0 u1 u2 : ℝ}
    (h0 : u0 = A + 1 + e * ((A - 1) * cos w) + B) (h1 : u1 = -2 * (e * (A - 1) + (A + 1) * cos w)) (h2 : u2 = A + 1 + e * ((A - 1) * cos w) - B) :
    poly u0 u1 u2 w ≠ 0 ∧ tapCentre u0 u1 u2 w = 1 - B * (A + 1) / ((A - 1) ^ 2 * sin w ^ 2 + B ^ 2) := by
  have e1 : sin w ^ 2 = 1 - cos w ^ 2 := by linarith [Real.sin_sq_add_cos_sq w]
  have k1 : u0 - u2 = 2 * B := by rw [h0, h2]; ring
  have k2 : u0 + u2 + u1 * cos w = 2 * (A + 1) * sin w ^ 2 := by rw [h0, h1, h2, e1]; ring
  have k3 : (u0 + u2) * cos w + u1 = -(e * (2 * (A - 1) * sin w ^ 2)) := by rw [h0, h1, h2, e1]; ring
  have k4 : ((u0 + u2) * cos w + u1) ^ 2 + ((u0 - u2) * sin w) ^ 2 = 4 * sin w ^ 2 * ((A - 1) ^ 2 * sin w ^ 2 + B ^ 2) := by
    rw [k3, k1]; linear_combination (4 * (A - 1) ^ 2 * sin w ^ 4) * he
  have hp : 0 < (A - 1) ^ 2 * sin w ^ 2 + B ^ 2 := by positivity
  have hne : poly u0 u1 u2 w ≠ 0 := by rw [poly_ne_iff, k4]; positivity
  refine ⟨hne, ?_⟩
  rw [tapCentre_real hne, k4, k1, k2]
  congr 1
  rw [show 2 * B * (2 * (A + 1) * sin w ^ 2) = 4 * sin w ^ 2 * (B * (A + 1)) by ring, mul_div_mul_left _ _ (by positivity)]

/-- **C120**, the shelves do not delay at all at their own frequency, whatever gain and slope. -/
theorem C120_shelves {sr f S : ℝ} (h : ValidShelf sr f S) (db : ℝ) :
    (∀ s : LowShelf ℝ, GroupDelay (s.setCoefficients sr f db S) (angle sr f) 0) ∧
    (∀ s : HighShelf ℝ, GroupDelay (s.setCoefficients sr f db S) (angle sr f) 0) := by
  have hs := h.params.sin_pos
  have hB := h.product_pos (db := db)
  have hA := gainA_pos db
  set A := gainA db with hAd
  set B := 2 * Real.sqrt A * alphaS sr f A S with hBd
  obtain ⟨p1, t1⟩ := tapCentre_shelf (A := A) (e := 1) (by norm_num) hB hs rfl rfl rfl
  obtain ⟨p2, t2⟩ := tapCentre_shelf (A := A) (e := -1) (by norm_num) hB hs rfl rfl rfl
  have hA' : (A : ℂ) ≠ 0 := by exact_mod_cast hA.ne'
  refine ⟨fun s => ?_, fun s => ?_⟩
  · have e : poly (A * (A + 1 - (A - 1) * cos (angle sr f) + B)) (2 * A * (A - 1 - (A + 1) * cos (angle sr f)))
        (A * (A + 1 - (A - 1) * cos (angle sr f) - B)) (angle sr f) = A * poly (A + 1 + -1 * ((A - 1) * cos (angle sr f)) + B)
          (-2 * (-1 * (A - 1) + (A + 1) * cos (angle sr f))) (A + 1 + -1 * ((A - 1) * cos (angle sr f)) - B) (angle sr f) := by
      rw [← poly_scale]; congr 1 <;> ring
    have e' : tapCentre (A * (A + 1 - (A - 1) * cos (angle sr f) + B)) (2 * A * (A - 1 - (A + 1) * cos (angle sr f)))
        (A * (A + 1 - (A - 1) * cos (angle sr f) - B)) (angle sr f) = tapCentre (A + 1 + -1 * ((A - 1) * cos (angle sr f)) + B)
          (-2 * (-1 * (A - 1) + (A + 1) * cos (angle sr f))) (A + 1 + -1 * ((A - 1) * cos (angle sr f)) - B) (angle sr f) := by
      rw [← tapCentre_scale hA.ne' (A + 1 + -1 * _ + B)]; congr 1 <;> ring
    have := (s.implements sr f db S).groupDelay_div (w := angle sr f) (h.low_den db) (h.stableLow db) (by rw [e]; exact mul_ne_zero hA' p2)
    rw [e', t2] at this
    simp only [one_mul] at t1
    rw [t1, sub_self] at this
    exact this
  · have e : poly (A * (A + 1 + (A - 1) * cos (angle sr f) + B)) (-2 * A * (A - 1 + (A + 1) * cos (angle sr f)))
        (A * (A + 1 + (A - 1) * cos (angle sr f) - B)) (angle sr f) = A * poly (A + 1 + 1 * ((A - 1) * cos (angle sr f)) + B)
          (-2 * (1 * (A - 1) + (A + 1) * cos (angle sr f))) (A + 1 + 1 * ((A - 1) * cos (angle sr f)) - B) (angle sr f) := by
      rw [← poly_scale]; congr 1 <;> ring
    have e' : tapCentre (A * (A + 1 + (A - 1) * cos (angle sr f) + B)) (-2 * A * (A - 1 + (A + 1) * cos (angle sr f)))
        (A * (A + 1 + (A - 1) * cos (angle sr f) - B)) (angle sr f) = tapCentre (A + 1 + 1 * ((A - 1) * cos (angle sr f)) + B)
          (-2 * (1 * (A - 1) + (A + 1) * cos (angle sr f))) (A + 1 + 1 * ((A - 1) * cos (angle sr f)) - B) (angle sr f) := by
      rw [← tapCentre_scale hA.ne' (A + 1 + 1 * _ + B)]; congr 1 <;> ring
    have e2 : tapCentre (A + 1 - (A - 1) * cos (angle sr f) + B) (2 * (A - 1 - (A + 1) * cos (angle sr f)))
        (A + 1 - (A - 1) * cos (angle sr f) - B) (angle sr f) = tapCentre (A + 1 + -1 * ((A - 1) * cos (angle sr f)) + B)
          (-2 * (-1 * (A - 1) + (A + 1) * cos (angle sr f))) (A + 1 + -1 * ((A - 1) * cos (angle sr f)) - B) (angle sr f) := by
      congr 1 <;> ring
    have := (s.implements sr f db S).groupDelay_div (w := angle sr f) (h.high_den db) (h.stableHigh db) (by rw [e]; exact mul_ne_zero hA' p1)
    rw [e', t1, e2, t2, sub_self] at this
    exact this

/-! ## The basic filters -/

/-- **C120**, the basic filters in any state: where the feedforward taps are centred less where the feedback taps are. -/
theorem C120_filters (w : ℝ) :
    (∀ s : OnePole ℝ, |s.a1| < 1 → s.b0 ≠ 0 → GroupDelay s w (-tapCentre 1 s.a1 0 w)) ∧
    (∀ s : OneZero ℝ, poly s.b0 s.b1 0 w ≠ 0 → GroupDelay s w (tapCentre s.b0 s.b1 0 w)) ∧
    (∀ s : TwoPole ℝ, |s.a2| < 1 → |s.a1| < 1 + s.a2 → s.b0 ≠ 0 → GroupDelay s w (-tapCentre 1 s.a1 s.a2 w)) ∧
    (∀ s : TwoZero ℝ, poly s.b0 s.b1 s.b2 w ≠ 0 → GroupDelay s w (tapCentre s.b0 s.b1 s.b2 w)) ∧
    (∀ s : Biquad1 ℝ, |s.a2| < 1 → |s.a1| < 1 + s.a2 → poly s.b0 s.b1 s.b2 w ≠ 0 →
      GroupDelay s w (tapCentre s.b0 s.b1 s.b2 w - tapCentre 1 s.a1 s.a2 w)) ∧
    (∀ s : Biquad2 ℝ, |s.a2| < 1 → |s.a1| < 1 + s.a2 → poly s.b0 s.b1 s.b2 w ≠ 0 →
      GroupDelay s w (tapCentre s.b0 s.b1 s.b2 w - tapCentre 1 s.a1 s.a2 w)) := by
  have t0 : ∀ b0 : ℝ, tapCentre b0 0 0 w = 0 := fun b0 => by simp [tapCentre]
  have p0 : ∀ b0 : ℝ, b0 ≠ 0 → poly b0 0 0 w ≠ 0 := fun b0 h => by simpa [poly_eq] using h
  refine ⟨fun s h1 h2 => ?_, fun s h => ?_, fun s h1 h2 h3 => ?_, fun s h => ?_, fun s h1 h2 h3 => ?_, fun s h1 h2 h3 => ?_⟩
  · simpa only [t0, zero_sub] using s.implementsFrom.groupDelay (stablePair_one h1) (p0 _ h2)
  · simpa only [t0, sub_zero] using s.implementsFrom.groupDelay stablePair_zero h
  · simpa only [t0, zero_sub] using s.implementsFrom.groupDelay ⟨h1, h2⟩ (p0 _ h3)
  · simpa only [t0, sub_zero] using s.implementsFrom.groupDelay stablePair_zero h
  · exact s.implementsFrom.groupDelay ⟨h1, h2⟩ h3
  · exact s.implementsFrom.groupDelay ⟨h1, h2⟩ h3

/-- **C120**, equal or opposite taps delay every frequency by the same amount: half a sample, a whole sample. -/
theorem C120_linear_phase (w : ℝ) :
    (∀ s : OneZero ℝ, s.b0 ≠ 0 → s.b1 = s.b0 → cos w ≠ -1 → GroupDelay s w (1 / 2)) ∧
    (∀ s : OneZero ℝ, s.b0 ≠ 0 → s.b1 = -s.b0 → cos w ≠ 1 → GroupDelay s w (1 / 2)) ∧
    (∀ s : TwoZero ℝ, s.b2 = s.b0 → 2 * s.b0 * cos w + s.b1 ≠ 0 → GroupDelay s w 1) ∧
    (∀ s : TwoZero ℝ, s.b0 ≠ 0 → s.b1 = 0 → s.b2 = -s.b0 → sin w ≠ 0 → GroupDelay s w 1) := by
  have e1 := Real.sin_sq_add_cos_sq w
  refine ⟨fun s h0 h1 hw => ?_, fun s h0 h1 hw => ?_, fun s h2 hw => ?_, fun s h0 h1 h2 hw => ?_⟩
  · have hc : 1 + cos w ≠ 0 := fun h => hw (by linarith)
    have hd : ((s.b0 + 0) * cos w + s.b0) ^ 2 + ((s.b0 - 0) * sin w) ^ 2 = 2 * (s.b0 ^ 2 * (1 + cos w)) := by linear_combination s.b0 ^ 2 * e1
    have hp : poly s.b0 s.b1 0 w ≠ 0 := by
      rw [h1, poly_ne_iff, hd]; exact mul_ne_zero two_ne_zero (mul_ne_zero (pow_ne_zero 2 h0) hc)
    have := (C120_filters w).2.1 s hp
    rw [tapCentre_real hp, h1, hd] at this
    convert this using 1
    field_simp
    ring
  · have hc : 1 - cos w ≠ 0 := fun h => hw (by linarith)
    have hd : ((s.b0 + 0) * cos w + -s.b0) ^ 2 + ((s.b0 - 0) * sin w) ^ 2 = 2 * (s.b0 ^ 2 * (1 - cos w)) := by linear_combination s.b0 ^ 2 * e1
    have hp : poly s.b0 s.b1 0 w ≠ 0 := by
      rw [h1, poly_ne_iff, hd]; exact mul_ne_zero two_ne_zero (mul_ne_zero (pow_ne_zero 2 h0) hc)
    have := (C120_filters w).2.1 s hp
    rw [tapCentre_real hp, h1, hd] at this
    convert this using 1
    field_simp
    ring
  · have hp : poly s.b0 s.b1 s.b0 w ≠ 0 := by
      rw [poly_ne_iff]
      have := pow_ne_zero 2 hw
      intro h0; apply this; linarith
    have := (C120_filters w).2.2.2.1 s (by rw [h2]; exact hp)
    rwa [h2, tapCentre_symm hp] at this
  · have hp : poly s.b0 0 (-s.b0) w ≠ 0 := by
      rw [poly_ne_iff]
      have := pow_ne_zero 2 (mul_ne_zero (mul_ne_zero two_ne_zero h0) hw)
      intro h0; apply this; linarith
    have := (C120_filters w).2.2.2.1 s (by rw [h1, h2]; exact hp)
    rwa [h1, h2, tapCentre_anti hp] at this

/-- **C120**, the integrator: `α/(1-α)` samples for slow signals, but it is *ahead* of those with `cos w < α`. -/
theorem C120_leakyIntegrator (s : LeakyIntegrator ℝ) (h0 : 0 ≤ s.getAlpha) (h1 : s.getAlpha < 1) (w : ℝ) :
    GroupDelay s w (s.getAlpha * (cos w - s.getAlpha) / (1 - 2 * s.getAlpha * cos w + s.getAlpha ^ 2)) ∧
    (w = 0 → s.getAlpha * (cos w - s.getAlpha) / (1 - 2 * s.getAlpha * cos w + s.getAlpha ^ 2) = s.getAlpha / (1 - s.getAlpha)) := by
  set a := s.getAlpha with ha
  have hi : ImplementsFrom s (-(-a * s.lastOut)) 0 (1 - a) 0 0 (-a) 0 := fun b x y =>
    (C48_is_onePole s b x y).trans (OnePole.implementsFrom _ b x y)
  have hst : StablePair (-a) 0 := stablePair_one (by rw [abs_neg, abs_of_nonneg h0]; exact h1)
  have hp := hst.poly_ne_zero w
  have hb : poly (1 - a) 0 0 w ≠ 0 := by
    rw [poly_eq]
    have : (1 : ℂ) - a ≠ 0 := by
      rw [sub_ne_zero]; intro h; have : (1 : ℝ) = a := by exact_mod_cast h
      linarith
    simpa using this
  have hg := hi.groupDelay hst hb
  have e1 := Real.sin_sq_add_cos_sq w
  have hd : ((1 + 0) * cos w + -a) ^ 2 + ((1 - 0) * sin w) ^ 2 = 1 - 2 * a * cos w + a ^ 2 := by linear_combination e1
  have hne := poly_ne_iff.1 hp
  rw [hd] at hne
  refine ⟨?_, fun hw => ?_⟩
  · convert hg using 1
    rw [tapCentre_real hp, hd, show tapCentre (1 - a) 0 0 w = 0 by simp [tapCentre], zero_sub, neg_sub, div_sub_one hne]
    congr 1
    ring
  · rw [hw, Real.cos_zero, show 1 - 2 * a * 1 + a ^ 2 = (1 - a) * (1 - a) by ring]
    have : 1 - a ≠ 0 := by linarith
    field_simp

/-! ## Delay lines -/

/-- A processor that ends up weighing the samples `k` and `k + 1` steps back. -/
theorem groupDelay_of_taps {k : ℕ} {r w : ℝ} (ht : Total (T := ℝ) s)
    (h : ∀ (b : Build) (x y : ℕ → ℝ), Responds b s x y → ∀ n, k + 1 ≤ n → y n = (1 - r) * x (n - k) + r * x (n - (k + 1)))
    (h0 : poly (1 - r) r 0 w ≠ 0) : GroupDelay s w (k + tapCentre (1 - r) r 0 w) := by
  have hE : ∀ v : ℝ, Complex.exp (-(v * Complex.I)) ^ k = ⟨cos (v * k), -sin (v * k)⟩ := fun v => by
    rw [← Complex.exp_nat_mul, show (k : ℂ) * -(v * Complex.I) = ((-(v * k) : ℝ) : ℂ) * Complex.I by push_cast; ring, Complex.exp_mul_I,
      ← Complex.ofReal_cos, ← Complex.ofReal_sin, ← Complex.mk_eq_add_mul_I, Real.cos_neg, Real.sin_neg]
  have d1 : HasDerivAt (fun v : ℝ => Complex.exp (-(v * Complex.I)) ^ k) (-(k * Complex.I) * Complex.exp (-(w * Complex.I)) ^ k) w := by
    have e : (fun v : ℝ => Complex.exp (-(v * Complex.I)) ^ k) = fun v : ℝ => Complex.exp (v * -(k * Complex.I)) := funext fun v => by
      rw [← Complex.exp_nat_mul]; congr 1; ring
    rw [e, ← Complex.exp_nat_mul, show (k : ℂ) * -(w * Complex.I) = w * -(k * Complex.I) by ring]
    have := (Complex.ofRealCLM.hasDerivAt.mul_const (-(k * Complex.I))).cexp (x := w)
    refine this.congr_deriv ?_
    simp only [Complex.ofRealCLM_apply, Complex.ofReal_one]
    ring
  have hx : Complex.exp (-(w * Complex.I)) ^ k ≠ 0 := pow_ne_zero _ (Complex.exp_ne_zero _)
  have hd := d1.mul (poly_hasDerivAt (1 - r) r 0 w)
  have := groupDelay_of_response (s := s) (H := fun v => Complex.exp (-(v * Complex.I)) ^ k * poly (1 - r) r 0 v) (w := w) ?_ hd (mul_ne_zero hx h0)
  · convert this using 1
    rw [tapCentre_eq, add_div, mul_div_mul_right _ _ h0, mul_div_mul_left _ _ hx, mul_div_cancel_right₀ _ hx, Complex.add_im, neg_add]
    simp
  · intro v A φ
    refine ⟨ht, fun b y hy => ?_⟩
    refine tendsto_const_nhds.congr' ?_
    filter_upwards [eventually_ge_atTop (k + 1)] with n hn
    set H := Complex.exp (-(v * Complex.I)) ^ k * poly (1 - r) r 0 v with hH
    have a1 := Complex.norm_mul_cos_arg H
    have a2 := Complex.norm_mul_sin_arg H
    have e1 : H.re = (1 - r) * cos (v * k) + r * cos (v * k + v) := by
      rw [hH, hE, Complex.mul_re, Real.cos_add]; simp only [poly]; ring
    have e2 : H.im = -((1 - r) * sin (v * k) + r * sin (v * k + v)) := by
      rw [hH, hE, Complex.mul_im, Real.sin_add]; simp only [poly]; ring
    rw [h b _ y hy n hn]
    rw [Nat.cast_sub (by omega), Nat.cast_sub hn]
    push_cast
    rw [show v * ((n : ℝ) - k) + φ = v * n + φ - v * k by ring, show v * ((n : ℝ) - (k + 1)) + φ = v * n + φ - (v * k + v) by ring,
      Real.cos_sub, Real.cos_sub, Real.cos_add (v * n + φ) H.arg]
    linear_combination (A * cos (v * n + φ)) * e1 - A * sin (v * n + φ) * e2 + A * cos (v * n + φ) * a1 - A * sin (v * n + φ) * a2

/-- Two taps with weights `1 - r` and `r`. -/
theorem tapCentre_two {r w : ℝ} (h : 1 - 2 * (r * (1 - r)) * (1 - cos w) ≠ 0) : poly (1 - r) r 0 w ≠ 0 ∧
    tapCentre (1 - r) r 0 w = r + r * (1 - r) * (2 * r - 1) * (1 - cos w) / (1 - 2 * (r * (1 - r)) * (1 - cos w)) := by
  have hd : ((1 - r + 0) * cos w + r) ^ 2 + ((1 - r - 0) * sin w) ^ 2 = 1 - 2 * (r * (1 - r)) * (1 - cos w) := by
    linear_combination (1 - r) ^ 2 * Real.sin_sq_add_cos_sq w
  have hp : poly (1 - r) r 0 w ≠ 0 := by rw [poly_ne_iff, hd]; exact h
  refine ⟨hp, ?_⟩
  rw [tapCentre_real hp, hd, sub_eq_iff_eq_add, add_assoc, ← add_div, eq_comm, ← eq_sub_iff_add_eq', div_eq_iff h]
  ring

/-- **C120**, delay lines: `Delay` delays every frequency by its delay. `LinearDelay` delays slow signals by its delay, exactly; the others by more if
the fraction is above 1/2, by less if it is below, by the same if it is 0 or 1/2. -/
theorem C120_delays [Target] (b : Build) {m : ℕ} (hm : Allocatable ℝ m) :
    (∀ d : ℕ, ∃ s : Delay ℝ, Delay.new b d m = .ok s ∧ ∀ w, GroupDelay s w (min d m : ℕ)) ∧
    (∀ D r : ℝ, 0 ≤ D → D ≤ m → r = Int.fract D → ∃ s : LinearDelay ℝ ℝ, LinearDelay.new b D m = .ok s ∧ GroupDelay s 0 D ∧
      ∀ w, 1 - 2 * (r * (1 - r)) * (1 - cos w) ≠ 0 →
        GroupDelay s w (D + r * (1 - r) * (2 * r - 1) * (1 - cos w) / (1 - 2 * (r * (1 - r)) * (1 - cos w)))) := by
  refine ⟨fun d => ?_, fun D r hD0 hDm hr => ?_⟩
  · obtain ⟨s, hn, hi, he, -⟩ := Delay.new_spec (T := ℝ) (b := b) (d := d) hm
    refine ⟨s, hn, fun w => ?_⟩
    have := groupDelay_of_taps (s := s) (k := min d m) (r := 0) (w := w) (fun b x => ⟨_, Delay.responds hi he x⟩) (fun b x y hy n hn => ?_) ?_
    · simpa [tapCentre] using this
    · rw [hy.unique (Delay.responds hi he x), delayedBy, if_pos (by omega)]; ring
    · simp [poly_eq]
  · subst hr
    obtain ⟨s, hs, hgd, -⟩ := C20_new_interpolates (b := b) hm D
    rw [min_eq_left hDm, max_eq_right hD0] at hgd
    obtain ⟨-, -, hi, hdn, -⟩ := LinearDelay.new_frame hm hs
    have ht : s.Tuned := LinearDelay.new_real hm hs
    have hf : (⌊D⌋₊ : ℝ) + Int.fract D = D := by
      rw [natCast_floor_eq_intCast_floor hD0]; exact Int.floor_add_fract D
    have key : ∀ w, 1 - 2 * (Int.fract D * (1 - Int.fract D)) * (1 - cos w) ≠ 0 → GroupDelay s w (D + Int.fract D * (1 - Int.fract D) *
        (2 * Int.fract D - 1) * (1 - cos w) / (1 - 2 * (Int.fract D * (1 - Int.fract D)) * (1 - cos w))) := fun w hw => by
      obtain ⟨hp, e⟩ := tapCentre_two hw
      have := groupDelay_of_taps (s := s) (k := ⌊D⌋₊) (fun b x => ⟨_, ht.responds hi hdn x⟩) (fun b x y hy n hn => by
        have e : s.delay = D := hgd
        rw [hy.unique (ht.responds hi hdn x), interp, e, delayedBy, delayedBy, if_pos (by omega), if_pos hn, show D - ⌊D⌋₊ = Int.fract D by linarith]) hp
      rwa [e, ← add_assoc, hf] at this
    refine ⟨s, hs, ?_, key⟩
    have := key 0 (by simp)
    simpa using this

/-! ## What it means: the envelope of a beat is delayed -/

theorem allPass_shifts {sr f q : ℝ} (h : ValidParams sr f q) (w : ℝ) (s : AllPass ℝ) :
    ShiftsBy (s.setCoefficients sr f q) w 1 (-(2 * phaseOf (cos (angle sr f)) (alphaQ sr f q) w)) := by
  intro A φ
  have p1 := phase_cos (c := cos (angle sr f)) (α := alphaQ sr f q) (w := w)
  have p2 := phase_sin (c := cos (angle sr f)) (α := alphaQ sr f q) (w := w)
  have e3 := Real.sin_sq_add_cos_sq w
  have := (s.implements sr f q).phase (w := w) (G := 1) (θ := -phaseOf (cos (angle sr f)) (alphaQ sr f q) w) rfl h.den h.stableQ
    (by rw [Real.cos_neg, Real.sin_neg, Real.cos_two_mul w]; linear_combination (-2 * cos w) * p1 + 2 * sin w * p2 + 2 * alphaQ sr f q * e3)
    (by rw [Real.cos_neg, Real.sin_neg, Real.sin_two_mul w]; linear_combination (-2 * sin w) * p1 - 2 * cos w * p2) A φ
  convert this using 5
  ring

/-- **C120**, `AllPass` on two neighbouring frequencies: a carrier `w` whose loudness follows `cos (δ n + φ)` comes out with the loudness
`cos (δ (n - D) + φ)`, and for slow beats `D` is the group delay. -/
theorem C120_beat {sr f q : ℝ} (h : ValidParams sr f q) {w : ℝ} (hw0 : 0 < w) (hwp : w < Real.pi) :
    ∃ D P : ℝ → ℝ, Tendsto D (𝓝[≠] 0) (𝓝 (2 * rbjDelay (cos (angle sr f)) (alphaQ sr f q) w)) ∧
      ∀ δ, δ ≠ 0 → ∀ (s : AllPass ℝ) (A φ χ : ℝ),
        ConvergesTo (s.setCoefficients sr f q) (fun n => A * cos (δ * n + φ) * cos (w * n + χ))
          (fun n => A * cos (δ * (n - D δ) + φ) * cos (w * n + χ - P δ)) := by
  obtain ⟨ψ, hψ⟩ : ∃ ψ, ψ = phaseOf (cos (angle sr f)) (alphaQ sr f q) := ⟨_, rfl⟩
  have hα := h.alphaQ_pos
  have hder := phaseOf_hasDerivAt (c := cos (angle sr f)) hα (Real.sin_pos_of_pos_of_lt_pi hw0 hwp)
  rw [← hψ] at hder
  refine ⟨fun δ => (ψ (w + δ) - ψ (w - δ)) / δ, fun δ => ψ (w + δ) + ψ (w - δ), ?_, fun δ hδ s A φ χ => ?_⟩
  · have p : HasDerivAt (fun δ => ψ (w + δ) - ψ (w - δ)) (2 * rbjDelay (cos (angle sr f)) (alphaQ sr f q) w) 0 := by
      have a := HasDerivAt.comp_const_add (f := ψ) w 0 (by rw [add_zero]; exact hder)
      have c := HasDerivAt.comp_const_sub (f := ψ) w 0 (by rw [sub_zero]; exact hder)
      refine (a.sub c).congr_deriv ?_
      ring
    have := p.tendsto_slope_zero
    refine this.congr' ?_
    filter_upwards with δ
    simp only [zero_add, add_zero, sub_zero, sub_self, smul_eq_mul]
    rw [div_eq_inv_mul]
  · have sh := fun v => allPass_shifts h v s
    rw [← hψ] at sh
    obtain ⟨t, c1⟩ := sh (w + δ) (A / 2) (χ + φ)
    obtain ⟨-, c2⟩ := sh (w - δ) (A / 2) (χ - φ)
    refine ⟨t, fun b y hy => ?_⟩
    obtain ⟨y1, hy1⟩ := t b (fun n => A / 2 * cos ((w + δ) * n + (χ + φ)))
    obtain ⟨y2, hy2⟩ := t b (fun n => A / 2 * cos ((w - δ) * n + (χ - φ)))
    have hsum := ((C32_rbj h).2.2.2.2.2.1 s).1.2 b _ _ _ _ 1 1 hy1 hy2
    have hin : (fun n : ℕ => 1 * (A / 2 * cos ((w + δ) * n + (χ + φ))) + 1 * (A / 2 * cos ((w - δ) * n + (χ - φ)))) =
        fun n : ℕ => A * cos (δ * n + φ) * cos (w * n + χ) := funext fun n => by
      rw [show (w + δ) * (n : ℝ) + (χ + φ) = (w * n + χ) + (δ * n + φ) by ring,
        show (w - δ) * (n : ℝ) + (χ - φ) = (w * n + χ) - (δ * n + φ) by ring, Real.cos_add, Real.cos_sub]
      ring
    rw [hin] at hsum
    have hc := (c1 b y1 hy1).add (c2 b y2 hy2)
    rw [add_zero] at hc
    refine hc.congr fun n => ?_
    rw [hy.unique hsum]
    dsimp only
    have hδD : δ * ((n : ℝ) - (ψ (w + δ) - ψ (w - δ)) / δ) = δ * n - (ψ (w + δ) - ψ (w - δ)) := by field_simp
    rw [hδD, show (w + δ) * (n : ℝ) + (χ + φ) + -(2 * ψ (w + δ)) =
        (w * n + χ - (ψ (w + δ) + ψ (w - δ))) + (δ * n - (ψ (w + δ) - ψ (w - δ)) + φ) by ring,
      show (w - δ) * (n : ℝ) + (χ - φ) + -(2 * ψ (w - δ)) =
        (w * n + χ - (ψ (w + δ) + ψ (w - δ))) - (δ * n - (ψ (w + δ) - ψ (w - δ)) + φ) by ring, Real.cos_add _ (δ * n - _ + φ), Real.cos_sub _ (δ * n - _ + φ)]
    ring

/-! ## Cases -/

/-- Parameters in range exist; at 1 kHz and 44.1 kHz with `q = 5` the filters delay by more than 70 samples at their centre. -/
example : ValidParams 44100 1000 5 ∧ 70 ≤ rbjDelay (cos (angle 44100 1000)) (alphaQ 44100 1000 5) (angle 44100 1000) := by
  have h : ValidParams 44100 1000 5 := ⟨by norm_num, by norm_num, by norm_num⟩
  refine ⟨h, ?_⟩
  rw [(C120_rbj_values h).2.1, le_div_iff₀ h.sin_pos]
  have h1 : sin (angle 44100 1000) < angle 44100 1000 := Real.sin_lt (angle_mem h).1
  have h2 : angle 44100 1000 = 2 * Real.pi * 1000 / 44100 := rfl
  have := Real.pi_lt_d2
  rw [h2] at h1 ⊢
  linarith

/-- A boost delays at its centre, a cut is ahead of its input. -/
example {db : ℝ} (hdb : 0 < db) : 0 < gainA db - 1 / gainA db ∧ gainA (-db) - 1 / gainA (-db) < 0 := by
  have h1 : 1 < gainA db := by rw [← gainA_zero]; exact gainA_strictMono hdb
  have h2 : gainA (-db) < 1 := by rw [← gainA_zero]; exact gainA_strictMono (by linarith)
  have h3 := gainA_pos (-db)
  constructor
  · rw [sub_pos, div_lt_iff₀ (by linarith)]; nlinarith
  · rw [sub_neg, lt_div_iff₀ h3]; nlinarith

end Rasp
