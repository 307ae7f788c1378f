import Verif.Spec.Phase
import Verif.Props.Shape
import Mathlib.Analysis.SpecialFunctions.Complex.Arg
import Mathlib.Analysis.SpecialFunctions.Trigonometric.Inverse

/-!
# C93: phase responses of the rbj filters
-/

namespace Rasp
open Real (cos sin pi)

/-- The common denominator `(cos w - c) + i α sin w` of the filters with quality `q`. -/
noncomputable def phaseDen (c α w : ℝ) : ℂ := ⟨cos w - c, α * sin w⟩

/-- Its angle. -/
noncomputable def phaseOf (c α w : ℝ) : ℝ := (phaseDen c α w).arg

section geometry
variable {c α β w w' : ℝ}

theorem phaseDen_ne (hc : |c| < 1) (hα : α ≠ 0) : phaseDen c α w ≠ 0 := by
  intro h
  have h1 : cos w - c = 0 := congrArg Complex.re h
  have h2 : α * sin w = 0 := congrArg Complex.im h
  have h3 : sin w = 0 := (mul_eq_zero.1 h2).resolve_left hα
  have h4 := Real.sin_sq_add_cos_sq w
  have h5 := (sq_lt_one_iff_abs_lt_one c).2 hc
  rw [h3] at h4
  have : cos w = c := by linarith
  rw [this] at h4
  linarith

theorem phase_cos : ‖phaseDen c α w‖ * cos (phaseOf c α w) = cos w - c := Complex.norm_mul_cos_arg _

theorem phase_sin : ‖phaseDen c α w‖ * sin (phaseOf c α w) = α * sin w := Complex.norm_mul_sin_arg _

theorem phase_nonneg (hα : 0 ≤ α) (h : 0 ≤ sin w) : 0 ≤ phaseOf c α w := by
  unfold phaseOf
  rw [Complex.arg_nonneg_iff]
  exact mul_nonneg hα h

theorem phase_le : phaseOf c α w ≤ pi := Complex.arg_le_pi _

/-- The sign of the cross product orders the angles. -/
theorem phase_lt (hβ : 0 < β) (hs' : 0 ≤ sin w')
    (h : 0 < (cos w - c) * (β * sin w') - (cos w' - c) * (α * sin w)) : phaseOf c α w < phaseOf c β w' := by
  rw [← phase_cos (c := c) (α := α) (w := w), ← phase_cos (c := c) (α := β) (w := w'), ← phase_sin (c := c) (α := α) (w := w),
    ← phase_sin (c := c) (α := β) (w := w')] at h
  by_contra hn
  rw [not_lt] at hn
  have h1 : 0 ≤ sin (phaseOf c α w - phaseOf c β w') := by
    apply Real.sin_nonneg_of_nonneg_of_le_pi (by linarith)
    have := phase_nonneg (c := c) hβ.le hs'
    have := phase_le (c := c) (α := α) (w := w)
    linarith
  rw [Real.sin_sub] at h1
  have h2 := mul_nonneg (mul_nonneg (norm_nonneg (phaseDen c α w)) (norm_nonneg (phaseDen c β w'))) h1
  linarith

theorem phase_strictMono (hc : |c| < 1) (hα : 0 < α) : StrictMonoOn (phaseOf c α) (Set.Icc 0 pi) := by
  intro w hw w' hw' hlt
  have hs := Real.sin_nonneg_of_nonneg_of_le_pi hw.1 hw.2
  have hs' := Real.sin_nonneg_of_nonneg_of_le_pi hw'.1 hw'.2
  obtain ⟨hc1, hc2⟩ := abs_lt.1 hc
  by_cases hends : w = 0 ∧ w' = pi
  · obtain ⟨rfl, rfl⟩ := hends
    have h1 : phaseOf c α 0 = 0 := by
      unfold phaseOf
      rw [Complex.arg_eq_zero_iff]
      simp only [phaseDen, Real.cos_zero, Real.sin_zero, mul_zero, and_true]
      linarith
    have h2 : phaseOf c α pi = pi := by
      unfold phaseOf
      rw [Complex.arg_eq_pi_iff]
      simp only [phaseDen, Real.cos_pi, Real.sin_pi, mul_zero, and_true]
      linarith
    rw [h1, h2]
    exact Real.pi_pos
  · apply phase_lt hα hs'
    have hd : 0 < sin ((w' - w) / 2) := Real.sin_pos_of_pos_of_lt_pi (by linarith) (by linarith [hw.1, hw'.2, Real.pi_pos])
    have e : (cos w - c) * (α * sin w') - (cos w' - c) * (α * sin w) =
        2 * α * sin ((w' - w) / 2) * (cos ((w' - w) / 2) - c * cos ((w' + w) / 2)) := by
      have e1 := Real.sin_sub w' w
      have e2 := Real.sin_sub_sin w' w
      have e3 := Real.sin_two_mul ((w' - w) / 2)
      rw [show 2 * ((w' - w) / 2) = w' - w by ring] at e3
      linear_combination (-α) * e1 - α * c * e2 + α * e3
    rw [e]
    refine mul_pos (by positivity) ?_
    -- `|cos m| ≤ cos δ`, with room when `cos m = 0`
    have hm1 : cos ((w' + w) / 2) ≤ cos ((w' - w) / 2) :=
      Real.cos_le_cos_of_nonneg_of_le_pi (by linarith) (by linarith [hw.2, hw'.2]) (by linarith [hw.1])
    have hm2 : -cos ((w' + w) / 2) ≤ cos ((w' - w) / 2) := by
      rw [← Real.cos_pi_sub]
      exact Real.cos_le_cos_of_nonneg_of_le_pi (by linarith) (by linarith [hw.1, hw'.1]) (by linarith [hw'.2])
    have hpos : 0 < cos ((w' - w) / 2) := by
      apply Real.cos_pos_of_mem_Ioo
      constructor
      · linarith [Real.pi_pos]
      · by_contra hcon
        rw [not_lt] at hcon
        exact hends ⟨by linarith [hw.1, hw'.2], by linarith [hw.1, hw'.2]⟩
    rcases le_or_gt 0 (cos ((w' + w) / 2)) with hm | hm
    · nlinarith [mul_le_mul_of_nonneg_right hc2.le hm]
    · nlinarith [mul_le_mul_of_nonneg_right hc1.le (neg_nonneg.2 hm.le)]

theorem phase_continuous (hc : |c| < 1) (hα : 0 < α) : ContinuousOn (phaseOf c α) (Set.Icc 0 pi) := by
  have h : Set.EqOn (phaseOf c α) (fun w => Real.arccos ((phaseDen c α w).re / ‖phaseDen c α w‖)) (Set.Icc 0 pi) := by
    intro w hw
    exact Complex.arg_of_im_nonneg_of_ne_zero (mul_nonneg hα.le (Real.sin_nonneg_of_nonneg_of_le_pi hw.1 hw.2)) (phaseDen_ne hc hα.ne')
  refine ContinuousOn.congr ?_ h
  refine Continuous.continuousOn ?_
  have hD : Continuous (phaseDen c α) := by
    have : phaseDen c α = fun w => ((cos w - c : ℝ) : ℂ) + ((α * sin w : ℝ) : ℂ) * Complex.I := by
      funext w
      exact Complex.mk_eq_add_mul_I _ _
    rw [this]
    fun_prop
  exact Real.continuous_arccos.comp ((Complex.continuous_re.comp hD).div hD.norm fun w => norm_ne_zero_iff.2 (phaseDen_ne hc hα.ne'))

end geometry

section filters
variable {σ : Type} [Processor σ ℝ] {s : σ} {sr f q : ℝ}

/-- A filter with denominator `phaseDen` and numerator `N` (at `w`, both turned by `w`). -/
theorem Implements.phase {b0 b1 b2 a1 c α w G θ : ℝ} (ha : a1 = -2 * c)
    (hi : Implements s (b0 / (1 + α)) (b1 / (1 + α)) (b2 / (1 + α)) (a1 / (1 + α)) ((1 - α) / (1 + α)))
    (h0 : 1 + α ≠ 0) (hs : StablePair (a1 / (1 + α)) ((1 - α) / (1 + α)))
    (hre : b0 + b1 * cos w + b2 * cos (2 * w) = 2 * G * ‖phaseDen c α w‖ * (cos θ * cos w + sin θ * sin w))
    (him : b1 * sin w + b2 * sin (2 * w) = 2 * G * ‖phaseDen c α w‖ * (cos θ * sin w - sin θ * cos w)) (A φ : ℝ) :
    ConvergesTo s (fun n => A * cos (w * n + φ)) (fun n => G * A * cos (w * n + φ + (θ - phaseOf c α w))) := by
  subst ha
  have h1 := phase_cos (c := c) (α := α) (w := w)
  have h2 := phase_sin (c := c) (α := α) (w := w)
  have e1 := Real.cos_two_mul w
  have e2 := Real.sin_two_mul w
  have e3 := Real.sin_sq_add_cos_sq w
  have e4 := Real.sin_sq_add_cos_sq (phaseOf c α w)
  have d1 : 1 + α + -2 * c * cos w + (1 - α) * cos (2 * w) = 2 * ((cos w - c) * cos w + (α * sin w) * sin w) := by
    rw [e1]; linear_combination (-2 * α) * e3
  have d2 : -2 * c * sin w + (1 - α) * sin (2 * w) = 2 * ((cos w - c) * sin w - (α * sin w) * cos w) := by
    rw [e2]; ring
  have := hi.sinusoid_div h0 hs (G * cos (θ - phaseOf c α w)) (G * sin (θ - phaseOf c α w)) (w := w) ?_ ?_ A φ
  · convert this using 2
    rw [Real.cos_add (w * _ + φ)]
    ring
  · rw [d1, d2, hre, ← h1, ← h2, Real.cos_sub, Real.sin_sub]
    linear_combination 2 * G * ‖phaseDen c α w‖ * (cos θ * cos w + sin θ * sin w) * e4
  · rw [d1, d2, him, ← h1, ← h2, Real.cos_sub, Real.sin_sub]
    linear_combination 2 * G * ‖phaseDen c α w‖ * (sin θ * cos w - cos θ * sin w) * e4

theorem ValidParams.cos_abs (h : ValidParams sr f q) : |cos (angle sr f)| < 1 :=
  abs_lt.2 (cos_lt_one_of_sin_pos h.sin_pos)

theorem ValidParams.risingPhase (h : ValidParams sr f q) {α : ℝ} (hα : 0 < α) :
    RisingPhase (angle sr f) (phaseOf (cos (angle sr f)) α) := by
  obtain ⟨h1, h2⟩ := cos_lt_one_of_sin_pos h.sin_pos
  refine ⟨?_, ?_, ?_, phase_strictMono h.cos_abs hα, phase_continuous h.cos_abs hα⟩
  · unfold phaseOf
    rw [Complex.arg_eq_zero_iff]
    simp only [phaseDen, Real.cos_zero, Real.sin_zero, mul_zero, and_true]
    linarith
  · unfold phaseOf
    rw [Complex.arg_eq_pi_div_two_iff]
    simp only [phaseDen, sub_self, true_and]
    exact mul_pos hα h.sin_pos
  · unfold phaseOf
    rw [Complex.arg_eq_pi_iff]
    simp only [phaseDen, Real.cos_pi, Real.sin_pi, mul_zero, and_true]
    linarith

/-- **C93**. One rising angle `ψ` describes the phases of six filters: LowPass lags by `ψ`, HighPass leads by `π - ψ`, the BandPasses
by `π/2 - ψ`, BandStop lags by `ψ` below the centre frequency and leads by `π - ψ` above it, AllPass lags by `2 ψ`. The gains
are not negative, and between the ends positive (except of course that of BandStop at its centre). -/
theorem C93_phases (h : ValidParams sr f q) : ∃ ψ : ℝ → ℝ, RisingPhase (angle sr f) ψ ∧ ∀ w ∈ Set.Icc 0 pi,
    ∃ gL gH gB1 gB2 gS : ℝ, (0 ≤ gL ∧ 0 ≤ gH ∧ 0 ≤ gB1 ∧ 0 ≤ gB2 ∧ 0 ≤ gS) ∧
      (0 < w → w < pi → 0 < gL ∧ 0 < gH ∧ 0 < gB1 ∧ 0 < gB2 ∧ (w ≠ angle sr f → 0 < gS)) ∧
      (∀ s : LowPass ℝ, ShiftsBy (s.setCoefficients sr f q) w gL (-ψ w)) ∧
      (∀ s : HighPass ℝ, ShiftsBy (s.setCoefficients sr f q) w gH (pi - ψ w)) ∧
      (∀ s : BandPass1 ℝ, ShiftsBy (s.setCoefficients sr f q) w gB1 (pi / 2 - ψ w)) ∧
      (∀ s : BandPass2 ℝ, ShiftsBy (s.setCoefficients sr f q) w gB2 (pi / 2 - ψ w)) ∧
      (∀ s : BandStop ℝ, ShiftsBy (s.setCoefficients sr f q) w gS (if w ≤ angle sr f then -ψ w else pi - ψ w)) ∧
      (∀ s : AllPass ℝ, ShiftsBy (s.setCoefficients sr f q) w 1 (-(2 * ψ w))) := by
  set w0 := angle sr f with hw0
  set α := alphaQ sr f q with hα
  have hαp : 0 < α := h.alphaQ_pos
  have hsin := h.sin_pos
  obtain ⟨hc1, hc2⟩ := cos_lt_one_of_sin_pos h.sin_pos
  have hq := h.2.2
  rw [← hw0] at hsin hc1 hc2
  refine ⟨phaseOf (cos w0) α, h.risingPhase hαp, fun w hw => ?_⟩
  have hs := Real.sin_nonneg_of_nonneg_of_le_pi hw.1 hw.2
  have hρ : 0 < ‖phaseDen (cos w0) α w‖ := norm_pos_iff.2 (phaseDen_ne h.cos_abs hαp.ne')
  set ρ := ‖phaseDen (cos w0) α w‖ with hρd
  have e1 := Real.cos_two_mul w
  have e2 := Real.sin_two_mul w
  have e3 := Real.sin_sq_add_cos_sq w
  have hcl := Real.cos_le_one w
  have hcg := Real.neg_one_le_cos w
  refine ⟨(1 - cos w0) * (1 + cos w) / (2 * ρ), (1 + cos w0) * (1 - cos w) / (2 * ρ), q * α * sin w / ρ, α * sin w / ρ,
    |cos w - cos w0| / ρ, ⟨?_, ?_, ?_, ?_, ?_⟩, fun hw1 hw2 => ?_, fun s A φ => ?_, fun s A φ => ?_, fun s A φ => ?_,
    fun s A φ => ?_, fun s A φ => ?_, fun s A φ => ?_⟩
  · exact div_nonneg (mul_nonneg (by linarith) (by linarith)) (by positivity)
  · exact div_nonneg (mul_nonneg (by linarith) (by linarith)) (by positivity)
  · positivity
  · positivity
  · positivity
  · have hsp := Real.sin_pos_of_pos_of_lt_pi hw1 hw2
    obtain ⟨k1, k2⟩ := cos_lt_one_of_sin_pos hsp
    refine ⟨div_pos (mul_pos (by linarith) (by linarith)) (by positivity), div_pos (mul_pos (by linarith) (by linarith)) (by positivity),
      by positivity, by positivity, fun hne => div_pos (abs_pos.2 fun h0 => hne ?_) hρ⟩
    have hw0m : w0 ∈ Set.Icc 0 pi := Set.Ioo_subset_Icc_self (angle_mem h)
    exact Real.injOn_cos hw hw0m (by linarith)
  · have := (s.implements sr f q).phase (c := cos w0) (α := α) (w := w) (G := (1 - cos w0) * (1 + cos w) / (2 * ρ)) (θ := 0) rfl h.den h.stableQ
      (by rw [← hρd, ← hw0, Real.cos_zero, Real.sin_zero, e1]; field_simp; ring)
      (by rw [← hρd, ← hw0, Real.cos_zero, Real.sin_zero, e2]; field_simp; ring) A φ
    simpa using this
  · have := (s.implements sr f q).phase (c := cos w0) (α := α) (w := w) (G := (1 + cos w0) * (1 - cos w) / (2 * ρ)) (θ := pi) rfl h.den h.stableQ
      (by rw [← hρd, ← hw0, Real.cos_pi, Real.sin_pi, e1]; field_simp; ring)
      (by rw [← hρd, ← hw0, Real.cos_pi, Real.sin_pi, e2]; field_simp; ring) A φ
    exact this
  · have := (s.implements sr f q).phase (c := cos w0) (α := α) (w := w) (G := q * α * sin w / ρ) (θ := pi / 2) rfl h.den h.stableQ
      (by rw [← hρd, Real.cos_pi_div_two, Real.sin_pi_div_two, e1, ← hα]; field_simp; linear_combination (-2 * q * α) * e3)
      (by rw [← hρd, Real.cos_pi_div_two, Real.sin_pi_div_two, e2, ← hα]; field_simp; ring) A φ
    exact this
  · have := (s.implements sr f q).phase (c := cos w0) (α := α) (w := w) (G := α * sin w / ρ) (θ := pi / 2) rfl h.den h.stableQ
      (by rw [← hρd, Real.cos_pi_div_two, Real.sin_pi_div_two, e1, ← hα]; field_simp; linear_combination (-2 * α) * e3)
      (by rw [← hρd, Real.cos_pi_div_two, Real.sin_pi_div_two, e2, ← hα]; field_simp; ring) A φ
    exact this
  · have hw0m : w0 ∈ Set.Icc 0 pi := Set.Ioo_subset_Icc_self (angle_mem h)
    split_ifs with hle
    · have hab : |cos w - cos w0| = cos w - cos w0 :=
        abs_of_nonneg (sub_nonneg.2 (Real.cos_le_cos_of_nonneg_of_le_pi hw.1 hw0m.2 hle))
      rw [hab]
      have := (s.implements sr f q).phase (c := cos w0) (α := α) (w := w) (G := (cos w - cos w0) / ρ) (θ := 0) rfl h.den h.stableQ
        (by rw [← hρd, ← hw0, Real.cos_zero, Real.sin_zero, e1]; field_simp; ring)
        (by rw [← hρd, ← hw0, Real.cos_zero, Real.sin_zero, e2]; field_simp; ring) A φ
      simpa using this
    · have hab : |cos w - cos w0| = -(cos w - cos w0) :=
        abs_of_nonpos (sub_nonpos.2 (Real.cos_le_cos_of_nonneg_of_le_pi hw0m.1 hw.2 (not_le.1 hle).le))
      rw [hab]
      have := (s.implements sr f q).phase (c := cos w0) (α := α) (w := w) (G := -(cos w - cos w0) / ρ) (θ := pi) rfl h.den h.stableQ
        (by rw [← hρd, ← hw0, Real.cos_pi, Real.sin_pi, e1]; field_simp; ring)
        (by rw [← hρd, ← hw0, Real.cos_pi, Real.sin_pi, e2]; field_simp; ring) A φ
      exact this
  · have p1 := phase_cos (c := cos w0) (α := α) (w := w)
    have p2 := phase_sin (c := cos w0) (α := α) (w := w)
    have := (s.implements sr f q).phase (c := cos w0) (α := α) (w := w) (G := 1) (θ := -phaseOf (cos w0) α w) rfl h.den h.stableQ
      (by rw [← hw0, ← hα, Real.cos_neg, Real.sin_neg, e1]; linear_combination (-2 * cos w) * p1 + 2 * sin w * p2 + 2 * α * e3)
      (by rw [← hw0, ← hα, Real.cos_neg, Real.sin_neg, e2]; linear_combination (-2 * sin w) * p1 - 2 * cos w * p2) A φ
    convert this using 5
    ring

theorem gainA_strictMono : StrictMono gainA := fun a b hab => Real.rpow_lt_rpow_of_exponent_lt (by norm_num) (by linarith)

/-- **C93**. `Peak` shifts the phase by less than a right angle and not at all at the ends and the centre; a boost leads below the centre
and lags above it, a cut the other way round. -/
theorem C93_peak (h : ValidParams sr f q) (db : ℝ) : ∃ η : ℝ → ℝ, ContinuousOn η (Set.Icc 0 pi) ∧
    η 0 = 0 ∧ η (angle sr f) = 0 ∧ η pi = 0 ∧
    (∀ w ∈ Set.Icc 0 pi, |η w| < pi / 2 ∧ ∃ G, 0 < G ∧ ∀ s : Peak ℝ, ShiftsBy (s.setCoefficients sr f db q) w G (η w)) ∧
    (0 < db → (∀ w, 0 < w → w < angle sr f → 0 < η w) ∧ ∀ w, angle sr f < w → w < pi → η w < 0) ∧
    (db < 0 → (∀ w, 0 < w → w < angle sr f → η w < 0) ∧ ∀ w, angle sr f < w → w < pi → 0 < η w) := by
  set w0 := angle sr f with hw0
  set α := alphaQ sr f q with hα
  have hαp : 0 < α := h.alphaQ_pos
  have hA := gainA_pos db
  set g := gainA db with hg
  have hu : 0 < α * g := by positivity
  have hd : 0 < α / g := by positivity
  obtain ⟨u0, u1, u2, -, u4⟩ := h.risingPhase hu
  obtain ⟨d0, d1, d2, -, d4⟩ := h.risingPhase hd
  rw [← hw0] at u0 u1 u2 u4 d0 d1 d2 d4
  obtain ⟨ha0, ha1⟩ := angle_mem h
  rw [← hw0] at ha0 ha1
  have cross : ∀ w a b, 0 < a → 0 < b → 0 < sin w → 0 < (b - a) * (cos w - cos w0) → phaseOf (cos w0) a w < phaseOf (cos w0) b w := by
    intro w a b ha hb hs hc
    refine phase_lt hb hs.le ?_
    have := mul_pos hc hs
    linarith
  have below : ∀ w, 0 < w → w < w0 → 0 < cos w - cos w0 := fun w h1 h2 =>
    sub_pos.2 (Real.cos_lt_cos_of_nonneg_of_le_pi h1.le ha1.le h2)
  have above : ∀ w, w0 < w → w < pi → cos w - cos w0 < 0 := fun w h1 h2 =>
    sub_neg.2 (Real.cos_lt_cos_of_nonneg_of_le_pi ha0.le h2.le h1)
  refine ⟨fun w => phaseOf (cos w0) (α * g) w - phaseOf (cos w0) (α / g) w, u4.sub d4, by simp only [u0, d0, sub_zero], by simp only [u1, d1, sub_self],
    by simp only [u2, d2, sub_self], fun w hw => ⟨?_, ?_⟩, fun hdb => ?_, fun hdb => ?_⟩
  · have hs := Real.sin_nonneg_of_nonneg_of_le_pi hw.1 hw.2
    have hn1 : 0 < ‖phaseDen (cos w0) (α * g) w‖ := norm_pos_iff.2 (phaseDen_ne h.cos_abs hu.ne')
    have hn2 : 0 < ‖phaseDen (cos w0) (α / g) w‖ := norm_pos_iff.2 (phaseDen_ne h.cos_abs hd.ne')
    have hcos : 0 < cos (phaseOf (cos w0) (α * g) w - phaseOf (cos w0) (α / g) w) := by
      have e : ‖phaseDen (cos w0) (α * g) w‖ * ‖phaseDen (cos w0) (α / g) w‖ *
          cos (phaseOf (cos w0) (α * g) w - phaseOf (cos w0) (α / g) w) = (cos w - cos w0) ^ 2 + (α * sin w) ^ 2 := by
        rw [Real.cos_sub]
        have p1 := phase_cos (c := cos w0) (α := α * g) (w := w)
        have p2 := phase_sin (c := cos w0) (α := α * g) (w := w)
        have p3 := phase_cos (c := cos w0) (α := α / g) (w := w)
        have p4 := phase_sin (c := cos w0) (α := α / g) (w := w)
        have hgg : α * g * (α / g) = α ^ 2 := by field_simp
        linear_combination (‖phaseDen (cos w0) (α / g) w‖ * cos (phaseOf (cos w0) (α / g) w)) * p1 + (cos w - cos w0) * p3 +
          (‖phaseDen (cos w0) (α / g) w‖ * sin (phaseOf (cos w0) (α / g) w)) * p2 + (α * g * sin w) * p4 + sin w ^ 2 * hgg
      have hpos : 0 < (cos w - cos w0) ^ 2 + (α * sin w) ^ 2 := by
        have := Complex.normSq_pos.2 (phaseDen_ne (c := cos w0) (w := w) h.cos_abs hαp.ne')
        simp only [phaseDen, Complex.normSq_mk] at this
        linarith
      rw [← e] at hpos
      exact (mul_pos_iff_of_pos_left (mul_pos hn1 hn2)).1 hpos
    have b1 := phase_nonneg (c := cos w0) hu.le hs
    have b2 := phase_nonneg (c := cos w0) hd.le hs
    have b3 := phase_le (c := cos w0) (α := α * g) (w := w)
    have b4 := phase_le (c := cos w0) (α := α / g) (w := w)
    by_contra hcon
    rw [not_lt] at hcon
    rw [← Real.cos_abs] at hcos
    have := Real.cos_nonpos_of_pi_div_two_le_of_le hcon (by
      have : |phaseOf (cos w0) (α * g) w - phaseOf (cos w0) (α / g) w| ≤ pi := abs_le.2 ⟨by linarith, by linarith⟩
      linarith [Real.pi_pos])
    linarith
  · have hn1 : 0 < ‖phaseDen (cos w0) (α * g) w‖ := norm_pos_iff.2 (phaseDen_ne h.cos_abs hu.ne')
    have hn2 : 0 < ‖phaseDen (cos w0) (α / g) w‖ := norm_pos_iff.2 (phaseDen_ne h.cos_abs hd.ne')
    refine ⟨‖phaseDen (cos w0) (α * g) w‖ / ‖phaseDen (cos w0) (α / g) w‖, by positivity, fun s A φ => ?_⟩
    have p1 := phase_cos (c := cos w0) (α := α * g) (w := w)
    have p2 := phase_sin (c := cos w0) (α := α * g) (w := w)
    have e1 := Real.cos_two_mul w
    have e2 := Real.sin_two_mul w
    have e3 := Real.sin_sq_add_cos_sq w
    have hk : 2 * (‖phaseDen (cos w0) (α * g) w‖ / ‖phaseDen (cos w0) (α / g) w‖) * ‖phaseDen (cos w0) (α / g) w‖ =
        2 * ‖phaseDen (cos w0) (α * g) w‖ := by rw [mul_assoc, div_mul_cancel₀ _ hn2.ne']
    refine (s.implements sr f db q).phase (c := cos w0) (α := α / g) (w := w) rfl (h.peak_den db) (h.stablePeak db) ?_ ?_ A φ
    · rw [← hw0, ← hα, ← hg, e1, hk]
      linear_combination (-2 * cos w) * p1 - 2 * sin w * p2 - 2 * (α * g) * e3
    · rw [← hw0, ← hα, ← hg, e2, hk]
      linear_combination (-2 * sin w) * p1 + 2 * cos w * p2
  · have hg1 : 0 < α * g - α / g := by
      have : 1 < g := by rw [hg, ← gainA_zero]; exact gainA_strictMono hdb
      have : α / g < α := div_lt_self hαp this
      nlinarith
    refine ⟨fun w h1 h2 => ?_, fun w h1 h2 => ?_⟩
    · exact sub_pos.2 (cross w _ _ hd hu (Real.sin_pos_of_pos_of_lt_pi h1 (h2.trans ha1)) (mul_pos hg1 (below w h1 h2)))
    · exact sub_neg.2 (cross w _ _ hu hd (Real.sin_pos_of_pos_of_lt_pi (ha0.trans h1) h2) (mul_pos_of_neg_of_neg (by linarith) (above w h1 h2)))
  · have hg1 : 0 < α / g - α * g := by
      have : g < 1 := by rw [hg, ← gainA_zero]; exact gainA_strictMono hdb
      have : α < α / g := by rw [lt_div_iff₀ hA]; nlinarith
      nlinarith
    refine ⟨fun w h1 h2 => ?_, fun w h1 h2 => ?_⟩
    · exact sub_neg.2 (cross w _ _ hu hd (Real.sin_pos_of_pos_of_lt_pi h1 (h2.trans ha1)) (mul_pos hg1 (below w h1 h2)))
    · exact sub_pos.2 (cross w _ _ hd hu (Real.sin_pos_of_pos_of_lt_pi (ha0.trans h1) h2) (mul_pos_of_neg_of_neg (by linarith) (above w h1 h2)))

/-- Parameters in range exist. -/
example : ValidParams 44100 1000 (1 / 2) := ⟨by norm_num, by norm_num, by norm_num⟩

end filters

end Rasp
