import Verif.Spec.Bandwidth
import Verif.Props.Shape
import Mathlib.Analysis.SpecialFunctions.Arsinh
import Mathlib.Analysis.SpecialFunctions.Trigonometric.ArctanDeriv
import Mathlib.Analysis.Calculus.Deriv.Slope
import Mathlib.Analysis.Real.Pi.Bounds

/-!
# C103: Q and bandwidth

The comment in `/repo/src/filter/rbj/mod.rs` lines 8–17 gives two conversions: `1/Q = 2 sinh(ln(2)/2 BW)` for the analog prototype and
`1/Q = 2 sinh(ln(2)/2 BW w0/sin(w0))` for the digital filter.
-/

namespace Rasp
open FloatOps Filter
variable {σ : Type} [Processor σ ℝ] {s : σ}

/-- **C103**: the edges of a band are determined by the filter. -/
theorem C103_band_unique {p w1 w2 v1 v2 : ℝ} :
    (PassBand s p w1 w2 → PassBand s p v1 v2 → w1 = v1 ∧ w2 = v2) ∧
    (StopBand s p w1 w2 → StopBand s p v1 v2 → w1 = v1 ∧ w2 = v2) := by
  have key : ∀ {w1 w2 v1 v2 : ℝ}, 0 < w1 → w1 < w2 → w2 < Real.pi → 0 < v1 → v1 < v2 → v2 < Real.pi →
      (∀ w, 0 ≤ w → w ≤ Real.pi → ((w1 ≤ w ∧ w ≤ w2) ↔ (v1 ≤ w ∧ w ≤ v2))) → w1 = v1 ∧ w2 = v2 := by
    intro w1 w2 v1 v2 a1 a2 a3 b1 b2 b3 h
    have c1 := (h w1 a1.le (by linarith)).mp ⟨le_rfl, a2.le⟩
    have c2 := (h w2 (by linarith) a3.le).mp ⟨a2.le, le_rfl⟩
    have c3 := (h v1 b1.le (by linarith)).mpr ⟨le_rfl, b2.le⟩
    have c4 := (h v2 (by linarith) b3.le).mpr ⟨b2.le, le_rfl⟩
    exact ⟨le_antisymm c3.1 c1.1, le_antisymm c2.2 c4.2⟩
  constructor
  · rintro ⟨a1, a2, a3, ha⟩ ⟨b1, b2, b3, hb⟩
    refine key a1 a2 a3 b1 b2 b3 fun w h0 h1 => ?_
    obtain ⟨g, hg, e⟩ := ha w h0 h1
    obtain ⟨g', hg', e'⟩ := hb w h0 h1
    obtain rfl := hg.unique hg'
    exact e.symm.trans e'
  · rintro ⟨a1, a2, a3, ha⟩ ⟨b1, b2, b3, hb⟩
    refine key a1 a2 a3 b1 b2 b3 fun w h0 h1 => ?_
    obtain ⟨g, hg, e⟩ := ha w h0 h1
    obtain ⟨g', hg', e'⟩ := hb w h0 h1
    obtain rfl := hg.unique hg'
    exact e.symm.trans e'

/-- Ratio and difference over the geometric mean. -/
theorem two_sinh_half_log {t1 t2 k r : ℝ} (h1 : 0 < t1) (h2 : 0 < t2) (hk : 0 < k) (hm : t1 * t2 = k ^ 2) (hd : t2 - t1 = k * r) :
    2 * Real.sinh (Real.log 2 / 2 * octaves t1 t2) = r := by
  have e2 : Real.log 2 / 2 * octaves t1 t2 = Real.log (t2 / k) := by
    have hlog : Real.log 2 ≠ 0 := (Real.log_pos (by norm_num)).ne'
    have hr : t2 / t1 = (t2 / k) ^ 2 := by
      rw [div_pow, div_eq_div_iff h1.ne' (by positivity), ← hm]; ring
    unfold octaves Real.logb
    rw [hr, Real.log_pow]
    push_cast
    field_simp
  rw [e2, Real.sinh_eq, Real.exp_neg, Real.exp_log (by positivity), inv_div]
  have : k / t2 = t1 / k := by rw [div_eq_div_iff h2.ne' hk.ne']; linarith
  rw [this]
  field_simp
  linarith

section
variable {sr f q : ℝ}

theorem half_peak {c z r A G : ℝ} (hA0 : 0 < A ^ 2) (hA : 1 < A ^ 2) (hD : 0 < 1 * c ^ 2 + (r ^ 2 / A ^ 2 - 2) * c * z + 1 * z ^ 2)
    (hN : G * (1 * c ^ 2 + (r ^ 2 / A ^ 2 - 2) * c * z + 1 * z ^ 2) = 1 * c ^ 2 + (A ^ 2 * r ^ 2 - 2) * c * z + 1 * z ^ 2) :
    A ^ 2 ≤ G ↔ (c - z) ^ 2 ≤ r ^ 2 * (c * z) := by
  have e : A ^ 2 * (r ^ 2 / A ^ 2) = r ^ 2 := mul_div_cancel₀ _ hA0.ne'
  rw [← mul_le_mul_iff_left₀ hD, hN]
  have e' : (1 * c ^ 2 + (A ^ 2 * r ^ 2 - 2) * c * z + 1 * z ^ 2) - A ^ 2 * (1 * c ^ 2 + (r ^ 2 / A ^ 2 - 2) * c * z + 1 * z ^ 2) =
      (A ^ 2 - 1) * (r ^ 2 * (c * z) - (c - z) ^ 2) := by linear_combination (-(c * z)) * e
  rw [← sub_nonneg, e', mul_nonneg_iff_of_pos_left (by linarith), sub_nonneg]

theorem half_cut {c z r A G : ℝ} (hA0 : 0 < A ^ 2) (hA : A ^ 2 < 1) (hD : 0 < 1 * c ^ 2 + (r ^ 2 / A ^ 2 - 2) * c * z + 1 * z ^ 2)
    (hN : G * (1 * c ^ 2 + (r ^ 2 / A ^ 2 - 2) * c * z + 1 * z ^ 2) = 1 * c ^ 2 + (A ^ 2 * r ^ 2 - 2) * c * z + 1 * z ^ 2) :
    G ≤ A ^ 2 ↔ (c - z) ^ 2 ≤ r ^ 2 * (c * z) := by
  have e : A ^ 2 * (r ^ 2 / A ^ 2) = r ^ 2 := mul_div_cancel₀ _ hA0.ne'
  rw [← mul_le_mul_iff_left₀ hD, hN]
  have e' : A ^ 2 * (1 * c ^ 2 + (r ^ 2 / A ^ 2 - 2) * c * z + 1 * z ^ 2) - (1 * c ^ 2 + (A ^ 2 * r ^ 2 - 2) * c * z + 1 * z ^ 2) =
      (1 - A ^ 2) * (r ^ 2 * (c * z) - (c - z) ^ 2) := by linear_combination c * z * e
  rw [← sub_nonneg, e', mul_nonneg_iff_of_pos_left (by linarith), sub_nonneg]

/-- The band as the half tangents give it. -/
theorem band_edges (h : ValidParams sr f q) :
    ∃ w1 w2, 0 < w1 ∧ w1 < angle sr f ∧ angle sr f < w2 ∧ w2 < Real.pi ∧
      Real.tan (w1 / 2) * Real.tan (w2 / 2) = Real.tan (angle sr f / 2) ^ 2 ∧
      Real.tan (w2 / 2) - Real.tan (w1 / 2) = Real.tan (angle sr f / 2) * (1 / q) ∧
      (∀ s : BandPass1 ℝ, PassBand (s.setCoefficients sr f q) (q ^ 2 / 2) w1 w2) ∧
      (∀ s : BandPass2 ℝ, PassBand (s.setCoefficients sr f q) (1 / 2) w1 w2) ∧
      (∀ s : BandStop ℝ, StopBand (s.setCoefficients sr f q) (1 / 2) w1 w2) ∧
      (∀ (s : Peak ℝ) (db : ℝ), 0 < db → PassBand (s.setCoefficients sr f db q) (dbFactor db) w1 w2) ∧
      (∀ (s : Peak ℝ) (db : ℝ), db < 0 → StopBand (s.setCoefficients sr f db q) (dbFactor db) w1 w2) := by
  obtain ⟨w1, w2, h1, h2, h3, h4, hm, hd, hb⟩ := C86_bandwidth h
  obtain ⟨-, -, p1, p2, p3, p4⟩ := profile_q h
  have hq := h.2.2
  have h12 := h2.trans h3
  have hdb : ∀ db, dbFactor db = gainA db ^ 2 := by
    intro db
    rw [dbFactor, gainA, ← Real.rpow_natCast, ← Real.rpow_mul (by norm_num)]
    congr 1; push_cast; ring
  have key : ∀ w, 0 ≤ w → w ≤ Real.pi →
      ((cc w - ss (Real.tan (angle sr f / 2)) w) ^ 2 ≤ (1 / q) ^ 2 * (cc w * ss (Real.tan (angle sr f / 2)) w) ↔ w1 ≤ w ∧ w ≤ w2) := by
    intro w h0 h1
    obtain ⟨g, hg, hD, hN⟩ := p3 BandStop.new w
    rw [← ((hb w g h0 h1).2.2 _ hg)]
    have e : 1 / q ^ 2 = (1 / q) ^ 2 := by rw [div_pow, one_pow]
    rw [e] at hD hN
    exact (half_bandStop hD hN).symm
  have pk : ∀ (s : Peak ℝ) (db w : ℝ), ∃ g, HasGain (s.setCoefficients sr f db q) w g ∧
      0 < 1 * cc w ^ 2 + ((1 / q) ^ 2 / gainA db ^ 2 - 2) * cc w * ss (Real.tan (angle sr f / 2)) w + 1 * ss (Real.tan (angle sr f / 2)) w ^ 2 ∧
      g ^ 2 * (1 * cc w ^ 2 + ((1 / q) ^ 2 / gainA db ^ 2 - 2) * cc w * ss (Real.tan (angle sr f / 2)) w + 1 * ss (Real.tan (angle sr f / 2)) w ^ 2) =
        1 * cc w ^ 2 + (gainA db ^ 2 * (1 / q) ^ 2 - 2) * cc w * ss (Real.tan (angle sr f / 2)) w + 1 * ss (Real.tan (angle sr f / 2)) w ^ 2 := by
    intro s db w
    obtain ⟨g, hg, hD, hN⟩ := p4 s db w
    have hA := gainA_pos db
    have e1 : gainA db ^ 2 / q ^ 2 = gainA db ^ 2 * (1 / q) ^ 2 := by rw [div_pow, one_pow]; ring
    have e2 : 1 / (gainA db ^ 2 * q ^ 2) = (1 / q) ^ 2 / gainA db ^ 2 := by rw [div_pow, one_pow]; field_simp
    rw [e2] at hD hN
    rw [e1] at hN
    exact ⟨g, hg, hD, hN⟩
  refine ⟨w1, w2, h1, h2, h3, h4, hm, by rw [hd]; ring, fun s => ⟨h1, h12, h4, fun w a b => ?_⟩, fun s => ⟨h1, h12, h4, fun w a b => ?_⟩,
    fun s => ⟨h1, h12, h4, fun w a b => ?_⟩, fun s db hpos => ⟨h1, h12, h4, fun w a b => ?_⟩, fun s db hneg => ⟨h1, h12, h4, fun w a b => ?_⟩⟩
  · obtain ⟨g, hg, -⟩ := p1 s w
    exact ⟨g, hg, (hb w g a b).1 s hg⟩
  · obtain ⟨g, hg, -⟩ := p2 s w
    exact ⟨g, hg, (hb w g a b).2.1 s hg⟩
  · obtain ⟨g, hg, -⟩ := p3 s w
    exact ⟨g, hg, (hb w g a b).2.2 s hg⟩
  · obtain ⟨g, hg, hD, hN⟩ := pk s db w
    refine ⟨g, hg, ?_⟩
    rw [hdb, ← key w a b]
    have hA := gainA_pos db
    refine half_peak (by positivity) ?_ hD hN
    rw [← hdb, dbFactor]
    exact Real.one_lt_rpow (by norm_num) (by positivity)
  · obtain ⟨g, hg, hD, hN⟩ := pk s db w
    refine ⟨g, hg, ?_⟩
    rw [hdb, ← key w a b]
    have hA := gainA_pos db
    refine half_cut (by positivity) ?_ hD hN
    rw [← hdb, dbFactor]
    exact Real.rpow_lt_one_of_one_lt_of_neg (by norm_num) (by linarith)

theorem tan_half_pos_of {w : ℝ} (h0 : 0 < w) (h1 : w < Real.pi) : 0 < Real.tan (w / 2) :=
  Real.tan_pos_of_pos_of_lt_pi_div_two (by linarith) (by linarith)

/-- **C103**, the analog formula is exact on the scale of the prototype, `tan(w/2)`: the half-power bands of the band filters, and the bands where
`Peak` reaches half of its decibels, have the width in octaves that `1/Q = 2 sinh(ln(2)/2 BW)` says. -/
theorem C103_analog (h : ValidParams sr f q) :
    ∃ w1 w2, w1 < angle sr f ∧ angle sr f < w2 ∧
      1 / q = 2 * Real.sinh (Real.log 2 / 2 * octaves (Real.tan (w1 / 2)) (Real.tan (w2 / 2))) ∧
      (∀ s : BandPass1 ℝ, PassBand (s.setCoefficients sr f q) (q ^ 2 / 2) w1 w2) ∧
      (∀ s : BandPass2 ℝ, PassBand (s.setCoefficients sr f q) (1 / 2) w1 w2) ∧
      (∀ s : BandStop ℝ, StopBand (s.setCoefficients sr f q) (1 / 2) w1 w2) ∧
      (∀ (s : Peak ℝ) (db : ℝ), 0 < db → PassBand (s.setCoefficients sr f db q) (dbFactor db) w1 w2) ∧
      (∀ (s : Peak ℝ) (db : ℝ), db < 0 → StopBand (s.setCoefficients sr f db q) (dbFactor db) w1 w2) := by
  obtain ⟨w1, w2, h1, h2, h3, h4, hm, hd, hb⟩ := band_edges h
  have hw := angle_mem h
  exact ⟨w1, w2, h2, h3, (two_sinh_half_log (tan_half_pos_of h1 (by linarith)) (tan_half_pos_of (by linarith) h4) (tan_half_pos h) hm hd).symm, hb⟩

/-- **C103**, for example: at a quarter of the sample rate and `q = 1/2` the band is from `π/4` to `3π/4`. -/
theorem quarter_band {sr f : ℝ} (hf : 0 < f) (hsr : sr = 4 * f) (s : BandPass2 ℝ) :
    PassBand (s.setCoefficients sr f (1 / 2)) (1 / 2) (Real.pi / 4) (3 * Real.pi / 4) := by
  have h : ValidParams sr f (1 / 2) := ⟨hf, by rw [hsr]; linarith, by norm_num⟩
  obtain ⟨w1, w2, h1, h2, h3, h4, hm, hd, -, hb, -⟩ := band_edges h
  have ha : angle sr f = Real.pi / 2 := by unfold angle; rw [hsr]; field_simp; norm_num
  rw [ha, show Real.pi / 2 / 2 = Real.pi / 4 by ring, Real.tan_pi_div_four] at hm hd
  have hp := Real.pi_pos
  have t1 := tan_half_pos_of h1 (by rw [ha] at h2; linarith)
  have t2 := tan_half_pos_of (by linarith [(angle_mem h).1]) h4
  -- `tan (w1) = 1` and `w1 + w2 = π`
  have hsum : w2 = Real.pi - w1 := by
    have : Real.tan (w2 / 2) = Real.tan (Real.pi / 2 - w1 / 2) := by
      rw [Real.tan_pi_div_two_sub]
      field_simp
      linarith
    have hinj := Real.injOn_tan ⟨by linarith, by linarith⟩ ⟨by rw [ha] at h2; linarith, by linarith⟩ this
    linarith
  have hw1 : w1 = Real.pi / 4 := by
    have e : Real.tan (w1 / 2) = Real.tan (Real.pi / 8) := by
      have s2 := Real.sq_sqrt (show (0 : ℝ) ≤ 2 by norm_num)
      have s0 := Real.sqrt_nonneg 2
      have e8 : 0 < Real.tan (Real.pi / 8) := Real.tan_pos_of_pos_of_lt_pi_div_two (by linarith) (by linarith)
      have d8 : Real.tan (Real.pi / 8) ^ 2 + 2 * Real.tan (Real.pi / 8) = 1 := by
        have := Real.tan_two_mul (x := Real.pi / 8)
        rw [show 2 * (Real.pi / 8) = Real.pi / 4 by ring, Real.tan_pi_div_four] at this
        have hne : 1 - Real.tan (Real.pi / 8) ^ 2 ≠ 0 := by
          intro h0
          rw [h0, div_zero] at this
          norm_num at this
        rw [eq_div_iff hne] at this
        linarith
      have d1 : Real.tan (w1 / 2) ^ 2 + 2 * Real.tan (w1 / 2) = 1 := by
        have : Real.tan (w2 / 2) = Real.tan (w1 / 2) + 2 := by linarith
        rw [this] at hm
        linarith
      have : (Real.tan (w1 / 2) - Real.tan (Real.pi / 8)) * (Real.tan (w1 / 2) + Real.tan (Real.pi / 8) + 2) = 0 := by linarith
      rcases mul_eq_zero.mp this with h | h
      · linarith
      · linarith
    have hinj := Real.injOn_tan ⟨by linarith, by rw [ha] at h2; linarith⟩ ⟨by linarith, by linarith⟩ e
    linarith
  have := hb s
  rwa [hsum, hw1, show Real.pi - Real.pi / 4 = 3 * Real.pi / 4 by ring] at this

/-- **C103**, the digital formula is not exact: at a quarter of the sample rate the band of width `log₂ 3` octaves belongs to `q = 1/2`, for which
the formula gives a larger `q`. -/
theorem C103_digital_inexact {sr f : ℝ} (hf : 0 < f) (hsr : sr = 4 * f) :
    ∃ w1 w2, (∀ s : BandPass2 ℝ, PassBand (s.setCoefficients sr f (1 / 2)) (1 / 2) w1 w2) ∧
      2 * Real.sinh (Real.log 2 / 2 * octaves w1 w2 * angle sr f / Real.sin (angle sr f)) < 1 / (1 / 2) := by
  refine ⟨_, _, quarter_band hf hsr, ?_⟩
  have ha : angle sr f = Real.pi / 2 := by unfold angle; rw [hsr]; field_simp; norm_num
  have hp := Real.pi_pos
  have hlog : Real.log 2 ≠ 0 := (Real.log_pos (by norm_num)).ne'
  have hb : Real.log 2 / 2 * octaves (Real.pi / 4) (3 * Real.pi / 4) * angle sr f / Real.sin (angle sr f) = Real.pi / 4 * Real.log 3 := by
    unfold octaves Real.logb
    rw [ha, Real.sin_pi_div_two, show 3 * Real.pi / 4 / (Real.pi / 4) = 3 by field_simp]
    field_simp
    norm_num
  rw [hb]
  have h3 : 0 < Real.log 3 := Real.log_pos (by norm_num)
  have hlt : Real.pi / 4 * Real.log 3 < Real.arsinh 1 := by
    have e1 : Real.arsinh 1 = Real.log (1 + Real.sqrt 2) := by
      unfold Real.arsinh; norm_num
    rw [e1]
    have hs : (1.414 : ℝ) < Real.sqrt 2 := Real.lt_sqrt_of_sq_lt (by norm_num)
    have h5 : 4 * Real.log 3 < 5 * Real.log (1 + Real.sqrt 2) := by
      have a1 : 4 * Real.log 3 = Real.log (3 ^ 4) := by rw [Real.log_pow]; norm_num
      have a2 : 5 * Real.log (1 + Real.sqrt 2) = Real.log ((1 + Real.sqrt 2) ^ 5) := by rw [Real.log_pow]; norm_num
      rw [a1, a2]
      refine Real.log_lt_log (by norm_num) ?_
      have : (2.414 : ℝ) ^ 5 ≤ (1 + Real.sqrt 2) ^ 5 := pow_le_pow_left₀ (by norm_num) (by linarith) 5
      refine lt_of_lt_of_le ?_ this
      norm_num
    have h4 : Real.pi < 3.2 := by linarith [Real.pi_lt_d2]
    nlinarith
  have := Real.sinh_lt_sinh.mpr hlt
  rw [Real.sinh_arsinh] at this
  norm_num
  linarith

/-- The digital band as a function of the prototype's. -/
theorem digital_slope {w0 : ℝ} (h0 : 0 < w0) (h1 : w0 < Real.pi) :
    HasDerivAt (fun s : ℝ => (Real.log (2 * Real.arctan (Real.tan (w0 / 2) * Real.exp s)) -
      Real.log (2 * Real.arctan (Real.tan (w0 / 2) * Real.exp (-s)))) / 2 * w0 / Real.sin w0) 1 0 := by
  have hk := tan_half_pos_of h0 h1
  have hc : 0 < Real.cos (w0 / 2) := Real.cos_pos_of_mem_Ioo ⟨by linarith [Real.pi_pos], by linarith⟩
  have hs : 0 < Real.sin w0 := Real.sin_pos_of_pos_of_lt_pi h0 h1
  have harc : 2 * Real.arctan (Real.tan (w0 / 2)) = w0 := by
    rw [Real.arctan_tan (by linarith) (by linarith)]; ring
  have d1 : HasDerivAt (fun s : ℝ => Real.tan (w0 / 2) * Real.exp s) (Real.tan (w0 / 2)) 0 := by
    simpa using (Real.hasDerivAt_exp 0).const_mul (Real.tan (w0 / 2))
  have d2 : HasDerivAt (fun s : ℝ => Real.tan (w0 / 2) * Real.exp (-s)) (-Real.tan (w0 / 2)) 0 := by
    have := ((hasDerivAt_neg (0 : ℝ)).exp).const_mul (Real.tan (w0 / 2))
    simpa using this
  have hv : 2 * Real.arctan (Real.tan (w0 / 2) * Real.exp 0) ≠ 0 := by rw [Real.exp_zero, mul_one, harc]; exact h0.ne'
  have hv' : 2 * Real.arctan (Real.tan (w0 / 2) * Real.exp (-0)) ≠ 0 := by rw [neg_zero]; exact hv
  have l1 := ((d1.arctan).const_mul 2).log hv
  have l2 := ((d2.arctan).const_mul 2).log hv'
  refine ((((l1.sub l2).div_const 2).mul_const w0).div_const (Real.sin w0)).congr_deriv ?_
  rw [neg_zero, Real.exp_zero, mul_one, harc]
  have e : Real.sin w0 * (1 + Real.tan (w0 / 2) ^ 2) = 2 * Real.tan (w0 / 2) := by
    have h2 : Real.sin w0 = 2 * Real.sin (w0 / 2) * Real.cos (w0 / 2) := by rw [← Real.sin_two_mul]; congr 1; ring
    rw [h2, Real.tan_eq_sin_div_cos]
    field_simp
    linear_combination Real.sin (w0 / 2) * Real.sin_sq_add_cos_sq (w0 / 2)
  field_simp
  linarith

/-- **C103**, the digital formula is right in the limit of narrow bands: `q` times the `1/Q` it gives for the actual band tends to 1. -/
theorem C103_digital_limit (hf : 0 < f) (hsr : f < sr / 2) (s : BandPass2 ℝ) (w1 w2 : ℝ → ℝ)
    (h : ∀ q, 0 < q → PassBand (s.setCoefficients sr f q) (1 / 2) (w1 q) (w2 q)) :
    Tendsto (fun q => q * (2 * Real.sinh (Real.log 2 / 2 * octaves (w1 q) (w2 q) * angle sr f / Real.sin (angle sr f)))) atTop (nhds 1) := by
  obtain ⟨ha0, ha1⟩ := angle_mem (q := 1) ⟨hf, hsr, one_pos⟩
  have hk := tan_half_pos_of ha0 ha1
  set w0 := angle sr f with hw0
  set a : ℝ → ℝ := fun s => (Real.log (2 * Real.arctan (Real.tan (w0 / 2) * Real.exp s)) -
      Real.log (2 * Real.arctan (Real.tan (w0 / 2) * Real.exp (-s)))) / 2 * w0 / Real.sin w0 with ha
  have da : HasDerivAt a 1 0 := digital_slope ha0 ha1
  have a0 : a 0 = 0 := by simp [ha]
  have dsa : HasDerivAt (fun s => Real.sinh (a s)) 1 0 := by
    have := da.sinh
    rw [a0, Real.cosh_zero, one_mul] at this
    exact this
  have t1 := dsa.tendsto_slope_zero
  have t2 := (Real.hasDerivAt_sinh 0).tendsto_slope_zero
  simp only [zero_add, a0, Real.sinh_zero, sub_zero, smul_eq_mul, Real.cosh_zero] at t1 t2
  have t3 := t1.div t2 one_ne_zero
  rw [div_one] at t3
  -- the prototype's half width
  have hu : Tendsto (fun q : ℝ => Real.arsinh (1 / (2 * q))) atTop (nhdsWithin 0 {0}ᶜ) := by
    refine tendsto_nhdsWithin_iff.mpr ⟨?_, ?_⟩
    · have : Tendsto (fun q : ℝ => 1 / (2 * q)) atTop (nhds 0) := by
        have := (tendsto_inv_atTop_zero (𝕜 := ℝ)).const_mul (1 / 2)
        simp only [mul_zero] at this
        refine this.congr fun q => ?_
        rw [one_div, one_div, mul_inv]
      have h2 := (Real.continuous_arsinh.tendsto 0).comp this
      rwa [Real.arsinh_zero] at h2
    · filter_upwards [eventually_gt_atTop 0] with q hq
      simp only [Set.mem_compl_iff, Set.mem_singleton_iff, Real.arsinh_eq_zero_iff]
      positivity
  refine (t3.comp hu).congr' ?_
  filter_upwards [eventually_gt_atTop 0] with q hq
  have hv : ValidParams sr f q := ⟨hf, hsr, hq⟩
  obtain ⟨v1, v2, b1, b2, b3, b4, hm, hd, -, hb, -⟩ := band_edges hv
  obtain ⟨e1, e2⟩ := C103_band_unique.1 (h q hq) (hb s)
  rw [e1, e2]
  rw [← hw0] at hm hd b2 b3
  have g1 := tan_half_pos_of b1 (by linarith)
  have g2 := tan_half_pos_of (by linarith) b4
  set u := Real.arsinh (1 / (2 * q)) with hu'
  have hsu : Real.sinh u = 1 / (2 * q) := Real.sinh_arsinh _
  have hlog : Real.log 2 ≠ 0 := (Real.log_pos (by norm_num)).ne'
  -- half tangents
  have hx : Real.log (Real.tan (v2 / 2) / Real.tan (w0 / 2)) = u := by
    apply Real.sinh_injective
    rw [hsu, Real.sinh_eq, Real.exp_neg, Real.exp_log (by positivity), inv_div]
    have : Real.tan (w0 / 2) / Real.tan (v2 / 2) = Real.tan (v1 / 2) / Real.tan (w0 / 2) := by
      rw [div_eq_div_iff g2.ne' hk.ne']; linarith
    rw [this, ← sub_div, hd]
    field_simp
  have q2 : Real.tan (v2 / 2) = Real.tan (w0 / 2) * Real.exp u := by
    rw [← hx, Real.exp_log (by positivity)]; field_simp
  have q1 : Real.tan (v1 / 2) = Real.tan (w0 / 2) * Real.exp (-u) := by
    rw [Real.exp_neg]
    have := Real.exp_pos u
    rw [q2] at hm
    field_simp
    have : Real.tan (w0 / 2) * (Real.tan (v1 / 2) * Real.exp u) = Real.tan (w0 / 2) * Real.tan (w0 / 2) := by linarith
    exact mul_left_cancel₀ hk.ne' this
  have hp := Real.pi_pos
  have r1 : 2 * Real.arctan (Real.tan (w0 / 2) * Real.exp (-u)) = v1 := by
    rw [← q1, Real.arctan_tan (by linarith) (by linarith)]; ring
  have r2 : 2 * Real.arctan (Real.tan (w0 / 2) * Real.exp u) = v2 := by
    rw [← q2, Real.arctan_tan (by linarith) (by linarith)]; ring
  have hv1 : 0 < v1 := b1
  have hv2 : 0 < v2 := by linarith
  have harg : Real.log 2 / 2 * octaves v1 v2 * w0 / Real.sin w0 = a u := by
    simp only [ha, r1, r2]
    unfold octaves Real.logb
    rw [Real.log_div hv2.ne' hv1.ne']
    field_simp
  rw [harg]
  have hu0 : u ≠ 0 := by
    rw [hu', Ne, Real.arsinh_eq_zero_iff]; positivity
  simp only [Function.comp_apply, Pi.div_apply]
  rw [← hu', hsu]
  field_simp
end

/-- The parameters of the counterexample and of the limit exist: 11.025 kHz at 44.1 kHz, and any `q > 0` has its band. -/
example : (0 : ℝ) < 11025 ∧ (44100 : ℝ) = 4 * 11025 ∧ (11025 : ℝ) < 44100 / 2 ∧
    ∀ q : ℝ, 0 < q → ∃ w1 w2, PassBand ((BandPass2.new : BandPass2 ℝ).setCoefficients 44100 11025 q) (1 / 2) w1 w2 := by
  refine ⟨by norm_num, by norm_num, by norm_num, fun q hq => ?_⟩
  obtain ⟨w1, w2, -, -, -, -, h, -⟩ := C103_analog (sr := 44100) (f := 11025) (q := q) ⟨by norm_num, by norm_num, hq⟩
  exact ⟨w1, w2, h _⟩

end Rasp
