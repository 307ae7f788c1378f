import Verif.Props.Response

/-!
# C71: how much the rbj filters can amplify or attenuate any frequency
-/

namespace Rasp
open FloatOps Filter

variable {σ : Type} [Processor σ ℝ] {s : σ} {w lo hi lo' hi' : ℝ}

theorem GainWithin.mono (h : GainWithin s w lo hi) (h1 : lo' ≤ lo) (h2 : hi ≤ hi') : GainWithin s w lo' hi' := by
  obtain ⟨g, θ, hl, hh, hc⟩ := h
  exact ⟨g, θ, h1.trans hl, hh.trans h2, hc⟩

theorem SinusoidGain.within {H : ℂ} (h : SinusoidGain s w H) (h1 : lo ≤ ‖H‖) (h2 : ‖H‖ ≤ hi) : GainWithin s w lo hi :=
  ⟨‖H‖, H.arg, h1, h2, h⟩

/-- At Nyquist. -/
theorem Implements.nyquist {b0 b1 b2 a0 a1 a2 : ℝ} (hi : Implements s (b0 / a0) (b1 / a0) (b2 / a0) (a1 / a0) (a2 / a0))
    (h0 : a0 ≠ 0) (hs : StablePair (a1 / a0) (a2 / a0)) (hw : Real.cos (w / 2) = 0) {g : ℝ}
    (hg : g * (a0 - a1 + a2) = b0 - b1 + b2) : GainWithin s w g g := by
  have e : 2 * (w / 2) = w := by ring
  have ec := Real.cos_two_mul (w / 2)
  have es := Real.sin_two_mul (w / 2)
  rw [e, hw] at ec es
  have hc : Real.cos w = -1 := by rw [ec]; norm_num
  have hsn : Real.sin w = 0 := by rw [es]; ring
  refine ⟨g, 0, le_rfl, le_rfl, fun A φ => ?_⟩
  have := hi.sinusoid_div h0 hs g 0 (w := w) (by rw [Real.cos_two_mul, hc, hsn]; linear_combination hg)
    (by rw [Real.sin_two_mul, hsn]; ring) A φ
  convert this using 2
  rw [add_zero]; ring

theorem norm_div_le {N D : ℂ} {c : ℝ} (hc : 0 ≤ c) (h : Complex.normSq N ≤ c ^ 2 * Complex.normSq D) : ‖N / D‖ ≤ c := by
  rw [← abs_of_nonneg (norm_nonneg (N / D)), ← abs_of_nonneg hc, ← sq_le_sq, Complex.sq_norm, Complex.normSq_div]
  exact div_le_of_le_mul₀ (Complex.normSq_nonneg _) (sq_nonneg _) h

theorem le_norm_div {N D : ℂ} {c : ℝ} (hc : 0 ≤ c) (hD : D ≠ 0) (h : c ^ 2 * Complex.normSq D ≤ Complex.normSq N) :
    c ≤ ‖N / D‖ := by
  rw [← abs_of_nonneg (norm_nonneg (N / D)), ← abs_of_nonneg hc, ← sq_le_sq, Complex.sq_norm, Complex.normSq_div,
    le_div_iff₀ (Complex.normSq_pos.mpr hD)]
  exact h

/-! ## The prototypes on the imaginary axis -/

/-- `m s² + p s + n` at `s = i v`. -/
def quad (m p n v : ℝ) : ℂ := ⟨n - m * v ^ 2, p * v⟩

section
variable (m p n v : ℝ)

theorem quad_eq : (m : ℂ) * (Complex.I * (v : ℂ)) ^ 2 + (p : ℂ) * (Complex.I * (v : ℂ)) + n = quad m p n v := by
  apply Complex.ext
  · simp [pow_two, quad]; ring
  · simp [pow_two, quad]

theorem quad_normSq : Complex.normSq (quad m p n v) = (n - m * v ^ 2) ^ 2 + (p * v) ^ 2 := by
  rw [quad, Complex.normSq_mk]; ring

theorem quad_ne_zero {p n : ℝ} (hp : p ≠ 0) (hn : n ≠ 0) : quad m p n v ≠ 0 := by
  intro h
  have h1 := congrArg Complex.re h
  have h2 := congrArg Complex.im h
  simp only [quad, Complex.zero_re, Complex.zero_im] at h1 h2
  rcases mul_eq_zero.mp h2 with h3 | h3
  · exact hp h3
  · rw [h3] at h1; exact hn (by simpa using h1)

variable (q A R : ℝ)

theorem analogLowPass_eq : analogLowPass q (Complex.I * (v : ℂ)) = quad 0 0 1 v / quad 1 (1 / q) 1 v := by
  rw [analogLowPass, ← quad_eq, ← quad_eq]; push_cast; congr 1 <;> ring
theorem analogHighPass_eq : analogHighPass q (Complex.I * (v : ℂ)) = quad 1 0 0 v / quad 1 (1 / q) 1 v := by
  rw [analogHighPass, ← quad_eq, ← quad_eq]; push_cast; congr 1 <;> ring
theorem analogBandPass1_eq : analogBandPass1 q (Complex.I * (v : ℂ)) = quad 0 1 0 v / quad 1 (1 / q) 1 v := by
  rw [analogBandPass1, ← quad_eq, ← quad_eq]; push_cast; congr 1 <;> ring
theorem analogBandPass2_eq : analogBandPass2 q (Complex.I * (v : ℂ)) = quad 0 (1 / q) 0 v / quad 1 (1 / q) 1 v := by
  rw [analogBandPass2, ← quad_eq, ← quad_eq]; push_cast; congr 1 <;> ring
theorem analogBandStop_eq : analogBandStop q (Complex.I * (v : ℂ)) = quad 1 0 1 v / quad 1 (1 / q) 1 v := by
  rw [analogBandStop, ← quad_eq, ← quad_eq]; push_cast; congr 1 <;> ring
theorem analogAllPass_eq : analogAllPass q (Complex.I * (v : ℂ)) = quad 1 (-1 / q) 1 v / quad 1 (1 / q) 1 v := by
  rw [analogAllPass, ← quad_eq, ← quad_eq]; push_cast; congr 1 <;> ring
theorem analogPeak_eq : analogPeak q A (Complex.I * (v : ℂ)) = quad 1 (A / q) 1 v / quad 1 (1 / (A * q)) 1 v := by
  rw [analogPeak, ← quad_eq, ← quad_eq]; push_cast; congr 1 <;> ring
theorem analogLowShelf_eq : analogLowShelf A R (Complex.I * (v : ℂ)) =
    quad A (A * (Real.sqrt A * R)) (A ^ 2) v / quad A (Real.sqrt A * R) 1 v := by
  rw [analogLowShelf, ← quad_eq, ← quad_eq, ← mul_div_assoc]; push_cast; congr 1; ring
theorem analogHighShelf_eq : analogHighShelf A R (Complex.I * (v : ℂ)) =
    quad (A ^ 2) (A * (Real.sqrt A * R)) A v / quad 1 (Real.sqrt A * R) A v := by
  rw [analogHighShelf, ← quad_eq, ← quad_eq, ← mul_div_assoc]; push_cast; congr 1 <;> ring

end

/-- The largest gain of a second-order low-pass or high-pass filter with quality `q`. -/
noncomputable def resonance (q : ℝ) : ℝ := if 2 * q ^ 2 ≤ 1 then 1 else 2 * q ^ 2 / Real.sqrt (4 * q ^ 2 - 1)

section
variable {q A R v : ℝ}

theorem resonance_nonneg (q : ℝ) : 0 ≤ resonance q := by
  unfold resonance; split_ifs <;> positivity

theorem one_le_resonance (q : ℝ) : 1 ≤ resonance q := by
  unfold resonance
  split_ifs with h
  · exact le_rfl
  · have : 0 < 4 * q ^ 2 - 1 := by linarith
    rw [le_div_iff₀ (Real.sqrt_pos.mpr this), one_mul]
    apply Real.sqrt_le_iff.mpr
    exact ⟨by positivity, by nlinarith [sq_nonneg (2 * q ^ 2 - 1)]⟩

theorem resonance_bound (hq : 0 < q) (x : ℝ) (hx : 0 ≤ x) :
    1 ≤ resonance q ^ 2 * ((1 - x) ^ 2 + x / q ^ 2) ∧ x ^ 2 ≤ resonance q ^ 2 * ((1 - x) ^ 2 + x / q ^ 2) := by
  have hq2 : 0 < q ^ 2 := by positivity
  unfold resonance
  split_ifs with h
  · have h1 : 2 * x ≤ x / q ^ 2 := by
      rw [le_div_iff₀ hq2]; nlinarith
    constructor <;> nlinarith
  · have h2 : 0 < 4 * q ^ 2 - 1 := by linarith
    rw [div_pow, Real.sq_sqrt h2.le, div_mul_eq_mul_div]
    have e : (2 * q ^ 2) ^ 2 * ((1 - x) ^ 2 + x / q ^ 2) = 4 * q ^ 4 * (1 - x) ^ 2 + 4 * q ^ 2 * x := by
      field_simp
      ring
    rw [e]
    constructor
    · rw [le_div_iff₀ h2]; nlinarith [sq_nonneg (2 * q ^ 2 * (1 - x) - 1)]
    · rw [le_div_iff₀ h2]; nlinarith [sq_nonneg (2 * q ^ 2 * (1 - x) + x)]
end

section
variable {q A R : ℝ} (v : ℝ)

theorem norm_lowPass (hq : 0 < q) : ‖analogLowPass q (Complex.I * (v : ℂ))‖ ≤ resonance q := by
  rw [analogLowPass_eq]
  refine norm_div_le (resonance_nonneg q) ?_
  rw [quad_normSq, quad_normSq]
  convert (resonance_bound hq (v ^ 2) (sq_nonneg v)).1 using 2 <;> ring

theorem norm_highPass (hq : 0 < q) : ‖analogHighPass q (Complex.I * (v : ℂ))‖ ≤ resonance q := by
  rw [analogHighPass_eq]
  refine norm_div_le (resonance_nonneg q) ?_
  rw [quad_normSq, quad_normSq]
  convert (resonance_bound hq (v ^ 2) (sq_nonneg v)).2 using 2 <;> ring

theorem norm_bandPass1 (hq : 0 < q) : ‖analogBandPass1 q (Complex.I * (v : ℂ))‖ ≤ q := by
  rw [analogBandPass1_eq]
  refine norm_div_le hq.le ?_
  rw [quad_normSq, quad_normSq]
  have : q ^ 2 * ((1 - 1 * v ^ 2) ^ 2 + (1 / q * v) ^ 2) = q ^ 2 * (1 - v ^ 2) ^ 2 + v ^ 2 := by field_simp
  rw [this]
  nlinarith [mul_nonneg (sq_nonneg q) (sq_nonneg (1 - v ^ 2))]

theorem norm_bandPass2 : ‖analogBandPass2 q (Complex.I * (v : ℂ))‖ ≤ 1 := by
  rw [analogBandPass2_eq]
  refine norm_div_le zero_le_one ?_
  rw [quad_normSq, quad_normSq]
  nlinarith [sq_nonneg (1 - v ^ 2)]

theorem norm_bandStop : ‖analogBandStop q (Complex.I * (v : ℂ))‖ ≤ 1 := by
  rw [analogBandStop_eq]
  refine norm_div_le zero_le_one ?_
  rw [quad_normSq, quad_normSq]
  nlinarith [sq_nonneg (1 / q * v)]

theorem norm_allPass (hq : 0 < q) : ‖analogAllPass q (Complex.I * (v : ℂ))‖ = 1 := by
  rw [analogAllPass_eq]
  apply le_antisymm
  · refine norm_div_le zero_le_one (le_of_eq ?_)
    rw [quad_normSq, quad_normSq]; ring
  · refine le_norm_div zero_le_one (quad_ne_zero _ _ (by positivity) one_ne_zero) (le_of_eq ?_)
    rw [quad_normSq, quad_normSq]; ring

/-- Gains between 1 and `a`, on either side. -/
theorem norm_between {N D : ℂ} {a u u' : ℝ} (ha : 0 < a) (hD : D ≠ 0) (hu : 0 ≤ u) (hu' : 0 ≤ u')
    (h1 : Complex.normSq N - Complex.normSq D = (a - 1) * u)
    (h2 : a ^ 2 * Complex.normSq D - Complex.normSq N = (a - 1) * u') :
    min 1 a ≤ ‖N / D‖ ∧ ‖N / D‖ ≤ max 1 a := by
  rcases le_total a 1 with h | h
  · rw [min_eq_right h, max_eq_left h]
    refine ⟨le_norm_div ha.le hD ?_, norm_div_le zero_le_one ?_⟩ <;> nlinarith
  · rw [min_eq_left h, max_eq_right h]
    refine ⟨le_norm_div zero_le_one hD ?_, norm_div_le ha.le ?_⟩ <;> nlinarith

theorem norm_peak (hq : 0 < q) (hA : 0 < A) :
    min 1 (A ^ 2) ≤ ‖analogPeak q A (Complex.I * (v : ℂ))‖ ∧ ‖analogPeak q A (Complex.I * (v : ℂ))‖ ≤ max 1 (A ^ 2) := by
  rw [analogPeak_eq]
  refine norm_between (u := (A ^ 2 + 1) / A ^ 2 * (v / q) ^ 2) (u' := (A ^ 2 + 1) * (1 - v ^ 2) ^ 2) (by positivity)
    (quad_ne_zero _ _ (by positivity) one_ne_zero) (by positivity) (by positivity) ?_ ?_ <;>
  · rw [quad_normSq, quad_normSq]; field_simp; ring

theorem norm_lowShelf (hA : 0 < A) (hR : 0 < R) (hR2 : 2 ≤ R ^ 2) :
    min 1 (A ^ 2) ≤ ‖analogLowShelf A R (Complex.I * (v : ℂ))‖ ∧
    ‖analogLowShelf A R (Complex.I * (v : ℂ))‖ ≤ max 1 (A ^ 2) := by
  rw [analogLowShelf_eq]
  have hr := Real.sq_sqrt hA.le
  have hr0 := Real.sqrt_pos.mpr hA
  have hx := sq_nonneg v
  refine norm_between (u := A ^ 2 + 1 + A * v ^ 2 * (R ^ 2 - 2)) (u' := A ^ 2 * v ^ 2 * ((A ^ 2 + 1) * v ^ 2 + A * (R ^ 2 - 2)))
    (by positivity) (quad_ne_zero _ _ (by positivity) one_ne_zero) ?_ ?_ ?_ ?_
  · have : 0 ≤ A * v ^ 2 * (R ^ 2 - 2) := mul_nonneg (by positivity) (by linarith)
    positivity
  · have : 0 ≤ A * (R ^ 2 - 2) := mul_nonneg hA.le (by linarith)
    positivity
  · rw [quad_normSq, quad_normSq]; linear_combination (A ^ 2 - 1) * R ^ 2 * v ^ 2 * hr
  · rw [quad_normSq, quad_normSq]; linear_combination (A ^ 4 - A ^ 2) * R ^ 2 * v ^ 2 * hr

theorem norm_highShelf (hA : 0 < A) (hR : 0 < R) (hR2 : 2 ≤ R ^ 2) :
    min 1 (A ^ 2) ≤ ‖analogHighShelf A R (Complex.I * (v : ℂ))‖ ∧
    ‖analogHighShelf A R (Complex.I * (v : ℂ))‖ ≤ max 1 (A ^ 2) := by
  rw [analogHighShelf_eq]
  have hr := Real.sq_sqrt hA.le
  have hr0 := Real.sqrt_pos.mpr hA
  have hx := sq_nonneg v
  refine norm_between (u' := A ^ 2 * (A ^ 2 + 1 + A * v ^ 2 * (R ^ 2 - 2))) (u := v ^ 2 * ((A ^ 2 + 1) * v ^ 2 + A * (R ^ 2 - 2)))
    (by positivity) (quad_ne_zero _ _ (by positivity) hA.ne') ?_ ?_ ?_ ?_
  · have : 0 ≤ A * (R ^ 2 - 2) := mul_nonneg hA.le (by linarith)
    positivity
  · have : 0 ≤ A * v ^ 2 * (R ^ 2 - 2) := mul_nonneg (by positivity) (by linarith)
    positivity
  · rw [quad_normSq, quad_normSq]; linear_combination (A ^ 2 - 1) * R ^ 2 * v ^ 2 * hr
  · rw [quad_normSq, quad_normSq]; linear_combination (A ^ 4 - A ^ 2) * R ^ 2 * v ^ 2 * hr

theorem shelfInvQ_ge {S : ℝ} (hA : 0 < A) (h0 : 0 < S) (h1 : S ≤ 1) : 0 < shelfInvQ A S ∧ 2 ≤ shelfInvQ A S ^ 2 := by
  have h2 : 0 ≤ 1 / S - 1 := by rw [sub_nonneg, le_div_iff₀ h0]; linarith
  have h3 : 0 ≤ (A + 1 / A) * (1 / S - 1) := by positivity
  rw [shelfInvQ, Real.sq_sqrt (by linarith)]
  exact ⟨Real.sqrt_pos.mpr (by linarith), by linarith⟩
end

/-! ## C71 -/

section
variable {sr f q S : ℝ}

/-- **C71.** For valid parameters and every frequency: `BandPass2` and `BandStop` never amplify; `BandPass1` amplifies at
most by `q`; `LowPass` and `HighPass` at most by their resonance (1 up to `q = 1/√2`); `AllPass` keeps amplitudes; `Peak`
stays between unity and its gain. -/
theorem C71_gain_range (h : ValidParams sr f q) (w : ℝ) :
    (∀ s : LowPass ℝ, GainWithin (s.setCoefficients sr f q) w 0 (resonance q)) ∧
    (∀ s : HighPass ℝ, GainWithin (s.setCoefficients sr f q) w 0 (resonance q)) ∧
    (∀ s : BandPass1 ℝ, GainWithin (s.setCoefficients sr f q) w 0 q) ∧
    (∀ s : BandPass2 ℝ, GainWithin (s.setCoefficients sr f q) w 0 1) ∧
    (∀ s : BandStop ℝ, GainWithin (s.setCoefficients sr f q) w 0 1) ∧
    (∀ s : AllPass ℝ, GainWithin (s.setCoefficients sr f q) w 1 1) ∧
    (∀ (s : Peak ℝ) (db : ℝ), GainWithin (s.setCoefficients sr f db q) w (min 1 (dbFactor db)) (max 1 (dbFactor db))) := by
  have hq := h.2.2
  by_cases hw : Real.cos (w / 2) = 0
  · refine ⟨fun s => ?_, fun s => ?_, fun s => ?_, fun s => ?_, fun s => ?_, fun s => ?_, fun s db => ?_⟩
    · exact ((s.implements sr f q).nyquist h.den h.stableQ hw (g := 0) (by ring)).mono le_rfl (resonance_nonneg q)
    · exact ((s.implements sr f q).nyquist h.den h.stableQ hw (g := 1) (by ring)).mono zero_le_one (one_le_resonance q)
    · exact ((s.implements sr f q).nyquist h.den h.stableQ hw (g := 0) (by ring)).mono le_rfl hq.le
    · exact ((s.implements sr f q).nyquist h.den h.stableQ hw (g := 0) (by ring)).mono le_rfl zero_le_one
    · exact ((s.implements sr f q).nyquist h.den h.stableQ hw (g := 1) (by ring)).mono zero_le_one le_rfl
    · exact (s.implements sr f q).nyquist h.den h.stableQ hw (g := 1) (by ring)
    · exact ((s.implements sr f db q).nyquist (h.peak_den db) (h.stablePeak db) hw (g := 1) (by ring)).mono
        (min_le_left _ _) (le_max_left _ _)
  · obtain ⟨h1, h2, h3, h4, h5, h6, h7⟩ := C70_analog_prototypes h hw
    refine ⟨fun s => (h1 s).within (norm_nonneg _) (norm_lowPass _ hq), fun s => (h2 s).within (norm_nonneg _) (norm_highPass _ hq),
      fun s => (h3 s).within (norm_nonneg _) (norm_bandPass1 _ hq), fun s => (h4 s).within (norm_nonneg _) (norm_bandPass2 _),
      fun s => (h5 s).within (norm_nonneg _) (norm_bandStop _), fun s => (h6 s).within (norm_allPass _ hq).ge (norm_allPass _ hq).le,
      fun s db => ?_⟩
    have := norm_peak (Real.tan (w / 2) / Real.tan (angle sr f / 2)) hq (gainA_pos db)
    rw [gainA_sq] at this
    exact (h7 s db).within this.1 this.2

/-- **C71**, shelves: between unity and their gain at every frequency. -/
theorem C71_shelf_gain_range (h : ValidShelf sr f S) (w db : ℝ) :
    (∀ s : LowShelf ℝ, GainWithin (s.setCoefficients sr f db S) w (min 1 (dbFactor db)) (max 1 (dbFactor db))) ∧
    (∀ s : HighShelf ℝ, GainWithin (s.setCoefficients sr f db S) w (min 1 (dbFactor db)) (max 1 (dbFactor db))) := by
  obtain ⟨hR, hR2⟩ := shelfInvQ_ge (gainA_pos db) h.2.2.1 h.2.2.2
  rw [← gainA_sq]
  by_cases hw : Real.cos (w / 2) = 0
  · refine ⟨fun s => ?_, fun s => ?_⟩
    · exact ((s.implements sr f db S).nyquist (h.low_den db) (h.stableLow db) hw (g := 1) (by ring)).mono
        (min_le_left _ _) (le_max_left _ _)
    · exact ((s.implements sr f db S).nyquist (h.high_den db) (h.stableHigh db) hw (g := gainA db ^ 2) (by ring)).mono
        (min_le_right _ _) (le_max_right _ _)
  · obtain ⟨h1, h2⟩ := C70_analog_shelves h hw db
    refine ⟨fun s => (h1 s).within ?_ ?_, fun s => (h2 s).within ?_ ?_⟩
    · exact (norm_lowShelf _ (gainA_pos db) hR hR2).1
    · exact (norm_lowShelf _ (gainA_pos db) hR hR2).2
    · exact (norm_highShelf _ (gainA_pos db) hR hR2).1
    · exact (norm_highShelf _ (gainA_pos db) hR hR2).2

theorem resonance_sq (hq : 1 < 2 * q ^ 2) : resonance q ^ 2 = 4 * q ^ 4 / (4 * q ^ 2 - 1) := by
  rw [resonance, if_neg (by linarith), div_pow, Real.sq_sqrt (by linarith)]
  ring

theorem one_lt_resonance (hq : 1 < 2 * q ^ 2) : 1 < resonance q := by
  refine lt_of_pow_lt_pow_left₀ 2 (resonance_nonneg q) ?_
  rw [resonance_sq hq, one_pow, lt_div_iff₀ (by linarith)]
  nlinarith [sq_pos_of_pos (by linarith : 0 < 2 * q ^ 2 - 1)]

/-- A frequency for each point of the imaginary axis. -/
theorem exists_analogPoint (h : ValidParams sr f q) (v : ℝ) :
    ∃ w, Real.cos (w / 2) ≠ 0 ∧ analogPoint sr f w = Complex.I * (v : ℂ) := by
  refine ⟨2 * Real.arctan (Real.tan (angle sr f / 2) * v), ?_, ?_⟩
  · rw [mul_div_cancel_left₀ _ two_ne_zero]; exact (Real.cos_arctan_pos _).ne'
  · rw [analogPoint, mul_div_cancel_left₀ _ two_ne_zero, Real.tan_arctan, mul_div_cancel_left₀ _ (tan_half_pos h).ne']

/-- **C71**, sharp: with `q` above `1/√2` there is a frequency that `LowPass` amplifies by exactly its resonance, and one
for `HighPass`. -/
theorem C71_resonance_attained (h : ValidParams sr f q) (hq : 1 < 2 * q ^ 2) :
    1 < resonance q ∧
    (∃ w, ∀ s : LowPass ℝ, GainWithin (s.setCoefficients sr f q) w (resonance q) (resonance q)) ∧
    (∃ w, ∀ s : HighPass ℝ, GainWithin (s.setCoefficients sr f q) w (resonance q) (resonance q)) := by
  have hq0 := h.2.2
  have h4 : (4 * q ^ 2 - 1) ≠ 0 := by linarith
  have h2 : 0 < 2 * q ^ 2 - 1 := by linarith
  have hx : 0 < 1 - 1 / (2 * q ^ 2) := by
    rw [sub_pos, div_lt_one (by positivity)]; exact hq
  refine ⟨one_lt_resonance hq, ?_, ?_⟩
  · obtain ⟨w, hw, hp⟩ := exists_analogPoint h (Real.sqrt (1 - 1 / (2 * q ^ 2)))
    refine ⟨w, fun s => ((C70_analog_prototypes h hw).1 s).within ?_ ?_⟩
    · rw [hp, analogLowPass_eq]
      refine le_norm_div (resonance_nonneg q) (quad_ne_zero _ _ (by positivity) one_ne_zero) (le_of_eq ?_)
      rw [quad_normSq, quad_normSq, resonance_sq hq, mul_pow (1 / q), Real.sq_sqrt hx.le]
      field_simp
      ring
    · rw [hp]; exact norm_lowPass _ hq0
  · obtain ⟨w, hw, hp⟩ := exists_analogPoint h (Real.sqrt (1 - 1 / (2 * q ^ 2)))⁻¹
    refine ⟨w, fun s => ((C70_analog_prototypes h hw).2.1 s).within ?_ ?_⟩
    · rw [hp, analogHighPass_eq]
      refine le_norm_div (resonance_nonneg q) (quad_ne_zero _ _ (by positivity) one_ne_zero) (le_of_eq ?_)
      rw [quad_normSq, quad_normSq, resonance_sq hq, mul_pow (1 / q), inv_pow, Real.sq_sqrt hx.le]
      have e2 : ∃ d, 0 < d ∧ q ^ 2 = (d + 1) / 2 := ⟨2 * q ^ 2 - 1, h2, by ring⟩
      obtain ⟨d, hd, e2⟩ := e2
      have e3 : 1 - 1 / (2 * ((d + 1) / 2)) = d / (d + 1) := by field_simp; ring
      rw [show q ^ 4 = (q ^ 2) ^ 2 by ring, div_pow, one_pow, e2, e3]
      have : 4 * ((d + 1) / 2) - 1 = 2 * d + 1 := by ring
      rw [this]
      field_simp
      ring
    · rw [hp]; exact norm_highPass _ hq0

/-- **C71**: at the corner frequency, the shelves have half of their gain in dB. -/
theorem C71_shelf_corner (h : ValidShelf sr f S) (db : ℝ) :
    (∀ s : LowShelf ℝ, GainWithin (s.setCoefficients sr f db S) (angle sr f) (dbFactor (db / 2)) (dbFactor (db / 2))) ∧
    (∀ s : HighShelf ℝ, GainWithin (s.setCoefficients sr f db S) (angle sr f) (dbFactor (db / 2)) (dbFactor (db / 2))) := by
  have hA := gainA_pos db
  have hr := Real.sq_sqrt hA.le
  have hr0 := Real.sqrt_pos.mpr hA
  obtain ⟨hR, hR2⟩ := shelfInvQ_ge hA h.2.2.1 h.2.2.2
  have hg : dbFactor (db / 2) = gainA db := by rw [dbFactor, gainA]; congr 1; ring
  have hp : analogPoint sr f (angle sr f) = Complex.I * ((1 : ℝ) : ℂ) := by
    rw [analogPoint, div_self (tan_half_pos h.params).ne']
  rw [hg]
  obtain ⟨h1, h2⟩ := C70_analog_shelves h h.params.cos_half db
  rw [hp] at h1 h2
  refine ⟨fun s => (h1 s).within ?_ ?_, fun s => (h2 s).within ?_ ?_⟩
  · show gainA db ≤ ‖analogLowShelf (gainA db) (shelfInvQ (gainA db) S) _‖
    rw [analogLowShelf_eq]
    refine le_norm_div hA.le (quad_ne_zero _ _ (by positivity) one_ne_zero) (le_of_eq ?_)
    rw [quad_normSq, quad_normSq]; ring
  · show ‖analogLowShelf (gainA db) (shelfInvQ (gainA db) S) _‖ ≤ gainA db
    rw [analogLowShelf_eq]
    refine norm_div_le hA.le (le_of_eq ?_)
    rw [quad_normSq, quad_normSq]; ring
  · show gainA db ≤ ‖analogHighShelf (gainA db) (shelfInvQ (gainA db) S) _‖
    rw [analogHighShelf_eq]
    refine le_norm_div hA.le (quad_ne_zero _ _ (by positivity) hA.ne') (le_of_eq ?_)
    rw [quad_normSq, quad_normSq]; ring
  · show ‖analogHighShelf (gainA db) (shelfInvQ (gainA db) S) _‖ ≤ gainA db
    rw [analogHighShelf_eq]
    refine norm_div_le hA.le (le_of_eq ?_)
    rw [quad_normSq, quad_normSq]; ring
end

end Rasp
