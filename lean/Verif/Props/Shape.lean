import Verif.Spec.Shape
import Verif.Props.GainRange

/-!
# C86: the shape of the gain of the rbj filters over the frequency
-/

namespace Rasp
open FloatOps Filter

variable {σ : Type} [Processor σ ℝ] {s : σ} {w g g' : ℝ}

/-- Two amplitudes and phases whose difference dies out are the same. -/
theorem sinusoid_unique {θ θ' : ℝ}
    (h : ∀ φ : ℝ, Tendsto (fun n : ℕ => g * Real.cos (w * n + φ + θ) - g' * Real.cos (w * n + φ + θ')) atTop (nhds 0)) :
    g * Real.cos θ = g' * Real.cos θ' ∧ g * Real.sin θ = g' * Real.sin θ' := by
  have h1 := h 0
  have h2 := h (Real.pi / 2)
  have h3 := (h1.mul h1).add (h2.mul h2)
  simp only [mul_zero, add_zero] at h3
  have e : ∀ n : ℕ, (g * Real.cos (w * n + θ) - g' * Real.cos (w * n + θ')) * (g * Real.cos (w * n + θ) - g' * Real.cos (w * n + θ')) +
      (g * Real.cos (w * n + Real.pi / 2 + θ) - g' * Real.cos (w * n + Real.pi / 2 + θ')) *
      (g * Real.cos (w * n + Real.pi / 2 + θ) - g' * Real.cos (w * n + Real.pi / 2 + θ')) =
      (g * Real.cos θ - g' * Real.cos θ') ^ 2 + (g * Real.sin θ - g' * Real.sin θ') ^ 2 := by
    intro n
    rw [show w * n + Real.pi / 2 + θ = (w * n + θ) + Real.pi / 2 by ring, show w * n + Real.pi / 2 + θ' = (w * n + θ') + Real.pi / 2 by ring,
      Real.cos_add_pi_div_two, Real.cos_add_pi_div_two, Real.cos_add, Real.cos_add, Real.sin_add, Real.sin_add]
    have := Real.sin_sq_add_cos_sq (w * n)
    linear_combination ((g * Real.cos θ - g' * Real.cos θ') ^ 2 + (g * Real.sin θ - g' * Real.sin θ') ^ 2) * this
  have h4 : (g * Real.cos θ - g' * Real.cos θ') ^ 2 + (g * Real.sin θ - g' * Real.sin θ') ^ 2 = 0 := by
    exact tendsto_nhds_unique tendsto_const_nhds (h3.congr e)
  constructor <;> nlinarith [sq_nonneg (g * Real.cos θ - g' * Real.cos θ'), sq_nonneg (g * Real.sin θ - g' * Real.sin θ')]

/-- The gain is well defined. -/
theorem HasGain.unique (h : HasGain s w g) (h' : HasGain s w g') : g = g' := by
  obtain ⟨h0, θ, hc⟩ := h
  obtain ⟨h0', θ', hc'⟩ := h'
  have key := sinusoid_unique (w := w) (g := g) (g' := g') (θ := θ) (θ' := θ') fun φ => by
    obtain ⟨y, hy⟩ := (hc 1 φ).1 ⟨true⟩ (fun n => 1 * Real.cos (w * n + φ))
    have h1 := (hc 1 φ).2 _ y hy
    have h2 := (hc' 1 φ).2 _ y hy
    have := h2.sub h1
    simp only [sub_zero] at this
    refine this.congr fun n => ?_
    ring
  have e : g ^ 2 = g' ^ 2 := by
    have h1 := Real.sin_sq_add_cos_sq θ
    have h2 := Real.sin_sq_add_cos_sq θ'
    have : (g * Real.cos θ) ^ 2 + (g * Real.sin θ) ^ 2 = (g' * Real.cos θ') ^ 2 + (g' * Real.sin θ') ^ 2 := by rw [key.1, key.2]
    linear_combination this - g ^ 2 * h1 + g' ^ 2 * h2
  exact (pow_left_inj₀ h0 h0' two_ne_zero).mp e

theorem HasGain.of_within (h : GainWithin s w g g) (h0 : 0 ≤ g) : HasGain s w g := by
  obtain ⟨g', θ, h1, h2, hc⟩ := h
  obtain rfl := le_antisymm h2 h1
  exact ⟨h0, θ, hc⟩

/-! ## Gains that are ratios of quadratic forms in `cos²(w/2)` and `sin²(w/2)/k²` -/

noncomputable def cc (w : ℝ) : ℝ := Real.cos (w / 2) ^ 2
noncomputable def ss (k w : ℝ) : ℝ := Real.sin (w / 2) ^ 2 / k ^ 2

theorem cc_nonneg (w : ℝ) : 0 ≤ cc w := sq_nonneg _
theorem ss_nonneg (k w : ℝ) : 0 ≤ ss k w := by unfold ss; positivity

/-- The square of the gain is `(n0 c² + n1 c s + n2 s²)/(d0 c² + d1 c s + d2 s²)`. -/
def Profile (s : σ) (k n0 n1 n2 d0 d1 d2 : ℝ) : Prop :=
  ∀ w, ∃ g, HasGain s w g ∧ 0 < d0 * cc w ^ 2 + d1 * cc w * ss k w + d2 * ss k w ^ 2 ∧
    g ^ 2 * (d0 * cc w ^ 2 + d1 * cc w * ss k w + d2 * ss k w ^ 2) = n0 * cc w ^ 2 + n1 * cc w * ss k w + n2 * ss k w ^ 2

theorem cross_pos {k w1 w2 : ℝ} (hk : 0 < k) (h0 : 0 ≤ w1) (h : w1 < w2) (h1 : w2 ≤ Real.pi) :
    0 < cc w1 * ss k w2 - cc w2 * ss k w1 := by
  have e : cc w1 * ss k w2 - cc w2 * ss k w1 = Real.sin ((w2 - w1) / 2) * Real.sin ((w1 + w2) / 2) / k ^ 2 := by
    rw [show (w2 - w1) / 2 = w2 / 2 - w1 / 2 by ring, show (w1 + w2) / 2 = w2 / 2 + w1 / 2 by ring, Real.sin_sub, Real.sin_add, cc, cc, ss, ss]
    ring
  rw [e]
  have p1 : 0 < Real.sin ((w2 - w1) / 2) := Real.sin_pos_of_pos_of_lt_pi (by linarith) (by linarith)
  have p2 : 0 < Real.sin ((w1 + w2) / 2) := Real.sin_pos_of_pos_of_lt_pi (by linarith) (by linarith)
  positivity

theorem cross_nonneg {k w1 w2 : ℝ} (hk : 0 < k) (h0 : 0 ≤ w1) (h : w1 ≤ w2) (h1 : w2 ≤ Real.pi) :
    cc w2 * ss k w1 ≤ cc w1 * ss k w2 := by
  rcases h.eq_or_lt with rfl | h
  · exact le_rfl
  · linarith [cross_pos hk h0 h h1]

section
variable {k n0 n1 n2 d0 d1 d2 : ℝ}

/-- Where the determinant is negative the gain rises. -/
theorem Profile.rises {I : Set ℝ} (hp : Profile s k n0 n1 n2 d0 d1 d2) (hk : 0 < k) (hI : I ⊆ Set.Icc 0 Real.pi)
    (h : ∀ w1 ∈ I, ∀ w2 ∈ I, w1 < w2 → 0 < cc w1 * ss k w2 - cc w2 * ss k w1 →
      (n0 * d1 - n1 * d0) * (cc w1 * cc w2) + (n0 * d2 - n2 * d0) * (cc w1 * ss k w2 + cc w2 * ss k w1) +
        (n1 * d2 - n2 * d1) * (ss k w1 * ss k w2) < 0) : Rises s I := by
  choose g hg hD hN using hp
  refine ⟨g, fun w _ => hg w, fun w1 h1 w2 h2 hlt => ?_⟩
  have hc := cross_pos hk (hI h1).1 hlt (hI h2).2
  have hd := h w1 h1 w2 h2 hlt hc
  refine lt_of_pow_lt_pow_left₀ 2 (hg w2).1 ?_
  have e : (g w1 ^ 2 - g w2 ^ 2) * ((d0 * cc w1 ^ 2 + d1 * cc w1 * ss k w1 + d2 * ss k w1 ^ 2) *
      (d0 * cc w2 ^ 2 + d1 * cc w2 * ss k w2 + d2 * ss k w2 ^ 2)) = (cc w1 * ss k w2 - cc w2 * ss k w1) *
      ((n0 * d1 - n1 * d0) * (cc w1 * cc w2) + (n0 * d2 - n2 * d0) * (cc w1 * ss k w2 + cc w2 * ss k w1) +
        (n1 * d2 - n2 * d1) * (ss k w1 * ss k w2)) := by
    linear_combination (d0 * cc w2 ^ 2 + d1 * cc w2 * ss k w2 + d2 * ss k w2 ^ 2) * hN w1 -
      (d0 * cc w1 ^ 2 + d1 * cc w1 * ss k w1 + d2 * ss k w1 ^ 2) * hN w2
  have hDD := mul_pos (hD w1) (hD w2)
  have := mul_neg_of_pos_of_neg hc hd
  rw [← e] at this
  by_contra hcon
  have : 0 ≤ (g w1 ^ 2 - g w2 ^ 2) * ((d0 * cc w1 ^ 2 + d1 * cc w1 * ss k w1 + d2 * ss k w1 ^ 2) *
      (d0 * cc w2 ^ 2 + d1 * cc w2 * ss k w2 + d2 * ss k w2 ^ 2)) := mul_nonneg (by linarith) hDD.le
  linarith

/-- Where the determinant is positive the gain falls. -/
theorem Profile.falls {I : Set ℝ} (hp : Profile s k n0 n1 n2 d0 d1 d2) (hk : 0 < k) (hI : I ⊆ Set.Icc 0 Real.pi)
    (h : ∀ w1 ∈ I, ∀ w2 ∈ I, w1 < w2 → 0 < cc w1 * ss k w2 - cc w2 * ss k w1 →
      0 < (n0 * d1 - n1 * d0) * (cc w1 * cc w2) + (n0 * d2 - n2 * d0) * (cc w1 * ss k w2 + cc w2 * ss k w1) +
        (n1 * d2 - n2 * d1) * (ss k w1 * ss k w2)) : Falls s I := by
  choose g hg hD hN using hp
  refine ⟨g, fun w _ => hg w, fun w1 h1 w2 h2 hlt => ?_⟩
  have hc := cross_pos hk (hI h1).1 hlt (hI h2).2
  have hd := h w1 h1 w2 h2 hlt hc
  refine lt_of_pow_lt_pow_left₀ 2 (hg w1).1 ?_
  have e : (g w1 ^ 2 - g w2 ^ 2) * ((d0 * cc w1 ^ 2 + d1 * cc w1 * ss k w1 + d2 * ss k w1 ^ 2) *
      (d0 * cc w2 ^ 2 + d1 * cc w2 * ss k w2 + d2 * ss k w2 ^ 2)) = (cc w1 * ss k w2 - cc w2 * ss k w1) *
      ((n0 * d1 - n1 * d0) * (cc w1 * cc w2) + (n0 * d2 - n2 * d0) * (cc w1 * ss k w2 + cc w2 * ss k w1) +
        (n1 * d2 - n2 * d1) * (ss k w1 * ss k w2)) := by
    linear_combination (d0 * cc w2 ^ 2 + d1 * cc w2 * ss k w2 + d2 * ss k w2 ^ 2) * hN w1 -
      (d0 * cc w1 ^ 2 + d1 * cc w1 * ss k w1 + d2 * ss k w1 ^ 2) * hN w2
  have hDD := mul_pos (hD w1) (hD w2)
  have := mul_pos hc hd
  rw [← e] at this
  by_contra hcon
  have : (g w1 ^ 2 - g w2 ^ 2) * ((d0 * cc w1 ^ 2 + d1 * cc w1 * ss k w1 + d2 * ss k w1 ^ 2) *
      (d0 * cc w2 ^ 2 + d1 * cc w2 * ss k w2 + d2 * ss k w2 ^ 2)) ≤ 0 := mul_nonpos_of_nonpos_of_nonneg (by linarith) hDD.le
  linarith
end

/-- From the prototype on the imaginary axis and the gain at Nyquist. -/
theorem profile_of {k m p n m' p' n' : ℝ} (hk : 0 < k) (hp' : p' ≠ 0) (hn' : n' ≠ 0) (hm' : m' ≠ 0)
    (h : ∀ w, Real.cos (w / 2) ≠ 0 → SinusoidGain s w (quad m p n (Real.tan (w / 2) / k) / quad m' p' n' (Real.tan (w / 2) / k)))
    (g : ℝ) (hg : 0 ≤ g) (hgm : g ^ 2 * m' ^ 2 = m ^ 2) (hny : ∀ w, Real.cos (w / 2) = 0 → GainWithin s w g g) :
    Profile s k (n ^ 2) (p ^ 2 - 2 * m * n) (m ^ 2) (n' ^ 2) (p' ^ 2 - 2 * m' * n') (m' ^ 2) := by
  intro w
  by_cases hw : Real.cos (w / 2) = 0
  · have hs : Real.sin (w / 2) ^ 2 = 1 := by have := Real.sin_sq_add_cos_sq (w / 2); rw [hw] at this; linarith
    refine ⟨g, .of_within (hny w hw) hg, ?_, ?_⟩
    · simp only [cc, ss, hw, hs]
      have : 0 < m' ^ 2 := by positivity
      have : 0 < m' ^ 2 * (1 / k ^ 2) ^ 2 := by positivity
      linarith
    · simp only [cc, ss, hw, hs]; linear_combination (1 / k ^ 2) ^ 2 * hgm
  · have e : ∀ m p n : ℝ, n ^ 2 * cc w ^ 2 + (p ^ 2 - 2 * m * n) * cc w * ss k w + m ^ 2 * ss k w ^ 2 =
        Complex.normSq (quad m p n (Real.tan (w / 2) / k)) * cc w ^ 2 := by
      intro m p n
      have : ss k w = (Real.tan (w / 2) / k) ^ 2 * cc w := by
        rw [ss, cc, Real.tan_eq_sin_div_cos]; field_simp
      rw [this, quad_normSq]; ring
    have hc : 0 < cc w := by unfold cc; positivity
    have hq := quad_ne_zero m' (Real.tan (w / 2) / k) hp' hn'
    have hqp := Complex.normSq_pos.mpr hq
    refine ⟨_, ⟨norm_nonneg _, _, h w hw⟩, ?_, ?_⟩
    · rw [e]; positivity
    · rw [e, e, Complex.sq_norm, Complex.normSq_div]; field_simp

/-! ## The profiles of the rbj filters -/

section
variable {sr f q S : ℝ}

theorem profile_q (h : ValidParams sr f q) :
    (∀ s : LowPass ℝ, Profile (s.setCoefficients sr f q) (Real.tan (angle sr f / 2)) 1 0 0 1 (1 / q ^ 2 - 2) 1) ∧
    (∀ s : HighPass ℝ, Profile (s.setCoefficients sr f q) (Real.tan (angle sr f / 2)) 0 0 1 1 (1 / q ^ 2 - 2) 1) ∧
    (∀ s : BandPass1 ℝ, Profile (s.setCoefficients sr f q) (Real.tan (angle sr f / 2)) 0 1 0 1 (1 / q ^ 2 - 2) 1) ∧
    (∀ s : BandPass2 ℝ, Profile (s.setCoefficients sr f q) (Real.tan (angle sr f / 2)) 0 (1 / q ^ 2) 0 1 (1 / q ^ 2 - 2) 1) ∧
    (∀ s : BandStop ℝ, Profile (s.setCoefficients sr f q) (Real.tan (angle sr f / 2)) 1 (-2) 1 1 (1 / q ^ 2 - 2) 1) ∧
    (∀ (s : Peak ℝ) (db : ℝ), Profile (s.setCoefficients sr f db q) (Real.tan (angle sr f / 2))
      1 (gainA db ^ 2 / q ^ 2 - 2) 1 1 (1 / (gainA db ^ 2 * q ^ 2) - 2) 1) := by
  have hk := tan_half_pos h
  have hq := h.2.2
  have h1q : (1 / q) ≠ 0 := by positivity
  refine ⟨fun s => ?_, fun s => ?_, fun s => ?_, fun s => ?_, fun s => ?_, fun s db => ?_⟩
  · have := profile_of (s := s.setCoefficients sr f q) hk h1q one_ne_zero one_ne_zero (m := 0) (p := 0) (n := 1)
      (fun w hw => by rw [← analogLowPass_eq]; exact (C70_analog_prototypes h hw).1 s) 0 le_rfl (by ring)
      (fun w hw => (s.implements sr f q).nyquist h.den h.stableQ hw (by ring))
    convert this using 1 <;> ring
  · have := profile_of (s := s.setCoefficients sr f q) hk h1q one_ne_zero one_ne_zero (m := 1) (p := 0) (n := 0)
      (fun w hw => by rw [← analogHighPass_eq]; exact (C70_analog_prototypes h hw).2.1 s) 1 zero_le_one (by ring)
      (fun w hw => (s.implements sr f q).nyquist h.den h.stableQ hw (by ring))
    convert this using 1 <;> ring
  · have := profile_of (s := s.setCoefficients sr f q) hk h1q one_ne_zero one_ne_zero (m := 0) (p := 1) (n := 0)
      (fun w hw => by rw [← analogBandPass1_eq]; exact (C70_analog_prototypes h hw).2.2.1 s) 0 le_rfl (by ring)
      (fun w hw => (s.implements sr f q).nyquist h.den h.stableQ hw (by ring))
    convert this using 1 <;> ring
  · have := profile_of (s := s.setCoefficients sr f q) hk h1q one_ne_zero one_ne_zero (m := 0) (p := 1 / q) (n := 0)
      (fun w hw => by rw [← analogBandPass2_eq]; exact (C70_analog_prototypes h hw).2.2.2.1 s) 0 le_rfl (by ring)
      (fun w hw => (s.implements sr f q).nyquist h.den h.stableQ hw (by ring))
    convert this using 1 <;> ring
  · have := profile_of (s := s.setCoefficients sr f q) hk h1q one_ne_zero one_ne_zero (m := 1) (p := 0) (n := 1)
      (fun w hw => by rw [← analogBandStop_eq]; exact (C70_analog_prototypes h hw).2.2.2.2.1 s) 1 zero_le_one (by ring)
      (fun w hw => (s.implements sr f q).nyquist h.den h.stableQ hw (by ring))
    convert this using 1 <;> ring
  · have hA := gainA_pos db
    have := profile_of (s := s.setCoefficients sr f db q) hk (p' := 1 / (gainA db * q)) (by positivity) one_ne_zero one_ne_zero (m := 1)
      (p := gainA db / q) (n := 1) (fun w hw => by rw [← analogPeak_eq]; exact (C70_analog_prototypes h hw).2.2.2.2.2.2 s db) 1 zero_le_one (by ring)
      (fun w hw => (s.implements sr f db q).nyquist (h.peak_den db) (h.stablePeak db) hw (by ring))
    convert this using 1 <;> field_simp

theorem profile_shelf (h : ValidShelf sr f S) (db : ℝ) :
    (∀ s : LowShelf ℝ, Profile (s.setCoefficients sr f db S) (Real.tan (angle sr f / 2))
      (gainA db ^ 4) (gainA db ^ 2 * ((gainA db ^ 2 + 1) * (1 / S - 1))) (gainA db ^ 2) 1 ((gainA db ^ 2 + 1) * (1 / S - 1)) (gainA db ^ 2)) ∧
    (∀ s : HighShelf ℝ, Profile (s.setCoefficients sr f db S) (Real.tan (angle sr f / 2))
      (gainA db ^ 2) (gainA db ^ 2 * ((gainA db ^ 2 + 1) * (1 / S - 1))) (gainA db ^ 4) (gainA db ^ 2) ((gainA db ^ 2 + 1) * (1 / S - 1)) 1) := by
  have hk := tan_half_pos h.params
  have hA := gainA_pos db
  have hr := Real.sq_sqrt hA.le
  have hr0 := Real.sqrt_pos.mpr hA
  obtain ⟨hR, hR2⟩ := shelfInvQ_ge hA h.2.2.1 h.2.2.2
  have hpp : (Real.sqrt (gainA db) * shelfInvQ (gainA db) S) ^ 2 = (gainA db ^ 2 + 1) * (1 / S - 1) + 2 * gainA db := by
    have h2 : 0 ≤ 1 / S - 1 := by rw [sub_nonneg, le_div_iff₀ h.2.2.1]; linarith [h.2.2.2]
    have h3 : 0 ≤ (gainA db + 1 / gainA db) * (1 / S - 1) := by positivity
    rw [mul_pow, hr, shelfInvQ, Real.sq_sqrt (by linarith)]
    have := h.2.2.1
    field_simp
  refine ⟨fun s => ?_, fun s => ?_⟩
  · have := profile_of (s := s.setCoefficients sr f db S) hk (p' := Real.sqrt (gainA db) * shelfInvQ (gainA db) S) (by positivity)
      one_ne_zero hA.ne' (m := gainA db) (p := gainA db * (Real.sqrt (gainA db) * shelfInvQ (gainA db) S)) (n := gainA db ^ 2)
      (fun w hw => by rw [← analogLowShelf_eq]; exact (C70_analog_shelves h hw db).1 s) 1 zero_le_one (by ring)
      (fun w hw => (s.implements sr f db S).nyquist (h.low_den db) (h.stableLow db) hw (by ring))
    rw [mul_pow, hpp] at this
    convert this using 1 <;> ring
  · have := profile_of (s := s.setCoefficients sr f db S) hk (p' := Real.sqrt (gainA db) * shelfInvQ (gainA db) S) (by positivity)
      hA.ne' one_ne_zero (m := gainA db ^ 2) (p := gainA db * (Real.sqrt (gainA db) * shelfInvQ (gainA db) S)) (n := gainA db)
      (fun w hw => by rw [← analogHighShelf_eq]; exact (C70_analog_shelves h hw db).2 s) (gainA db ^ 2) (by positivity) (by ring)
      (fun w hw => (s.implements sr f db S).nyquist (h.high_den db) (h.stableHigh db) hw (by ring))
    rw [mul_pow, hpp] at this
    convert this using 1 <;> ring

/-! ## C86 -/

theorem angle_mem (h : ValidParams sr f q) : 0 < angle sr f ∧ angle sr f < Real.pi := by
  obtain ⟨h1, h2, _⟩ := h
  have hsr : 0 < sr := by linarith
  have hp := Real.pi_pos
  unfold angle
  refine ⟨by positivity, ?_⟩
  rw [div_lt_iff₀ hsr]
  nlinarith

theorem cc_pos {w : ℝ} (h0 : 0 ≤ w) (h1 : w < Real.pi) : 0 < cc w := by
  unfold cc
  have : 0 < Real.cos (w / 2) := Real.cos_pos_of_mem_Ioo ⟨by linarith [Real.pi_pos], by linarith⟩
  positivity

theorem ss_eq {k w : ℝ} (h0 : 0 ≤ w) (h1 : w < Real.pi) : ss k w = Real.tan (w / 2) ^ 2 / k ^ 2 * cc w := by
  have : 0 < Real.cos (w / 2) := Real.cos_pos_of_mem_Ioo ⟨by linarith [Real.pi_pos], by linarith⟩
  rw [ss, cc, Real.tan_eq_sin_div_cos]
  field_simp

/-- Below the angle with `tan²(p/2) = x k²`, `sin²(w/2)/k²` is at most `x cos²(w/2)`. -/
theorem below_peak {k x p w : ℝ} (hk : 0 < k) (hp0 : 0 ≤ p) (hp1 : p < Real.pi) (hx : Real.tan (p / 2) ^ 2 = x * k ^ 2)
    (h0 : 0 ≤ w) (h : w ≤ p) : ss k w ≤ x * cc w := by
  have h1 := cross_nonneg hk h0 h hp1.le
  have h2 := cc_pos hp0 hp1
  rw [ss_eq hp0 hp1, hx, mul_div_cancel_right₀ _ (by positivity)] at h1
  refine le_of_mul_le_mul_left (h1.trans (le_of_eq ?_)) h2
  ring

theorem above_peak {k x p w : ℝ} (hk : 0 < k) (hp0 : 0 ≤ p) (hp1 : p < Real.pi) (hx : Real.tan (p / 2) ^ 2 = x * k ^ 2)
    (h0 : w ≤ Real.pi) (h : p ≤ w) : x * cc w ≤ ss k w := by
  have h1 := cross_nonneg hk hp0 h h0
  have h2 := cc_pos hp0 hp1
  rw [ss_eq hp0 hp1, hx, mul_div_cancel_right₀ _ (by positivity)] at h1
  refine le_of_mul_le_mul_left (le_trans (le_of_eq ?_) h1) h2
  ring

/-- The angle with a given `tan(p/2) > 0`. -/
theorem exists_angle {t : ℝ} (ht : 0 < t) : ∃ p, 0 < p ∧ p < Real.pi ∧ Real.tan (p / 2) = t := by
  refine ⟨2 * Real.arctan t, by have := Real.arctan_pos.mpr ht; linarith, by linarith [Real.arctan_lt_pi_div_two t], ?_⟩
  rw [mul_div_cancel_left₀ _ two_ne_zero, Real.tan_arctan]

theorem tan_half_lt {p p' : ℝ} (h0 : 0 ≤ p') (h1 : p < Real.pi) (h : Real.tan (p / 2) < Real.tan (p' / 2)) : p < p' := by
  by_contra hc
  push Not at hc
  rcases hc.eq_or_lt with rfl | hc
  · exact lt_irrefl _ h
  · exact absurd h (not_lt.mpr (Real.tan_lt_tan_of_nonneg_of_lt_pi_div_two (by linarith) (by linarith) (by linarith)).le)

theorem lowPass_peak {x k p : ℝ} (hp : Profile s k 1 0 0 1 (-2 * x) 1) (hk : 0 < k) (hp0 : 0 ≤ p) (hp1 : p < Real.pi)
    (hx : Real.tan (p / 2) ^ 2 = x * k ^ 2) : SinglePeak s p := by
  refine ⟨hp.rises hk (Set.Icc_subset_Icc_right hp1.le) ?_, hp.falls hk (Set.Icc_subset_Icc_left hp0) ?_⟩
  · intro w1 h1 w2 h2 _ hc
    have := mul_le_mul_of_nonneg_left (below_peak hk hp0 hp1 hx h2.1 h2.2) (cc_nonneg w1)
    linarith
  · intro w1 h1 w2 h2 _ hc
    have := mul_le_mul_of_nonneg_left (above_peak hk hp0 hp1 hx h1.2 h1.1) (cc_nonneg w2)
    linarith

theorem highPass_peak {x k p : ℝ} (hp : Profile s k 0 0 1 1 (-2 * x) 1) (hk : 0 < k) (hp0 : 0 ≤ p) (hp1 : p < Real.pi) (hx0 : 0 < x)
    (hx : k ^ 2 = x * Real.tan (p / 2) ^ 2) : SinglePeak s p := by
  have hx' : Real.tan (p / 2) ^ 2 = 1 / x * k ^ 2 := by rw [hx]; field_simp
  have e : ∀ c, x * (1 / x * c) = c := by intro c; field_simp
  refine ⟨hp.rises hk (Set.Icc_subset_Icc_right hp1.le) ?_, hp.falls hk (Set.Icc_subset_Icc_left hp0) ?_⟩
  · intro w1 h1 w2 h2 _ hc
    have := mul_le_mul_of_nonneg_left (below_peak hk hp0 hp1 hx' h2.1 h2.2) hx0.le
    rw [e] at this
    have := mul_le_mul_of_nonneg_left this (ss_nonneg k w1)
    linarith
  · intro w1 h1 w2 h2 _ hc
    have := mul_le_mul_of_nonneg_left (above_peak hk hp0 hp1 hx' h1.2 h1.1) hx0.le
    rw [e] at this
    have := mul_le_mul_of_nonneg_left this (ss_nonneg k w2)
    linarith

/-- **C86**: the gain at a frequency is well defined. -/
theorem C86_gain_unique {σ : Type} [Processor σ ℝ] {s : σ} {w g g' : ℝ} (h : HasGain s w g) (h' : HasGain s w g') : g = g' :=
  h.unique h'

/-- **C86**, `LowPass` and `HighPass`: up to `q = 1/√2` the gain of the low-pass falls from 0 to Nyquist and that of the
high-pass rises; above, each has a single maximum, on the passband side of the cutoff. -/
theorem C86_pass (h : ValidParams sr f q) :
    (2 * q ^ 2 ≤ 1 →
      (∀ s : LowPass ℝ, Falls (s.setCoefficients sr f q) (Set.Icc 0 Real.pi)) ∧
      (∀ s : HighPass ℝ, Rises (s.setCoefficients sr f q) (Set.Icc 0 Real.pi))) ∧
    (1 < 2 * q ^ 2 →
      (∃ p, 0 < p ∧ p < angle sr f ∧ Real.tan (p / 2) ^ 2 = (1 - 1 / (2 * q ^ 2)) * Real.tan (angle sr f / 2) ^ 2 ∧
        ∀ s : LowPass ℝ, SinglePeak (s.setCoefficients sr f q) p) ∧
      (∃ p, angle sr f < p ∧ p < Real.pi ∧ Real.tan (angle sr f / 2) ^ 2 = (1 - 1 / (2 * q ^ 2)) * Real.tan (p / 2) ^ 2 ∧
        ∀ s : HighPass ℝ, SinglePeak (s.setCoefficients sr f q) p)) := by
  have hk := tan_half_pos h
  have hq := h.2.2
  obtain ⟨ha0, ha1⟩ := angle_mem h
  obtain ⟨pl, ph, -⟩ := profile_q h
  constructor
  · intro h2
    have hr : 0 ≤ 1 / q ^ 2 - 2 := by rw [sub_nonneg, le_div_iff₀ (by positivity)]; linarith
    refine ⟨fun s => (pl s).falls hk le_rfl ?_, fun s => (ph s).rises hk le_rfl ?_⟩
    · intro w1 _ w2 _ _ hc
      have := mul_nonneg hr (mul_nonneg (cc_nonneg w1) (cc_nonneg w2))
      have := mul_nonneg (cc_nonneg w2) (ss_nonneg (Real.tan (angle sr f / 2)) w1)
      linarith
    · intro w1 _ w2 _ _ hc
      have := mul_nonneg hr (mul_nonneg (ss_nonneg (Real.tan (angle sr f / 2)) w1) (ss_nonneg (Real.tan (angle sr f / 2)) w2))
      have := mul_nonneg (cc_nonneg w2) (ss_nonneg (Real.tan (angle sr f / 2)) w1)
      linarith
  · intro h2
    have hx0 : 0 < 1 - 1 / (2 * q ^ 2) := by rw [sub_pos, div_lt_one (by positivity)]; exact h2
    have hx1 : 1 - 1 / (2 * q ^ 2) < 1 := by have : 0 < 1 / (2 * q ^ 2) := by positivity
                                             linarith
    have hxr : 1 / q ^ 2 - 2 = -2 * (1 - 1 / (2 * q ^ 2)) := by field_simp; ring
    rw [hxr] at pl ph
    generalize 1 - 1 / (2 * q ^ 2) = x at *
    have hs0 := Real.sqrt_pos.mpr hx0
    have hs1 : Real.sqrt x < 1 := by rw [Real.sqrt_lt' one_pos]; linarith
    constructor
    · obtain ⟨p, hp0, hp1, hp⟩ := exists_angle (mul_pos hs0 hk)
      have e : Real.tan (p / 2) ^ 2 = x * Real.tan (angle sr f / 2) ^ 2 := by rw [hp, mul_pow, Real.sq_sqrt hx0.le]
      refine ⟨p, hp0, tan_half_lt ha0.le hp1 ?_, e, fun s => lowPass_peak (pl s) hk hp0.le hp1 e⟩
      rw [hp]; nlinarith
    · obtain ⟨p, hp0, hp1, hp⟩ := exists_angle (div_pos hk hs0)
      have e : Real.tan (angle sr f / 2) ^ 2 = x * Real.tan (p / 2) ^ 2 := by
        rw [hp, div_pow, Real.sq_sqrt hx0.le]; field_simp
      refine ⟨p, tan_half_lt hp0.le ha1 ?_, hp1, e, fun s => highPass_peak (ph s) hk hp0.le hp1 hx0 e⟩
      rw [hp, lt_div_iff₀ hs0]; nlinarith

/-- A profile with `n0 = n2` and `d0 = d2 = 1`: an extremum at the center. -/
theorem center {n0 n1 d1 k p : ℝ} (hp : Profile s k n0 n1 n0 1 d1 1) (hk : 0 < k) (hp0 : 0 ≤ p) (hp1 : p < Real.pi)
    (hx : Real.tan (p / 2) = k) : (n0 * d1 < n1 → SinglePeak s p) ∧ (n1 < n0 * d1 → SingleDip s p) := by
  have hx' : Real.tan (p / 2) ^ 2 = 1 * k ^ 2 := by rw [hx, one_mul]
  have lo : ∀ w1 ∈ Set.Icc 0 p, ∀ w2 ∈ Set.Icc 0 p, 0 < cc w1 * ss k w2 - cc w2 * ss k w1 → ss k w1 * ss k w2 < cc w1 * cc w2 := by
    intro w1 h1 w2 h2 hc
    have b1 := below_peak hk hp0 hp1 hx' h1.1 h1.2
    have b2 := below_peak hk hp0 hp1 hx' h2.1 h2.2
    rw [one_mul] at b1 b2
    have := mul_le_mul_of_nonneg_right b1 (ss_nonneg k w2)
    have := mul_le_mul_of_nonneg_left b2 (cc_nonneg w1)
    rcases (cc_nonneg w2).eq_or_lt with h0 | h0
    · rw [← h0] at b2 hc
      have := le_antisymm b2 (ss_nonneg k w2)
      rw [this] at hc; simp at hc
    · rcases b1.eq_or_lt with e1 | e1
      · rw [e1] at hc ⊢
        nlinarith
      · rcases (ss_nonneg k w2).eq_or_lt with h3 | h3
        · rw [← h3] at hc
          have := mul_nonneg (cc_nonneg w2) (ss_nonneg k w1)
          linarith
        · nlinarith
  have hi : ∀ w1 ∈ Set.Icc p Real.pi, ∀ w2 ∈ Set.Icc p Real.pi, 0 < cc w1 * ss k w2 - cc w2 * ss k w1 → cc w1 * cc w2 < ss k w1 * ss k w2 := by
    intro w1 h1 w2 h2 hc
    have b1 := above_peak hk hp0 hp1 hx' h1.2 h1.1
    have b2 := above_peak hk hp0 hp1 hx' h2.2 h2.1
    rw [one_mul] at b1 b2
    have := mul_le_mul_of_nonneg_right b1 (cc_nonneg w2)
    have := mul_le_mul_of_nonneg_right b1 (ss_nonneg k w2)
    linarith
  refine ⟨fun hn => ⟨hp.rises hk (Set.Icc_subset_Icc_right hp1.le) ?_, hp.falls hk (Set.Icc_subset_Icc_left hp0) ?_⟩,
    fun hn => ⟨hp.falls hk (Set.Icc_subset_Icc_right hp1.le) ?_, hp.rises hk (Set.Icc_subset_Icc_left hp0) ?_⟩⟩
  · intro w1 h1 w2 h2 _ hc
    nlinarith [lo w1 h1 w2 h2 hc]
  · intro w1 h1 w2 h2 _ hc
    nlinarith [hi w1 h1 w2 h2 hc]
  · intro w1 h1 w2 h2 _ hc
    nlinarith [lo w1 h1 w2 h2 hc]
  · intro w1 h1 w2 h2 _ hc
    nlinarith [hi w1 h1 w2 h2 hc]

/-- **C86**, the band filters and `Peak`: a single extremum over all frequencies, at the center frequency. -/
theorem C86_band (h : ValidParams sr f q) :
    (∀ s : BandPass1 ℝ, SinglePeak (s.setCoefficients sr f q) (angle sr f)) ∧
    (∀ s : BandPass2 ℝ, SinglePeak (s.setCoefficients sr f q) (angle sr f)) ∧
    (∀ s : BandStop ℝ, SingleDip (s.setCoefficients sr f q) (angle sr f)) ∧
    (∀ (s : Peak ℝ) (db : ℝ), 0 < db → SinglePeak (s.setCoefficients sr f db q) (angle sr f)) ∧
    (∀ (s : Peak ℝ) (db : ℝ), db < 0 → SingleDip (s.setCoefficients sr f db q) (angle sr f)) := by
  have hk := tan_half_pos h
  have hq := h.2.2
  obtain ⟨ha0, ha1⟩ := angle_mem h
  obtain ⟨-, -, p1, p2, p3, p4⟩ := profile_q h
  have hq2 : 0 < 1 / q ^ 2 := by positivity
  have e : ∀ db, gainA db ^ 2 / q ^ 2 - 1 / (gainA db ^ 2 * q ^ 2) = (gainA db ^ 4 - 1) / (gainA db ^ 2 * q ^ 2) := by
    intro db
    have := gainA_pos db
    field_simp
  refine ⟨fun s => (center (p1 s) hk ha0.le ha1 rfl).1 (by linarith), fun s => (center (p2 s) hk ha0.le ha1 rfl).1 (by linarith),
    fun s => (center (p3 s) hk ha0.le ha1 rfl).2 (by linarith), fun s db hdb => (center (p4 s db) hk ha0.le ha1 rfl).1 ?_,
    fun s db hdb => (center (p4 s db) hk ha0.le ha1 rfl).2 ?_⟩
  · have hA : 1 < gainA db := Real.one_lt_rpow (by norm_num) (by positivity)
    have : 1 < gainA db ^ 4 := one_lt_pow₀ hA (by norm_num)
    have : 0 < (gainA db ^ 4 - 1) / (gainA db ^ 2 * q ^ 2) := div_pos (by linarith) (by positivity)
    linarith [e db]
  · have hA : gainA db < 1 := Real.rpow_lt_one_of_one_lt_of_neg (by norm_num) (by linarith)
    have hA0 := gainA_pos db
    have : gainA db ^ 4 < 1 := pow_lt_one₀ hA0.le hA (by norm_num)
    have : (gainA db ^ 4 - 1) / (gainA db ^ 2 * q ^ 2) < 0 := div_neg_of_neg_of_pos (by linarith) (by positivity)
    linarith [e db]

/-- **C86**, shelves: monotone over all frequencies, from or towards the boosted or cut end. -/
theorem C86_shelf (h : ValidShelf sr f S) (db : ℝ) :
    (0 < db → (∀ s : LowShelf ℝ, Falls (s.setCoefficients sr f db S) (Set.Icc 0 Real.pi)) ∧
      (∀ s : HighShelf ℝ, Rises (s.setCoefficients sr f db S) (Set.Icc 0 Real.pi))) ∧
    (db < 0 → (∀ s : LowShelf ℝ, Rises (s.setCoefficients sr f db S) (Set.Icc 0 Real.pi)) ∧
      (∀ s : HighShelf ℝ, Falls (s.setCoefficients sr f db S) (Set.Icc 0 Real.pi))) := by
  have hk := tan_half_pos h.params
  obtain ⟨pl, ph⟩ := profile_shelf h db
  have hA0 := gainA_pos db
  have hc : 0 ≤ (gainA db ^ 2 + 1) * (1 / S - 1) :=
    mul_nonneg (by positivity) (by rw [sub_nonneg, le_div_iff₀ h.2.2.1]; linarith [h.2.2.2])
  generalize (gainA db ^ 2 + 1) * (1 / S - 1) = c at *
  have dec : ∀ A : ℝ, ∀ w1 w2, 0 < cc w1 * ss (Real.tan (angle sr f / 2)) w2 - cc w2 * ss (Real.tan (angle sr f / 2)) w1 →
      0 < (c * (cc w1 * cc w2) + (A ^ 2 + 1) * (cc w1 * ss (Real.tan (angle sr f / 2)) w2 + cc w2 * ss (Real.tan (angle sr f / 2)) w1) +
        c * (ss (Real.tan (angle sr f / 2)) w1 * ss (Real.tan (angle sr f / 2)) w2)) := by
    intro A w1 w2 hcr
    have a1 := mul_nonneg hc (mul_nonneg (cc_nonneg w1) (cc_nonneg w2))
    have a2 := mul_nonneg hc (mul_nonneg (ss_nonneg (Real.tan (angle sr f / 2)) w1) (ss_nonneg (Real.tan (angle sr f / 2)) w2))
    have a3 := mul_nonneg (cc_nonneg w2) (ss_nonneg (Real.tan (angle sr f / 2)) w1)
    have a4 : 0 < (A ^ 2 + 1) * (cc w1 * ss (Real.tan (angle sr f / 2)) w2 + cc w2 * ss (Real.tan (angle sr f / 2)) w1) :=
      mul_pos (by positivity) (by linarith)
    linarith
  refine ⟨fun hdb => ?_, fun hdb => ?_⟩
  · have hA : 1 < gainA db := Real.one_lt_rpow (by norm_num) (by positivity)
    have hA2 : 0 < gainA db ^ 2 * (gainA db ^ 2 - 1) := mul_pos (by positivity) (by linarith [one_lt_pow₀ hA two_ne_zero])
    refine ⟨fun s => (pl s).falls hk le_rfl ?_, fun s => (ph s).rises hk le_rfl ?_⟩
    · intro w1 _ w2 _ _ hcr
      have := mul_pos hA2 (dec (gainA db) w1 w2 hcr)
      refine this.trans_eq ?_
      ring
    · intro w1 _ w2 _ _ hcr
      have := mul_pos hA2 (dec (gainA db) w1 w2 hcr)
      refine lt_of_eq_of_lt ?_ (neg_lt_zero.mpr this)
      ring
  · have hA : gainA db < 1 := Real.rpow_lt_one_of_one_lt_of_neg (by norm_num) (by linarith)
    have hA2 : 0 < gainA db ^ 2 * (1 - gainA db ^ 2) := mul_pos (by positivity) (by linarith [pow_lt_one₀ hA0.le hA two_ne_zero])
    refine ⟨fun s => (pl s).rises hk le_rfl ?_, fun s => (ph s).falls hk le_rfl ?_⟩
    · intro w1 _ w2 _ _ hcr
      have := mul_pos hA2 (dec (gainA db) w1 w2 hcr)
      refine lt_of_eq_of_lt ?_ (neg_lt_zero.mpr this)
      ring
    · intro w1 _ w2 _ _ hcr
      have := mul_pos hA2 (dec (gainA db) w1 w2 hcr)
      refine this.trans_eq ?_
      ring

theorem le_ss_iff {k x p w : ℝ} (hk : 0 < k) (hp0 : 0 ≤ p) (hp1 : p < Real.pi) (hx : Real.tan (p / 2) ^ 2 = x * k ^ 2)
    (h0 : 0 ≤ w) (h1 : w ≤ Real.pi) : (x * cc w ≤ ss k w ↔ p ≤ w) ∧ (ss k w ≤ x * cc w ↔ w ≤ p) := by
  have h2 := cc_pos hp0 hp1
  have es : ss k p = x * cc p := by rw [ss_eq hp0 hp1, hx, mul_div_cancel_right₀ _ (by positivity)]
  refine ⟨⟨fun h => ?_, above_peak hk hp0 hp1 hx h1⟩, ⟨fun h => ?_, below_peak hk hp0 hp1 hx h0⟩⟩
  · by_contra hc
    push Not at hc
    have := cross_pos hk h0 hc hp1.le
    rw [es] at this
    nlinarith
  · by_contra hc
    push Not at hc
    have := cross_pos hk hp0 hc h1
    rw [es] at this
    nlinarith

/-- **C86**: at `q = 1/√2` the gains are those of a second-order Butterworth filter, maximally flat. -/
theorem C86_butterworth (h : ValidParams sr f q) (hq2 : 2 * q ^ 2 = 1) (w : ℝ) (hw : Real.cos (w / 2) ≠ 0) :
    (∀ s : LowPass ℝ, HasGain (s.setCoefficients sr f q) w (1 / Real.sqrt (1 + (Real.tan (w / 2) / Real.tan (angle sr f / 2)) ^ 4))) ∧
    (∀ s : HighPass ℝ, HasGain (s.setCoefficients sr f q) w
      ((Real.tan (w / 2) / Real.tan (angle sr f / 2)) ^ 2 / Real.sqrt (1 + (Real.tan (w / 2) / Real.tan (angle sr f / 2)) ^ 4))) := by
  have hk := tan_half_pos h
  have hq := h.2.2
  obtain ⟨pl, ph, -⟩ := profile_q h
  have e0 : 1 / q ^ 2 - 2 = 0 := by rw [show q ^ 2 = 1 / 2 by linarith]; norm_num
  rw [e0] at pl ph
  have hc : 0 < cc w := by unfold cc; positivity
  have es : ss (Real.tan (angle sr f / 2)) w = (Real.tan (w / 2) / Real.tan (angle sr f / 2)) ^ 2 * cc w := by
    rw [ss, cc, Real.tan_eq_sin_div_cos (w / 2)]; field_simp
  have hpos : 0 < 1 + (Real.tan (w / 2) / Real.tan (angle sr f / 2)) ^ 4 := by positivity
  have hsq := Real.sqrt_pos.mpr hpos
  refine ⟨fun s => ?_, fun s => ?_⟩
  · obtain ⟨g, hg, -, hN⟩ := pl s w
    rw [es] at hN
    convert hg using 1
    refine ((pow_left_inj₀ hg.1 (by positivity) two_ne_zero).mp ?_).symm
    rw [div_pow, Real.sq_sqrt hpos.le, eq_div_iff hpos.ne']
    have : cc w ^ 2 ≠ 0 := by positivity
    apply mul_right_cancel₀ this
    linear_combination hN
  · obtain ⟨g, hg, -, hN⟩ := ph s w
    rw [es] at hN
    convert hg using 1
    refine ((pow_left_inj₀ hg.1 (by positivity) two_ne_zero).mp ?_).symm
    rw [div_pow, Real.sq_sqrt hpos.le, eq_div_iff hpos.ne']
    have : cc w ^ 2 ≠ 0 := by positivity
    apply mul_right_cancel₀ this
    linear_combination hN

theorem half_bandPass1 {c z r G : ℝ} (hqr : q ^ 2 * r ^ 2 = 1) (hD : 0 < 1 * c ^ 2 + (r ^ 2 - 2) * c * z + 1 * z ^ 2)
    (hN : G * (1 * c ^ 2 + (r ^ 2 - 2) * c * z + 1 * z ^ 2) = 0 * c ^ 2 + 1 * c * z + 0 * z ^ 2) :
    q ^ 2 / 2 ≤ G ↔ (c - z) ^ 2 ≤ r ^ 2 * (c * z) := by
  rw [← mul_le_mul_iff_left₀ hD]
  constructor
  · intro h
    linear_combination 2 * r ^ 2 * h + 2 * r ^ 2 * hN - (1 * c ^ 2 + (r ^ 2 - 2) * c * z + 1 * z ^ 2) * hqr
  · intro h
    linear_combination q ^ 2 / 2 * h + c * z * hqr - hN

theorem half_bandPass2 {c z r G : ℝ} (hD : 0 < 1 * c ^ 2 + (r ^ 2 - 2) * c * z + 1 * z ^ 2)
    (hN : G * (1 * c ^ 2 + (r ^ 2 - 2) * c * z + 1 * z ^ 2) = 0 * c ^ 2 + r ^ 2 * c * z + 0 * z ^ 2) :
    1 / 2 ≤ G ↔ (c - z) ^ 2 ≤ r ^ 2 * (c * z) := by
  rw [← mul_le_mul_iff_left₀ hD]
  constructor
  · intro h; linear_combination 2 * h + 2 * hN
  · intro h; linear_combination h / 2 - hN

theorem half_bandStop {c z r G : ℝ} (hD : 0 < 1 * c ^ 2 + (r ^ 2 - 2) * c * z + 1 * z ^ 2)
    (hN : G * (1 * c ^ 2 + (r ^ 2 - 2) * c * z + 1 * z ^ 2) = 1 * c ^ 2 + -2 * c * z + 1 * z ^ 2) :
    G ≤ 1 / 2 ↔ (c - z) ^ 2 ≤ r ^ 2 * (c * z) := by
  rw [← mul_le_mul_iff_left₀ hD]
  constructor
  · intro h; linear_combination 2 * h - 2 * hN
  · intro h; linear_combination h / 2 + hN

/-- **C86**, bandwidth: there are two angles around the center, whose half tangents have the product `tan²(w0/2)` and the
difference `tan(w0/2)/q`, such that exactly between them the band-pass filters keep at least half of the power at the center
and the band-stop filter lets at most half of the power through. -/
theorem C86_bandwidth (h : ValidParams sr f q) :
    ∃ w1 w2, 0 < w1 ∧ w1 < angle sr f ∧ angle sr f < w2 ∧ w2 < Real.pi ∧
      Real.tan (w1 / 2) * Real.tan (w2 / 2) = Real.tan (angle sr f / 2) ^ 2 ∧
      Real.tan (w2 / 2) - Real.tan (w1 / 2) = Real.tan (angle sr f / 2) / q ∧
      ∀ w g, 0 ≤ w → w ≤ Real.pi →
        (∀ s : BandPass1 ℝ, HasGain (s.setCoefficients sr f q) w g → (q ^ 2 / 2 ≤ g ^ 2 ↔ w1 ≤ w ∧ w ≤ w2)) ∧
        (∀ s : BandPass2 ℝ, HasGain (s.setCoefficients sr f q) w g → (1 / 2 ≤ g ^ 2 ↔ w1 ≤ w ∧ w ≤ w2)) ∧
        (∀ s : BandStop ℝ, HasGain (s.setCoefficients sr f q) w g → (g ^ 2 ≤ 1 / 2 ↔ w1 ≤ w ∧ w ≤ w2)) := by
  have hk := tan_half_pos h
  have hq := h.2.2
  obtain ⟨ha0, ha1⟩ := angle_mem h
  obtain ⟨-, -, p1, p2, p3, -⟩ := profile_q h
  have hr : 0 < 1 / q := by positivity
  have eq2 : 1 / q ^ 2 = (1 / q) ^ 2 := by rw [div_pow, one_pow]
  rw [eq2] at p1 p2 p3
  have hdk : Real.tan (angle sr f / 2) / q = 1 / q * Real.tan (angle sr f / 2) := by ring
  rw [hdk]
  have hqr : q ^ 2 * (1 / q) ^ 2 = 1 := by field_simp
  generalize 1 / q = r at *
  have hsq : Real.sqrt (r ^ 2 + 4) ^ 2 = r ^ 2 + 4 := Real.sq_sqrt (by positivity)
  have hsr : r < Real.sqrt (r ^ 2 + 4) := Real.lt_sqrt_of_sq_lt (by linarith)
  obtain ⟨v1, hv1⟩ : ∃ v, v = (Real.sqrt (r ^ 2 + 4) - r) / 2 := ⟨_, rfl⟩
  obtain ⟨v2, hv2⟩ : ∃ v, v = (Real.sqrt (r ^ 2 + 4) + r) / 2 := ⟨_, rfl⟩
  have hv10 : 0 < v1 := by linarith
  have hv20 : 0 < v2 := by linarith
  have hd : v2 - v1 = r := by rw [hv1, hv2]; ring
  have hm : v1 * v2 = 1 := by rw [hv1, hv2]; linear_combination hsq / 4
  have hl1 : v1 < 1 := by nlinarith
  have hl2 : 1 < v2 := by nlinarith
  obtain ⟨w1, h10, h11, h1⟩ := exists_angle (mul_pos hv10 hk)
  obtain ⟨w2, h20, h21, h2⟩ := exists_angle (mul_pos hv20 hk)
  refine ⟨w1, w2, h10, tan_half_lt ha0.le h11 (by rw [h1]; nlinarith), tan_half_lt h20.le ha1 (by rw [h2]; nlinarith), h21, ?_, ?_, ?_⟩
  · rw [h1, h2]; linear_combination Real.tan (angle sr f / 2) ^ 2 * hm
  · rw [h1, h2, ← sub_mul, hd]
  intro w g hw0 hw1
  have key : (cc w - ss (Real.tan (angle sr f / 2)) w) ^ 2 ≤ r ^ 2 * (cc w * ss (Real.tan (angle sr f / 2)) w) ↔ w1 ≤ w ∧ w ≤ w2 := by
    rw [← (le_ss_iff hk h10.le h11 (x := v1 ^ 2) (by rw [h1, mul_pow]) hw0 hw1).1,
      ← (le_ss_iff hk h20.le h21 (x := v2 ^ 2) (by rw [h2, mul_pow]) hw0 hw1).2]
    have hcn := cc_nonneg w
    generalize ss (Real.tan (angle sr f / 2)) w = z at *
    have e : (cc w - z) ^ 2 - r ^ 2 * (cc w * z) = (z - v1 ^ 2 * cc w) * (z - v2 ^ 2 * cc w) := by
      have e1 : v1 ^ 2 * v2 ^ 2 = 1 := by rw [← mul_pow, hm, one_pow]
      rw [← hd]
      linear_combination (-cc w ^ 2) * e1 + 2 * cc w * z * hm
    have hv : v1 ^ 2 * cc w ≤ v2 ^ 2 * cc w := mul_le_mul_of_nonneg_right (by nlinarith) hcn
    constructor
    · intro hle
      have : (z - v1 ^ 2 * cc w) * (z - v2 ^ 2 * cc w) ≤ 0 := by linarith
      constructor
      · by_contra hc
        push Not at hc
        have := mul_pos_of_neg_of_neg (show z - v1 ^ 2 * cc w < 0 by linarith) (show z - v2 ^ 2 * cc w < 0 by linarith)
        linarith
      · by_contra hc
        push Not at hc
        have := mul_pos (show 0 < z - v1 ^ 2 * cc w by linarith) (show 0 < z - v2 ^ 2 * cc w by linarith)
        linarith
    · rintro ⟨a, b⟩
      have := mul_nonpos_of_nonneg_of_nonpos (show 0 ≤ z - v1 ^ 2 * cc w by linarith) (show z - v2 ^ 2 * cc w ≤ 0 by linarith)
      linarith
  refine ⟨fun s hg => ?_, fun s hg => ?_, fun s hg => ?_⟩
  · obtain ⟨g', hg', hD, hN⟩ := p1 s w
    obtain rfl := hg.unique hg'
    rw [← key]; exact half_bandPass1 hqr hD hN
  · obtain ⟨g', hg', hD, hN⟩ := p2 s w
    obtain rfl := hg.unique hg'
    rw [← key]; exact half_bandPass2 hD hN
  · obtain ⟨g', hg', hD, hN⟩ := p3 s w
    obtain rfl := hg.unique hg'
    rw [← key]; exact half_bandStop hD hN
end

/-- A 1 kHz filter at 44.1 kHz with `q = 2`: the cases above do occur. -/
example : ValidParams 44100 1000 2 ∧ (1 : ℝ) < 2 * 2 ^ 2 ∧ ValidParams 44100 1000 (1 / Real.sqrt 2) ∧ 2 * (1 / Real.sqrt 2) ^ 2 = 1 ∧
    ValidShelf 44100 1000 1 := by
  refine ⟨?_, by norm_num, ⟨by norm_num, by norm_num, by positivity⟩, ?_, ?_⟩
  · refine ⟨?_, ?_, ?_⟩ <;> norm_num
  · rw [div_pow, Real.sq_sqrt (by norm_num)]; norm_num
  · refine ⟨?_, ?_, ?_, ?_⟩ <;> norm_num

end Rasp
