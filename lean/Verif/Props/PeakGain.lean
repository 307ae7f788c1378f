import Verif.Spec.PeakGain
import Verif.Lemmas.Kernel
import Verif.Props.Resonance
import Verif.Props.Rbj

/-!
# C133: the peak gains of the rbj filters, whatever the frequency
-/

namespace Rasp
open Filter

section
variable {σ : Type} [Processor σ ℝ] {b : Build} {s : σ} {b0 b1 b2 a1 a2 G : ℝ}

/-- **C133**. No sinusoid is amplified by more than the peak gain. -/
theorem C133_gain_le (hc : IsConvolution b s) (hG : HasPeakGain b s G) {w g : ℝ} (hg : HasGain s w g) : g ≤ G := by
  obtain ⟨h, -, hi⟩ := hc
  obtain ⟨hg0, θ, hθ⟩ := hg
  have hK : ‖((g : ℂ) * Complex.exp (θ * Complex.I))‖ = g := by
    rw [norm_mul, Complex.norm_exp_ofReal_mul_I, mul_one, Complex.norm_real, Real.norm_eq_abs, abs_of_nonneg hg0]
  rw [← hK]
  refine norm_response_le (ω := w) ((hasPeakGain_iff hi).mp hG) fun z => ?_
  have h1 := (hθ ‖z‖ z.arg).2 b _ ((hi _ _).mpr rfl)
  have e : (fun n : ℕ => ‖z‖ * Real.cos (w * n + z.arg)) = phasor z w := funext fun n => (phasor_polar z w n).symm
  rw [e] at h1
  refine h1.congr fun n => ?_
  congr 1
  have e2 : ((g : ℂ) * Complex.exp (θ * Complex.I)) * z = ((g * ‖z‖ : ℝ) : ℂ) * Complex.exp (((z.arg + θ : ℝ) : ℂ) * Complex.I) := by
    conv_lhs => rw [← Complex.norm_mul_exp_arg_mul_I z]
    push_cast
    rw [add_mul, Complex.exp_add]
    ring
  beta_reduce
  rw [e2, phasor_input, add_assoc]

theorem EndGains.hasGain {d n : ℝ} (h : EndGains s d n) (hd : 0 ≤ d) (hn : 0 ≤ n) : HasGain s 0 d ∧ HasGain s Real.pi n := by
  refine ⟨⟨hd, 0, fun A φ => ?_⟩, ⟨hn, 0, fun A φ => ?_⟩⟩
  · simpa [mul_assoc] using h.1 (A * Real.cos φ)
  · have e : ∀ k : ℕ, Real.cos (Real.pi * k + φ) = (-1) ^ k * Real.cos φ := fun k => by
      rw [add_comm, mul_comm, Real.cos_add_nat_mul_pi]
    have := h.2 (A * Real.cos φ)
    simp only [e, add_zero]
    convert this using 2 <;> ring

theorem peak_of_sumBelow (hi : Implements s b0 b1 b2 a1 a2) {e : ℕ → ℝ} (he : SolvesDiff 1 0 0 a1 a2 unitImpulse e) {B : ℝ}
    (hB : SumBelow (fun n => b0 * e n + b1 * lag e 1 n + b2 * lag e 2 n) B) : ∃ G, HasPeakGain b s G ∧ G ≤ B := by
  have hh := (hi b _ _).mpr he.numerator
  have hs : Summable fun n => |b0 * e n + b1 * lag e 1 n + b2 * lag e 2 n| := summable_of_sum_range_le (fun _ => abs_nonneg _) hB
  exact ⟨_, (C107_peak_gain (hi.isConvolution b) hh).mpr hs.hasSum, Real.tsum_le_of_sum_range_le (fun _ => abs_nonneg _) hB⟩

theorem exists_kernel (a1 a2 : ℝ) : ∃ e, SolvesDiff 1 0 0 a1 a2 unitImpulse e := by
  have hi := rbjStore_implements Biquad2.new 1 0 0 1 a1 a2
  simp only [div_one] at hi
  obtain ⟨h, hh, -⟩ := hi.isConvolution ⟨true⟩
  exact ⟨h, (hi _ _ _).mp hh⟩

end

variable {sr f q db S : ℝ}

theorem kernel_q (h : ValidParams sr f q) {Q : ℝ} (hQ : 1 / 2 ≤ Q) : ∃ e, Kernel (Real.cos (angle sr f)) (Real.sin (angle sr f)) (alphaQ sr f Q) Q e := by
  obtain ⟨e, he⟩ := exists_kernel (-2 * Real.cos (angle sr f) / (1 + alphaQ sr f Q)) ((1 - alphaQ sr f Q) / (1 + alphaQ sr f Q))
  exact ⟨e, Real.cos_sq_add_sin_sq _, h.sin_pos, hQ, rfl, he⟩

/-- **C133**. For `q ≥ 1/2` the peak gains are bounded over all frequencies. Those of `LowPass`, `HighPass` and `BandPass1` grow like
`q`. -/
theorem C133_filters (b : Build) (h : ValidParams sr f q) (hq : 1 / 2 ≤ q) :
    (∀ s : LowPass ℝ, PeakGainWithin b (s.setCoefficients sr f q) q (12 * q + 9)) ∧
    (∀ s : HighPass ℝ, PeakGainWithin b (s.setCoefficients sr f q) q (12 * q + 9)) ∧
    (∀ s : BandPass1 ℝ, PeakGainWithin b (s.setCoefficients sr f q) q (8 * q)) ∧
    (∀ s : BandPass2 ℝ, PeakGainWithin b (s.setCoefficients sr f q) 1 8) ∧
    (∀ s : BandStop ℝ, PeakGainWithin b (s.setCoefficients sr f q) 1 9) ∧
    (∀ s : AllPass ℝ, PeakGainWithin b (s.setCoefficients sr f q) 1 17) := by
  obtain ⟨e, k⟩ := kernel_q h hq
  have h1 := k.alpha_pos
  have hq0 : 0 ≤ q := by linarith
  have c40 := fun A φ => C40_centre_gains h A φ
  refine ⟨fun s => ?_, fun s => ?_, fun s => ?_, fun s => ?_, fun s => ?_, fun s => ?_⟩
  · have hi := s.implements sr f q
    obtain ⟨G, hG, hB⟩ := peak_of_sumBelow (b := b) hi k.solves k.lowPass
    exact ⟨G, hG, C133_gain_le (hi.isConvolution b) hG ⟨hq0, -(Real.pi / 2), fun A φ => (c40 A φ).2.2.2.2.2.1 s⟩, hB⟩
  · have hi := s.implements sr f q
    obtain ⟨G, hG, hB⟩ := peak_of_sumBelow (b := b) hi k.solves k.highPass
    exact ⟨G, hG, C133_gain_le (hi.isConvolution b) hG ⟨hq0, Real.pi / 2, fun A φ => (c40 A φ).2.2.2.2.2.2 s⟩, hB⟩
  · have hi := s.implements sr f q
    obtain ⟨G, hG, hB⟩ := peak_of_sumBelow (b := b) (B := 8 * q) hi k.solves (by
      convert (k.bandPass.smul q).mono (le_of_eq (by rw [abs_of_nonneg hq0]; ring : _ = 8 * q)) using 2 with n
      ring)
    exact ⟨G, hG, C133_gain_le (hi.isConvolution b) hG ⟨hq0, 0, fun A φ => by simpa using (c40 A φ).2.2.1 s⟩, hB⟩
  · have hi := s.implements sr f q
    obtain ⟨G, hG, hB⟩ := peak_of_sumBelow (b := b) (B := 8) hi k.solves (by
      convert k.bandPass using 2 with n
      ring)
    exact ⟨G, hG, C133_gain_le (hi.isConvolution b) hG ⟨zero_le_one, 0, fun A φ => by simpa using (c40 A φ).2.1 s⟩, hB⟩
  · have hi := s.implements sr f q
    obtain ⟨G, hG, hB⟩ := peak_of_sumBelow (b := b) (B := 9) hi k.solves (by
      convert (k.delta.add (k.bandPass.smul (-1))).mono (by norm_num : _ ≤ (9 : ℝ)) using 2 with n
      field_simp
      ring)
    exact ⟨G, hG, C133_gain_le (hi.isConvolution b) hG (((C39_end_gains h).2.2.2.2.1 s).hasGain zero_le_one zero_le_one).1, hB⟩
  · have hi := s.implements sr f q
    obtain ⟨G, hG, hB⟩ := peak_of_sumBelow (b := b) (B := 17) hi k.solves (by
      convert (k.delta.add (k.bandPass.smul (-2))).mono (by norm_num : _ ≤ (17 : ℝ)) using 2 with n
      field_simp
      ring)
    refine ⟨G, hG, C133_gain_le (hi.isConvolution b) (w := angle sr f) hG ⟨zero_le_one, Real.pi, fun A φ => ?_⟩, hB⟩
    have := (c40 A φ).2.2.2.2.1 s
    simpa [Real.cos_add_pi] using this

/-- **C133**. In their own half of the range `LowPass` and `HighPass` do with less. -/
theorem C133_half (b : Build) (h : ValidParams sr f q) (hq : 1 / 2 ≤ q) :
    (f ≤ sr / 4 → ∀ s : LowPass ℝ, PeakGainWithin b (s.setCoefficients sr f q) q (12 * q)) ∧
    (sr / 4 ≤ f → ∀ s : HighPass ℝ, PeakGainWithin b (s.setCoefficients sr f q) q (12 * q)) := by
  obtain ⟨e, k⟩ := kernel_q h hq
  obtain ⟨hl, hh, -⟩ := C133_filters b h hq
  have hsr : 0 < sr := by linarith [h.1, h.2.1]
  have ha := angle_mem h
  refine ⟨fun hf s => ?_, fun hf s => ?_⟩
  · have hc : 0 ≤ Real.cos (angle sr f) := Real.cos_nonneg_of_mem_Icc ⟨by linarith [ha.1, Real.pi_pos], by
      unfold angle; rw [div_le_iff₀ hsr]; nlinarith [Real.pi_pos]⟩
    obtain ⟨G, hG, hB⟩ := peak_of_sumBelow (b := b) (s.implements sr f q) k.solves (k.lowPass_low hc)
    obtain ⟨G', hG', h1, -⟩ := hl s
    exact ⟨G, hG, hG'.unique hG ▸ h1, hB⟩
  · have hc : Real.cos (angle sr f) ≤ 0 := Real.cos_nonpos_of_pi_div_two_le_of_le (by
      unfold angle; rw [le_div_iff₀ hsr]; nlinarith [Real.pi_pos]) (by linarith [ha.2, Real.pi_pos])
    obtain ⟨G, hG, hB⟩ := peak_of_sumBelow (b := b) (s.implements sr f q) k.solves (k.highPass_high hc)
    obtain ⟨G', hG', h1, -⟩ := hh s
    exact ⟨G, hG, hG'.unique hG ▸ h1, hB⟩

/-- **C133**. A `Peak` that is not too wide: the gain factor is `dbFactor db`. -/
theorem C133_peak (b : Build) (h : ValidParams sr f q) (hq : 1 / 2 ≤ q * 10 ^ (db / 40)) (s : Peak ℝ) :
    PeakGainWithin b (s.setCoefficients sr f db q) (max 1 (dbFactor db)) (1 + 8 * |dbFactor db - 1|) := by
  obtain ⟨e, k⟩ := kernel_q h hq
  have hA := gainA_pos db
  have hq0 := h.2.2
  have e1 : alphaQ sr f (q * 10 ^ (db / 40)) = alphaQ sr f q / gainA db := by
    show Real.sin _ / (2 * (q * gainA db)) = Real.sin _ / (2 * q) / gainA db
    field_simp
  rw [e1] at k
  have h1 := k.alpha_pos
  have hi := s.implements sr f db q
  obtain ⟨G, hG, hB⟩ := peak_of_sumBelow (b := b) (B := 1 + 8 * |dbFactor db - 1|) hi k.solves (by
    convert (k.delta.add (k.bandPass.smul (dbFactor db - 1))).mono (le_of_eq (by ring : _ = 1 + 8 * |dbFactor db - 1|)) using 2 with n
    rw [← gainA_sq]
    obtain ⟨β, hβ⟩ : ∃ β, alphaQ sr f q = β * gainA db := ⟨alphaQ sr f q / gainA db, by field_simp⟩
    have e3 : alphaQ sr f q / gainA db = β := by rw [hβ]; field_simp
    rw [e3] at h1 ⊢
    rw [hβ]
    field_simp
    ring)
  refine ⟨G, hG, max_le ?_ ?_, hB⟩
  · exact C133_gain_le (hi.isConvolution b) hG (((C39_end_gains h).2.2.2.2.2.2 s db).hasGain zero_le_one zero_le_one).1
  · exact C133_gain_le (w := angle sr f) (hi.isConvolution b) hG ⟨by rw [← gainA_sq]; positivity, 0, fun A φ => by
      simpa using (C40_centre_gains h A φ).2.2.2.1 s db⟩

/-- The shelves' poles are those of a filter with another centre. -/
theorem kernel_shelf (h : ValidShelf sr f S) {A c σ : ℝ} (hA : 0 < A) (hσ : σ ^ 2 = 1) (hc : c = Real.cos (angle sr f) ∨ c = -Real.cos (angle sr f))
    (hS : (A + 1 / A) * (1 / S - 1) ≤ 2) :
    ∃ Q e, Q ≤ 3 / 4 ∧ 0 < A + 1 + (A - 1) * c ∧ Kernel (σ * ((A - 1 + (A + 1) * c) / (A + 1 + (A - 1) * c)))
      (2 * √A * Real.sin (angle sr f) / (A + 1 + (A - 1) * c)) (2 * √A * alphaS sr f A S / (A + 1 + (A - 1) * c)) Q e := by
  have hs := h.params.sin_pos
  have hcs : c ^ 2 + Real.sin (angle sr f) ^ 2 = 1 := by
    rcases hc with rfl | rfl
    · exact Real.cos_sq_add_sin_sq _
    · rw [neg_sq]; exact Real.cos_sq_add_sin_sq _
  have hc1 : -1 < c := by nlinarith
  have hc2 : c < 1 := by nlinarith
  have hN : 0 < A + 1 + (A - 1) * c := by nlinarith
  have hr : √A ^ 2 = A := Real.sq_sqrt hA.le
  have hr0 : 0 < √A := Real.sqrt_pos.mpr hA
  have h0 : 0 ≤ (A + 1 / A) * (1 / S - 1) := by
    have := h.2.2.1
    have h1 : 0 ≤ 1 / S - 1 := by rw [sub_nonneg, le_div_iff₀ this]; linarith [h.2.2.2]
    positivity
  have hR1 : 4 / 3 ≤ √((A + 1 / A) * (1 / S - 1) + 2) := Real.le_sqrt_of_sq_le (by linarith)
  have hR2 : √((A + 1 / A) * (1 / S - 1) + 2) ≤ 2 := Real.sqrt_le_iff.mpr ⟨by norm_num, by linarith⟩
  have hα : alphaS sr f A S = Real.sin (angle sr f) / 2 * √((A + 1 / A) * (1 / S - 1) + 2) := rfl
  generalize √((A + 1 / A) * (1 / S - 1) + 2) = R at *
  generalize Real.sin (angle sr f) = t at *
  obtain ⟨e, he⟩ := exists_kernel (-2 * (σ * ((A - 1 + (A + 1) * c) / (A + 1 + (A - 1) * c))) / (1 + 2 * √A * alphaS sr f A S / (A + 1 + (A - 1) * c)))
    ((1 - 2 * √A * alphaS sr f A S / (A + 1 + (A - 1) * c)) / (1 + 2 * √A * alphaS sr f A S / (A + 1 + (A - 1) * c)))
  refine ⟨1 / R, e, ?_, hN, ?_, by positivity, ?_, ?_, he⟩
  · rw [div_le_iff₀ (by linarith)]; linarith
  · rw [mul_pow, hσ, one_mul]
    field_simp
    rw [hr]
    linear_combination 4 * A * hcs
  · rw [le_div_iff₀ (by linarith)]; linarith
  · rw [hα]; field_simp

/-- **C133**. Shelves that are not too flat. -/
theorem C133_shelves (b : Build) (h : ValidShelf sr f S) (hS : ((10 : ℝ) ^ (db / 40) + 1 / 10 ^ (db / 40)) * (1 / S - 1) ≤ 2) :
    (∀ s : LowShelf ℝ, PeakGainWithin b (s.setCoefficients sr f db S) (max 1 (dbFactor db)) (22 * (1 + dbFactor db))) ∧
    (∀ s : HighShelf ℝ, PeakGainWithin b (s.setCoefficients sr f db S) (max 1 (dbFactor db)) (22 * (1 + dbFactor db))) := by
  have hA := gainA_pos db
  have hd : 0 ≤ dbFactor db := by rw [← gainA_sq]; positivity
  obtain ⟨gl, gh⟩ := C39_shelf_end_gains h db
  have hS' : (gainA db + 1 / gainA db) * (1 / S - 1) ≤ 2 := hS
  have hlast : ∀ Q, Q ≤ 3 / 4 → (12 * Q + 9) * (1 + gainA db ^ 2) + 8 * gainA db ≤ 22 * (1 + dbFactor db) := fun Q hQ => by
    rw [← gainA_sq]
    nlinarith [sq_nonneg (gainA db - 1), sq_nonneg (gainA db)]
  constructor
  · intro s
    obtain ⟨Q, e, hQ, hN, k⟩ := kernel_shelf (σ := 1) h hA (by norm_num) (.inl rfl) hS'
    have hi := s.implements sr f db S
    have hP : 0 < 2 * √(gainA db) * alphaS sr f (gainA db) S := by
      have := h.alphaS_pos hA
      positivity
    have hk := k.shelf zero_le_one hA.le (sq_nonneg (gainA db))
    have hks := k.solves
    generalize 2 * √(gainA db) * alphaS sr f (gainA db) S = P at *
    generalize gainA db = A at *
    generalize Real.cos (angle sr f) = c at *
    obtain ⟨N, hN'⟩ : ∃ N, N = A + 1 + (A - 1) * c := ⟨_, rfl⟩
    obtain ⟨G, hG, hB⟩ := peak_of_sumBelow (b := b) hi (e := e) (by
      convert hks using 1
      · rw [← hN'] at hN ⊢; field_simp
      · rw [← hN'] at hN ⊢; field_simp) (by
      convert hk.mono (hlast Q hQ) using 2 with n
      rw [← hN'] at hN ⊢
      field_simp
      rw [hN']
      ring)
    exact ⟨G, hG, max_le (C133_gain_le (hi.isConvolution b) hG ((gl s).hasGain hd zero_le_one).2)
      (C133_gain_le (hi.isConvolution b) hG ((gl s).hasGain hd zero_le_one).1), hB⟩
  · intro s
    obtain ⟨Q, e, hQ, hN, k⟩ := kernel_shelf (σ := -1) h hA (by norm_num) (.inr rfl) hS'
    have hi := s.implements sr f db S
    have hP : 0 < 2 * √(gainA db) * alphaS sr f (gainA db) S := by
      have := h.alphaS_pos hA
      positivity
    have hk := k.shelf (sq_nonneg (gainA db)) hA.le zero_le_one
    have hks := k.solves
    generalize 2 * √(gainA db) * alphaS sr f (gainA db) S = P at *
    generalize gainA db = A at *
    generalize Real.cos (angle sr f) = c at *
    rw [show A + 1 - (A - 1) * c = A + 1 + (A - 1) * -c by ring] at hi
    obtain ⟨N, hN'⟩ : ∃ N, N = A + 1 + (A - 1) * -c := ⟨_, rfl⟩
    obtain ⟨G, hG, hB⟩ := peak_of_sumBelow (b := b) hi (e := e) (by
      convert hks using 1
      · rw [← hN'] at hN ⊢; field_simp; ring
      · rw [← hN'] at hN ⊢; field_simp) (by
      convert hk.mono ((le_of_eq (by ring)).trans (hlast Q hQ)) using 2 with n
      rw [← hN'] at hN ⊢
      field_simp
      rw [hN']
      ring)
    exact ⟨G, hG, max_le (C133_gain_le (hi.isConvolution b) hG ((gh s).hasGain zero_le_one hd).1)
      (C133_gain_le (hi.isConvolution b) hG ((gh s).hasGain zero_le_one hd).2), hB⟩

/-! ## The hypotheses can be met -/

/-- 10 Hz at 48 kHz with a sharp resonance: between 10 and 120. -/
example (b : Build) (s : LowPass ℝ) : PeakGainWithin b (s.setCoefficients 48000 10 10) 10 120 := by
  have := (C133_half (sr := 48000) (f := 10) (q := 10) b ⟨by norm_num, by norm_num, by norm_num⟩ (by norm_num)).1 (by norm_num) s
  norm_num at this ⊢
  exact this

example (b : Build) (s : AllPass ℝ) : PeakGainWithin b (s.setCoefficients 48000 20 100) 1 17 :=
  (C133_filters b ⟨by norm_num, by norm_num, by norm_num⟩ (by norm_num)).2.2.2.2.2 s

example (b : Build) (s : Peak ℝ) : PeakGainWithin b (s.setCoefficients 48000 20 20 1) 10 73 := by
  have h : (1 : ℝ) ≤ 10 ^ ((20 : ℝ) / 40) := Real.one_le_rpow (by norm_num) (by norm_num)
  have := C133_peak (sr := 48000) (f := 20) (q := 1) (db := 20) b ⟨by norm_num, by norm_num, by norm_num⟩ (by linarith) s
  norm_num [dbFactor] at this ⊢
  exact this

example (b : Build) (s : LowShelf ℝ) : PeakGainWithin b (s.setCoefficients 48000 20 20 1) 10 242 := by
  have := (C133_shelves (sr := 48000) (f := 20) (S := 1) (db := 20) b ⟨by norm_num, by norm_num, by norm_num, by norm_num⟩ (by norm_num)).1 s
  norm_num [dbFactor] at this ⊢
  exact this

end Rasp
