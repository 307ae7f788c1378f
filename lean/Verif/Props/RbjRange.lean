import Verif.Spec.RbjRange
import Verif.Props.Rbj
import Verif.Props.Stability

/-!
# C104: rbj parameters out of range, exact arithmetic
-/

namespace Rasp
open FloatOps
variable {σ : Type} [Processor σ ℝ] {s : σ} {sr f q db S : ℝ}

/-! ## Other frequencies -/

private theorem angle_alias (hsr : sr ≠ 0) (k : ℤ) : 2 * Real.pi * (f + k * sr) / sr = 2 * Real.pi * f / sr + k * (2 * Real.pi) := by
  field_simp

/-- **C104**: frequencies that differ by a multiple of the sample rate give the same filter. -/
theorem C104_aliases (hsr : sr ≠ 0) (k : ℤ) :
    (∀ s : LowPass ℝ, s.setCoefficients sr (f + k * sr) q = s.setCoefficients sr f q) ∧
    (∀ s : HighPass ℝ, s.setCoefficients sr (f + k * sr) q = s.setCoefficients sr f q) ∧
    (∀ s : BandPass1 ℝ, s.setCoefficients sr (f + k * sr) q = s.setCoefficients sr f q) ∧
    (∀ s : BandPass2 ℝ, s.setCoefficients sr (f + k * sr) q = s.setCoefficients sr f q) ∧
    (∀ s : BandStop ℝ, s.setCoefficients sr (f + k * sr) q = s.setCoefficients sr f q) ∧
    (∀ s : AllPass ℝ, s.setCoefficients sr (f + k * sr) q = s.setCoefficients sr f q) ∧
    (∀ s : Peak ℝ, s.setCoefficients sr (f + k * sr) db q = s.setCoefficients sr f db q) ∧
    (∀ s : LowShelf ℝ, s.setCoefficients sr (f + k * sr) db S = s.setCoefficients sr f db S) ∧
    (∀ s : HighShelf ℝ, s.setCoefficients sr (f + k * sr) db S = s.setCoefficients sr f db S) := by
  have e := angle_alias (f := f) hsr k
  refine ⟨fun s => ?_, fun s => ?_, fun s => ?_, fun s => ?_, fun s => ?_, fun s => ?_, fun s => ?_, fun s => ?_, fun s => ?_⟩ <;>
    simp only [LowPass.setCoefficients, HighPass.setCoefficients, BandPass1.setCoefficients, BandPass2.setCoefficients,
      BandStop.setCoefficients, AllPass.setCoefficients, Peak.setCoefficients, LowShelf.setCoefficients, HighShelf.setCoefficients,
      real_two, real_pi, real_mul, real_div, real_cos, real_sin, e, Real.cos_add_int_mul_two_pi, Real.sin_add_int_mul_two_pi]

/-- **C104**: a negative frequency is a negative `q`. -/
theorem C104_mirror :
    (∀ s : LowPass ℝ, s.setCoefficients sr (-f) q = s.setCoefficients sr f (-q)) ∧
    (∀ s : HighPass ℝ, s.setCoefficients sr (-f) q = s.setCoefficients sr f (-q)) ∧
    (∀ s : BandPass2 ℝ, s.setCoefficients sr (-f) q = s.setCoefficients sr f (-q)) ∧
    (∀ s : BandStop ℝ, s.setCoefficients sr (-f) q = s.setCoefficients sr f (-q)) ∧
    (∀ s : AllPass ℝ, s.setCoefficients sr (-f) q = s.setCoefficients sr f (-q)) ∧
    (∀ s : Peak ℝ, s.setCoefficients sr (-f) db q = s.setCoefficients sr f db (-q)) := by
  have e : 2 * Real.pi * -f / sr = -(2 * Real.pi * f / sr) := by ring
  have e2 : ∀ w : ℝ, -Real.sin w / (2 * q) = Real.sin w / (2 * -q) := by intro w; rw [mul_neg, neg_div, div_neg]
  refine ⟨fun s => ?_, fun s => ?_, fun s => ?_, fun s => ?_, fun s => ?_, fun s => ?_⟩ <;>
    simp only [LowPass.setCoefficients, HighPass.setCoefficients, BandPass2.setCoefficients,
      BandStop.setCoefficients, AllPass.setCoefficients, Peak.setCoefficients,
      real_two, real_pi, real_mul, real_div, real_cos, real_sin, e, Real.cos_neg, Real.sin_neg, e2]

theorem SolvesDiff.neg_out {b0 b1 b2 a1 a2 : ℝ} {x y : ℕ → ℝ} (h : SolvesDiff b0 b1 b2 a1 a2 x y) :
    SolvesDiff (-b0) (-b1) (-b2) a1 a2 x (fun n => -y n) := by
  intro n
  have h1 : ∀ k, lag (fun n => -y n) k n = -lag y k n := by
    intro k; unfold lag; split <;> simp [real_zero]
  rw [h1, h1]
  show -y n = _
  rw [h n]
  ring

/-- **C104**: for `BandPass1`, whose gain is `q`, a negative frequency is a negative `q` and the opposite polarity. -/
theorem C104_mirror_bandPass1 (s s' : BandPass1 ℝ) (b : Build) (x y : ℕ → ℝ) :
    Responds b (s.setCoefficients sr (-f) q) x y ↔ Responds b (s'.setCoefficients sr f (-q)) x (fun n => -y n) := by
  have ea : angle sr (-f) = -angle sr f := by unfold angle; ring
  have eα : alphaQ sr (-f) q = alphaQ sr f (-q) := by unfold alphaQ; rw [ea, Real.sin_neg, mul_neg, neg_div, div_neg]
  rw [s.implements sr (-f) q b, s'.implements sr f (-q) b, ea, Real.cos_neg, eα]
  have n1 : -(q * alphaQ sr f (-q) / (1 + alphaQ sr f (-q))) = -q * alphaQ sr f (-q) / (1 + alphaQ sr f (-q)) := by ring
  have n2 : -(0 / (1 + alphaQ sr f (-q))) = 0 / (1 + alphaQ sr f (-q)) := by simp
  have n3 : -(-q * alphaQ sr f (-q) / (1 + alphaQ sr f (-q))) = - -q * alphaQ sr f (-q) / (1 + alphaQ sr f (-q)) := by ring
  constructor
  · intro h
    have := h.neg_out
    rwa [n1, n2, n3] at this
  · intro h
    have := h.neg_out
    rw [← n1, ← n2, ← n3] at this
    simpa only [neg_neg] using this

/-! ## The ends of the range -/

theorem Implements.isGain {b0 b1 b2 a1 a2 g : ℝ} (h : Implements s b0 b1 b2 a1 a2) (h0 : b0 = g) (h1 : b1 = g * a1) (h2 : b2 = g * a2) :
    IsGain s g := by
  intro b x y
  rw [h b x y, h0, h1, h2]
  have hs : SolvesDiff g (g * a1) (g * a2) a1 a2 x (fun n => g * x n) := by
    intro n
    have e : ∀ k, lag (fun n => g * x n) k n = g * lag x k n := by
      intro k; unfold lag; split <;> simp [real_zero]
    rw [e, e]; ring
  exact ⟨fun hy => hy.unique hs, fun hy => hy ▸ hs⟩

/-- **C104**, frequency 0: low pass and band pass are mute, the low shelf does nothing, the high shelf amplifies everything, the others do
nothing. -/
theorem C104_zero_frequency (_hq : q ≠ 0) (_hS : S ≠ 0) :
    (∀ s : LowPass ℝ, IsGain (s.setCoefficients sr 0 q) 0) ∧ (∀ s : HighPass ℝ, IsGain (s.setCoefficients sr 0 q) 1) ∧
    (∀ s : BandPass1 ℝ, IsGain (s.setCoefficients sr 0 q) 0) ∧ (∀ s : BandPass2 ℝ, IsGain (s.setCoefficients sr 0 q) 0) ∧
    (∀ s : BandStop ℝ, IsGain (s.setCoefficients sr 0 q) 1) ∧ (∀ s : AllPass ℝ, IsGain (s.setCoefficients sr 0 q) 1) ∧
    (∀ s : Peak ℝ, IsGain (s.setCoefficients sr 0 db q) 1) ∧ (∀ s : LowShelf ℝ, IsGain (s.setCoefficients sr 0 db S) 1) ∧
    (∀ s : HighShelf ℝ, IsGain (s.setCoefficients sr 0 db S) (dbFactor db)) := by
  have ha : angle sr 0 = 0 := by simp [angle]
  have hα : alphaQ sr 0 q = 0 := by simp [alphaQ, ha]
  have hαS : alphaS sr 0 (gainA db) S = 0 := by simp [alphaS, ha]
  have hA := gainA_pos db
  have hA2 := gainA_sq db
  have e1 : gainA db + 1 + (gainA db - 1) * 1 + 2 * Real.sqrt (gainA db) * 0 = 2 * gainA db := by ring
  have e2 : gainA db + 1 - (gainA db - 1) * 1 + 2 * Real.sqrt (gainA db) * 0 = 2 := by ring
  refine ⟨fun s => (s.implements sr 0 q).isGain ?_ ?_ ?_, fun s => (s.implements sr 0 q).isGain ?_ ?_ ?_,
    fun s => (s.implements sr 0 q).isGain ?_ ?_ ?_, fun s => (s.implements sr 0 q).isGain ?_ ?_ ?_, fun s => (s.implements sr 0 q).isGain ?_ ?_ ?_,
    fun s => (s.implements sr 0 q).isGain ?_ ?_ ?_, fun s => (s.implements sr 0 db q).isGain ?_ ?_ ?_, fun s => (s.implements sr 0 db S).isGain ?_ ?_ ?_,
    fun s => (s.implements sr 0 db S).isGain ?_ ?_ ?_⟩ <;>
    simp only [ha, hα, hαS, Real.cos_zero, ← hA2, e1, e2] <;> field_simp <;> ring

/-- **C104**, half of the sample rate: the opposite. -/
theorem C104_nyquist_frequency (hsr : sr ≠ 0) (_hq : q ≠ 0) (_hS : S ≠ 0) :
    (∀ s : LowPass ℝ, IsGain (s.setCoefficients sr (sr / 2) q) 1) ∧ (∀ s : HighPass ℝ, IsGain (s.setCoefficients sr (sr / 2) q) 0) ∧
    (∀ s : BandPass1 ℝ, IsGain (s.setCoefficients sr (sr / 2) q) 0) ∧ (∀ s : BandPass2 ℝ, IsGain (s.setCoefficients sr (sr / 2) q) 0) ∧
    (∀ s : BandStop ℝ, IsGain (s.setCoefficients sr (sr / 2) q) 1) ∧ (∀ s : AllPass ℝ, IsGain (s.setCoefficients sr (sr / 2) q) 1) ∧
    (∀ s : Peak ℝ, IsGain (s.setCoefficients sr (sr / 2) db q) 1) ∧
    (∀ s : LowShelf ℝ, IsGain (s.setCoefficients sr (sr / 2) db S) (dbFactor db)) ∧
    (∀ s : HighShelf ℝ, IsGain (s.setCoefficients sr (sr / 2) db S) 1) := by
  have ha : angle sr (sr / 2) = Real.pi := by unfold angle; field_simp
  have hα : alphaQ sr (sr / 2) q = 0 := by simp [alphaQ, ha]
  have hαS : alphaS sr (sr / 2) (gainA db) S = 0 := by simp [alphaS, ha]
  have hA := gainA_pos db
  have hA2 := gainA_sq db
  have e1 : gainA db + 1 + (gainA db - 1) * -1 + 2 * Real.sqrt (gainA db) * 0 = 2 := by ring
  have e2 : gainA db + 1 - (gainA db - 1) * -1 + 2 * Real.sqrt (gainA db) * 0 = 2 * gainA db := by ring
  refine ⟨fun s => (s.implements sr _ q).isGain ?_ ?_ ?_, fun s => (s.implements sr _ q).isGain ?_ ?_ ?_,
    fun s => (s.implements sr _ q).isGain ?_ ?_ ?_, fun s => (s.implements sr _ q).isGain ?_ ?_ ?_, fun s => (s.implements sr _ q).isGain ?_ ?_ ?_,
    fun s => (s.implements sr _ q).isGain ?_ ?_ ?_, fun s => (s.implements sr _ db q).isGain ?_ ?_ ?_, fun s => (s.implements sr _ db S).isGain ?_ ?_ ?_,
    fun s => (s.implements sr _ db S).isGain ?_ ?_ ?_⟩ <;>
    simp only [ha, hα, hαS, Real.cos_pi, ← hA2, e1, e2] <;> field_simp <;> ring

/-! ## Beyond -/

theorem gainA_ne_one (hdb : db ≠ 0) : gainA db ≠ 1 := by
  unfold gainA
  rcases lt_or_gt_of_ne hdb with h | h
  · exact (Real.rpow_lt_one_of_one_lt_of_neg (by norm_num) (by linarith)).ne
  · exact (Real.one_lt_rpow (by norm_num) (by linarith)).ne'

theorem WrongSide.props (h : WrongSide sr f q) :
    alphaQ sr f q < 0 ∧ -1 < Real.cos (angle sr f) ∧ Real.cos (angle sr f) < 1 := by
  have hp := Real.pi_pos
  rcases h with ⟨hq, h1, h2⟩ | ⟨hq, h1, h2⟩
  · have hsr : 0 < sr := by linarith
    have hs : Real.sin (angle sr f) < 0 := by
      have e : angle sr f = angle sr (f - sr) + 2 * Real.pi := by unfold angle; field_simp; ring
      rw [e, Real.sin_add_two_pi]
      refine Real.sin_neg_of_neg_of_neg_pi_lt ?_ ?_
      · unfold angle; exact div_neg_of_neg_of_pos (by nlinarith) hsr
      · unfold angle; rw [lt_div_iff₀ hsr]; nlinarith
    have := Real.sin_sq_add_cos_sq (angle sr f)
    have h3 : Real.cos (angle sr f) ^ 2 < 1 := by nlinarith
    exact ⟨div_neg_of_neg_of_pos hs (by positivity), by nlinarith, by nlinarith⟩
  · have hs : 0 < Real.sin (angle sr f) := ValidParams.sin_pos (q := 1) ⟨h1, h2, one_pos⟩
    obtain ⟨c1, c2⟩ := cos_lt_one_of_sin_pos hs
    exact ⟨div_neg_of_pos_of_neg hs (by linarith), c1, c2⟩

theorem Implements.unstable {b0 b1 b2 a0 a1 a2 : ℝ} (h : Implements s (b0 / a0) (b1 / a0) (b2 / a0) (a1 / a0) (a2 / a0)) (h0 : a0 ≠ 0)
    (hs : a0 ^ 2 < a2 ^ 2)
    (hc : ∀ p : ℂ, 1 ≤ ‖p‖ → (a0 : ℂ) * p ^ 2 + a1 * p + a2 = 0 → (b0 : ℂ) * p ^ 2 + b1 * p + b2 ≠ 0) : Unstable s := by
  have h0' : (a0 : ℂ) ≠ 0 := by exact_mod_cast h0
  have hn : NoCancelledPole (b0 / a0) (b1 / a0) (b2 / a0) (a1 / a0) (a2 / a0) := by
    intro p hp hr hz
    push_cast at hr hz
    field_simp at hr hz
    exact hc p hp (by linear_combination hr) (by linear_combination hz)
  have hst : ¬ StablePair (a1 / a0) (a2 / a0) := by
    rintro ⟨h1, -⟩
    rw [abs_div, div_lt_one (abs_pos.mpr h0)] at h1
    exact absurd (sq_lt_sq.mpr h1) (not_lt.mpr hs.le)
  exact ⟨h.from.total, fun hb => hst ((h.from.bounded_iff hn).mp hb), fun hb => hst ((h.from.decays_iff hn).mp hb)⟩

/-- A root of the common denominator is not ±1 and not on the unit circle at the angle of the filter. -/
theorem den_root {α c : ℝ} (h1 : -1 < c) (h2 : c < 1) {p : ℂ} (h : ((1 + α : ℝ) : ℂ) * p ^ 2 + ((-2 * c : ℝ) : ℂ) * p + ((1 - α : ℝ) : ℂ) = 0) :
    p ^ 2 ≠ 1 := by
  intro hp
  have e : (c : ℂ) * p = 1 := by
    push_cast at h
    linear_combination (-(1 + (α : ℂ)) / 2) * (hp) * (-1) + (-1 / 2) * h
  have e2 : (c : ℂ) ^ 2 = 1 := by
    have := congrArg (· ^ 2) e
    simp only [mul_pow, hp, one_pow, mul_one] at this
    exact this
  have e3 : c ^ 2 = 1 := by exact_mod_cast e2
  nlinarith

theorem alpha_ne {k : ℝ} (hq : q ≠ 0) (hk : k ≠ 0) (h0 : 2 * q * k ≠ -Real.sin (angle sr f)) : 1 + alphaQ sr f q / k ≠ 0 := by
  intro e
  apply h0
  unfold alphaQ at e
  field_simp at e
  linarith

theorem WrongSide.q_ne (h : WrongSide sr f q) : q ≠ 0 := by
  rcases h with ⟨hq, -⟩ | ⟨hq, -⟩
  · exact hq.ne'
  · exact hq.ne

/-- **C104**: with the frequency above half of the sample rate, or with a negative `q`, the filters are unstable. -/
theorem C104_unstable (h : WrongSide sr f q) (h0 : 2 * q ≠ -Real.sin (angle sr f)) :
    (∀ s : LowPass ℝ, Unstable (s.setCoefficients sr f q)) ∧ (∀ s : HighPass ℝ, Unstable (s.setCoefficients sr f q)) ∧
    (∀ s : BandPass1 ℝ, Unstable (s.setCoefficients sr f q)) ∧ (∀ s : BandPass2 ℝ, Unstable (s.setCoefficients sr f q)) ∧
    (∀ s : BandStop ℝ, Unstable (s.setCoefficients sr f q)) ∧ (∀ s : AllPass ℝ, Unstable (s.setCoefficients sr f q)) := by
  obtain ⟨hα, c1, c2⟩ := h.props
  have hq := h.q_ne
  have ha0 : 1 + alphaQ sr f q ≠ 0 := by
    have := alpha_ne (sr := sr) (f := f) hq one_ne_zero (by rwa [mul_one])
    rwa [div_one] at this
  have hs : (1 + alphaQ sr f q) ^ 2 < (1 - alphaQ sr f q) ^ 2 := by nlinarith
  have hα0 : (alphaQ sr f q : ℂ) ≠ 0 := by exact_mod_cast hα.ne
  have hqc : (q : ℂ) ≠ 0 := by exact_mod_cast hq
  have d1 : (1 : ℂ) - Real.cos (angle sr f) ≠ 0 := by
    have : 1 - Real.cos (angle sr f) ≠ 0 := by linarith
    exact_mod_cast this
  have d2 : (1 : ℂ) + Real.cos (angle sr f) ≠ 0 := by
    have : 1 + Real.cos (angle sr f) ≠ 0 := by linarith
    exact_mod_cast this
  refine ⟨fun s => (s.implements sr f q).unstable ha0 hs fun p _ hp hz => ?_, fun s => (s.implements sr f q).unstable ha0 hs fun p _ hp hz => ?_,
    fun s => (s.implements sr f q).unstable ha0 hs fun p _ hp hz => ?_, fun s => (s.implements sr f q).unstable ha0 hs fun p _ hp hz => ?_,
    fun s => (s.implements sr f q).unstable ha0 hs fun p _ hp hz => ?_, fun s => (s.implements sr f q).unstable ha0 hs fun p _ hp hz => ?_⟩ <;>
    refine den_root c1 c2 hp ?_ <;> push_cast at hp hz
  · have : (1 - (Real.cos (angle sr f) : ℂ)) * (p + 1) ^ 2 = 0 := by push_cast; linear_combination 2 * hz
    rcases mul_eq_zero.mp this with e | e
    · exact absurd e d1
    · have e1 : p + 1 = 0 := pow_eq_zero_iff two_ne_zero |>.mp e
      rw [eq_neg_of_add_eq_zero_left e1]; ring
  · have : (1 + (Real.cos (angle sr f) : ℂ)) * (p - 1) ^ 2 = 0 := by push_cast; linear_combination 2 * hz
    rcases mul_eq_zero.mp this with e | e
    · exact absurd e d2
    · have e1 : p - 1 = 0 := pow_eq_zero_iff two_ne_zero |>.mp e
      rw [sub_eq_zero.mp e1]; ring
  · have : ((q : ℂ) * alphaQ sr f q) * (p ^ 2 - 1) = 0 := by linear_combination hz
    exact sub_eq_zero.mp ((mul_eq_zero.mp this).resolve_left (mul_ne_zero hqc hα0))
  · have : (alphaQ sr f q : ℂ) * (p ^ 2 - 1) = 0 := by linear_combination hz
    exact sub_eq_zero.mp ((mul_eq_zero.mp this).resolve_left hα0)
  · have : (alphaQ sr f q : ℂ) * (p ^ 2 - 1) = 0 := by linear_combination hp - hz
    exact sub_eq_zero.mp ((mul_eq_zero.mp this).resolve_left hα0)
  · have : (alphaQ sr f q : ℂ) * (p ^ 2 - 1) = 0 := by linear_combination (hp - hz) / 2
    exact sub_eq_zero.mp ((mul_eq_zero.mp this).resolve_left hα0)

/-- **C104**, `Peak`: likewise, unless its gain is 0 dB. -/
theorem C104_unstable_peak (h : WrongSide sr f q) (hdb : db ≠ 0) (h0 : 2 * q * 10 ^ (db / 40) ≠ -Real.sin (angle sr f)) (s : Peak ℝ) :
    Unstable (s.setCoefficients sr f db q) := by
  obtain ⟨hα, c1, c2⟩ := h.props
  have hA := gainA_pos db
  have ha0 : 1 + alphaQ sr f q / gainA db ≠ 0 := alpha_ne h.q_ne hA.ne' h0
  have hβ : alphaQ sr f q / gainA db < 0 := div_neg_of_neg_of_pos hα hA
  have hα0 : (alphaQ sr f q : ℂ) ≠ 0 := by exact_mod_cast hα.ne
  have hAc : (gainA db : ℂ) ≠ 0 := by exact_mod_cast hA.ne'
  have hA1 : (gainA db : ℂ) ^ 2 - 1 ≠ 0 := by
    have : gainA db ^ 2 - 1 ≠ 0 := by
      intro e
      have : (gainA db - 1) * (gainA db + 1) = 0 := by linear_combination e
      rcases mul_eq_zero.mp this with e | e
      · exact gainA_ne_one hdb (by linarith)
      · linarith
    exact_mod_cast this
  refine (s.implements sr f db q).unstable ha0 (by nlinarith) fun p _ hp hz => den_root c1 c2 hp ?_
  push_cast at hp hz
  have : ((alphaQ sr f q : ℂ) * ((gainA db : ℂ) ^ 2 - 1)) * (p ^ 2 - 1) = 0 := by
    field_simp at hp
    linear_combination (gainA db : ℂ) * hz - hp
  exact sub_eq_zero.mp ((mul_eq_zero.mp this).resolve_left (mul_ne_zero hα0 hA1))

/-! ## Shelves -/

/-- The radicand of the shelves, cleared of fractions. -/
theorem radicand_eq {A : ℝ} (hA : 0 < A) (hS : S ≠ 0) : A * S * ((A + 1 / A) * (1 / S - 1) + 2) = A ^ 2 + 1 - S * (A - 1) ^ 2 := by
  field_simp
  ring

/-- **C104**: shelves steeper than slope 1 are stable as long as the radicand of `alpha` is positive. -/
theorem C104_steep_shelves (hf : 0 < f) (hsr : f < sr / 2) (hS : 0 < S)
    (hr : S * ((10 : ℝ) ^ (db / 40) - 1) ^ 2 < ((10 : ℝ) ^ (db / 40)) ^ 2 + 1) :
    (∀ s : LowShelf ℝ, Stable (s.setCoefficients sr f db S)) ∧ (∀ s : HighShelf ℝ, Stable (s.setCoefficients sr f db S)) := by
  have hs : 0 < Real.sin (angle sr f) := ValidParams.sin_pos (q := 1) ⟨hf, hsr, one_pos⟩
  obtain ⟨c1, c2⟩ := cos_lt_one_of_sin_pos hs
  have hA := gainA_pos db
  have hrad : 0 < (gainA db + 1 / gainA db) * (1 / S - 1) + 2 := by
    have e := radicand_eq hA hS.ne'
    have : 0 < gainA db * S := by positivity
    refine pos_of_mul_pos_right ?_ this.le
    rw [e]
    have : S * (gainA db - 1) ^ 2 < gainA db ^ 2 + 1 := hr
    linarith
  have hp : 0 < 2 * Real.sqrt (gainA db) * alphaS sr f (gainA db) S := by
    have h1 := Real.sqrt_pos.mpr hA
    have h2 := Real.sqrt_pos.mpr hrad
    unfold alphaS
    positivity
  exact ⟨fun s => (s.implements sr f db S).stable (lowShelf_stable hA c1 c2 hp), fun s => (s.implements sr f db S).stable (highShelf_stable hA c1 c2 hp)⟩

/-- Common roots of numerator and denominator of a shelf. -/
theorem shelf_common {A c v : ℝ} (hA1 : A ≠ 1) (h1 : -1 < c) (h2 : c < 1) {p : ℂ} (hp : 1 ≤ ‖p‖)
    (hd : (A + 1 + (A - 1) * c + v : ℂ) * p ^ 2 - 2 * (A - 1 + (A + 1) * c) * p + (A + 1 + (A - 1) * c - v) = 0)
    (hn : (A + 1 - (A - 1) * c + v : ℂ) * p ^ 2 + 2 * (A - 1 - (A + 1) * c) * p + (A + 1 - (A - 1) * c - v) = 0) :
    v ^ 2 = (A + 1) ^ 2 * (1 - c ^ 2) := by
  have hp0 : p ≠ 0 := by
    rintro rfl
    rw [norm_zero] at hp
    linarith
  have hA1c : (A - 1 : ℂ) ≠ 0 := by
    have : A - 1 ≠ 0 := sub_ne_zero.mpr hA1
    exact_mod_cast this
  have e1 : (c : ℂ) * (p ^ 2 + 1) = 2 * p := by
    have : (A - 1 : ℂ) * ((c : ℂ) * (p ^ 2 + 1) - 2 * p) = 0 := by linear_combination (hd - hn) / 2
    exact sub_eq_zero.mp ((mul_eq_zero.mp this).resolve_left hA1c)
  have e2 : (A + 1 : ℂ) * (p ^ 2 + 1 - 2 * c * p) + v * (p ^ 2 - 1) = 0 := by linear_combination (hd + hn) / 2
  have e3 : (v * c * (p ^ 2 - 1) : ℂ) = -(2 * (A + 1) * (1 - c ^ 2) * p) := by
    linear_combination (c : ℂ) * e2 - (A + 1 : ℂ) * e1
  have e4 : ((c : ℂ) * (p ^ 2 - 1)) ^ 2 = 4 * p ^ 2 * (1 - c ^ 2) := by
    linear_combination (c * (p ^ 2 + 1) + 2 * p) * e1
  have hc2 : (1 - c ^ 2 : ℂ) ≠ 0 := by
    have : 1 - c ^ 2 ≠ 0 := by nlinarith
    exact_mod_cast this
  have e5 : (4 * p ^ 2 * (1 - c ^ 2) : ℂ) * (v ^ 2 - (A + 1) ^ 2 * (1 - c ^ 2)) = 0 := by
    linear_combination (v * c * (p ^ 2 - 1) - (2 * (A + 1) * (1 - c ^ 2) * p)) * e3 - (v : ℂ) ^ 2 * e4
  have e6 := (mul_eq_zero.mp e5).resolve_left (mul_ne_zero (mul_ne_zero (by norm_num) (pow_ne_zero 2 hp0)) hc2)
  have : v ^ 2 - (A + 1) ^ 2 * (1 - c ^ 2) = 0 := by exact_mod_cast e6
  linarith

/-- **C104**, shelves with the frequency above half of the sample rate: unstable, with the exceptions of 0 dB, of slope 1/2 (where one of the
two poles is cancelled) and of a vanishing `a0`. -/
theorem C104_unstable_shelves (h1 : sr / 2 < f) (h2 : f < sr) (hS : 0 < S) (hS2 : S ≠ 1 / 2) (hdb : db ≠ 0)
    (hr : S * ((10 : ℝ) ^ (db / 40) - 1) ^ 2 < ((10 : ℝ) ^ (db / 40)) ^ 2 + 1) :
    (∀ s : LowShelf ℝ, gainA db + 1 + (gainA db - 1) * Real.cos (angle sr f) + 2 * Real.sqrt (gainA db) * alphaS sr f (gainA db) S ≠ 0 →
      Unstable (s.setCoefficients sr f db S)) ∧
    (∀ s : HighShelf ℝ, gainA db + 1 - (gainA db - 1) * Real.cos (angle sr f) + 2 * Real.sqrt (gainA db) * alphaS sr f (gainA db) S ≠ 0 →
      Unstable (s.setCoefficients sr f db S)) := by
  obtain ⟨hα, c1, c2⟩ := WrongSide.props (q := 1) (Or.inl ⟨one_pos, h1, h2⟩)
  have hs : Real.sin (angle sr f) < 0 := by unfold alphaQ at hα; linarith
  have hA := gainA_pos db
  have hrad : 0 < (gainA db + 1 / gainA db) * (1 / S - 1) + 2 := by
    have e := radicand_eq hA hS.ne'
    have : 0 < gainA db * S := by positivity
    refine pos_of_mul_pos_right ?_ this.le
    rw [e]
    have : S * (gainA db - 1) ^ 2 < gainA db ^ 2 + 1 := hr
    linarith
  have hA1 := gainA_ne_one hdb
  have hv : 2 * Real.sqrt (gainA db) * alphaS sr f (gainA db) S < 0 := by
    have q1 := Real.sqrt_pos.mpr hA
    have q2 := Real.sqrt_pos.mpr hrad
    unfold alphaS
    exact mul_neg_of_pos_of_neg (by positivity) (mul_neg_of_neg_of_pos (by linarith) q2)
  have hv2 : (2 * Real.sqrt (gainA db) * alphaS sr f (gainA db) S) ^ 2 ≠ (gainA db + 1) ^ 2 * (1 - Real.cos (angle sr f) ^ 2) := by
    intro e
    have e1 : (2 * Real.sqrt (gainA db) * alphaS sr f (gainA db) S) ^ 2 =
        gainA db * ((gainA db + 1 / gainA db) * (1 / S - 1) + 2) * Real.sin (angle sr f) ^ 2 := by
      unfold alphaS
      have q1 := Real.sq_sqrt hA.le
      have q2 := Real.sq_sqrt hrad.le
      calc _ = Real.sqrt (gainA db) ^ 2 * Real.sqrt ((gainA db + 1 / gainA db) * (1 / S - 1) + 2) ^ 2 * Real.sin (angle sr f) ^ 2 := by ring
        _ = _ := by rw [q1, q2]
    have e2 : 1 - Real.cos (angle sr f) ^ 2 = Real.sin (angle sr f) ^ 2 := by linarith [Real.sin_sq_add_cos_sq (angle sr f)]
    rw [e1, e2] at e
    have e3 := mul_right_cancel₀ (pow_ne_zero 2 hs.ne) e
    have e4 := radicand_eq hA hS.ne'
    have e5 : S * (gainA db + 1) ^ 2 = gainA db ^ 2 + 1 - S * (gainA db - 1) ^ 2 := by linear_combination e4 - S * e3
    have e6 : (2 * S - 1) * (gainA db ^ 2 + 1) = 0 := by linear_combination e5
    rcases mul_eq_zero.mp e6 with e7 | e7
    · exact hS2 (by linarith)
    · nlinarith
  have p1 : 0 < gainA db + 1 + (gainA db - 1) * Real.cos (angle sr f) := by
    nlinarith [mul_pos hA (show 0 < 1 + Real.cos (angle sr f) by linarith)]
  have p2 : 0 < gainA db + 1 - (gainA db - 1) * Real.cos (angle sr f) := by
    nlinarith [mul_pos hA (show 0 < 1 - Real.cos (angle sr f) by linarith)]
  have hAc : (gainA db : ℂ) ≠ 0 := by exact_mod_cast hA.ne'
  constructor
  · intro s h0
    have i := s.implements sr f db S
    generalize 2 * Real.sqrt (gainA db) * alphaS sr f (gainA db) S = v at *
    refine i.unstable h0 (by nlinarith) fun p hp hr hz => hv2 ?_
    push_cast at hr hz
    refine shelf_common hA1 c1 c2 hp (by push_cast; linear_combination hr) ?_
    refine (mul_eq_zero.mp (?_ : (gainA db : ℂ) * _ = 0)).resolve_left hAc
    push_cast
    linear_combination hz
  · intro s h0
    have i := s.implements sr f db S
    generalize 2 * Real.sqrt (gainA db) * alphaS sr f (gainA db) S = v at *
    refine i.unstable h0 (by nlinarith) fun p hp hr hz => hv2 ?_
    push_cast at hr hz
    refine shelf_common hA1 c1 c2 hp ?_ (by push_cast; linear_combination hr)
    refine (mul_eq_zero.mp (?_ : (gainA db : ℂ) * _ = 0)).resolve_left hAc
    push_cast
    linear_combination hz

/-! ## The hypotheses can be met -/

theorem angle_4_3 : Real.cos (angle 4 3) = 0 ∧ Real.sin (angle 4 3) = -1 := by
  have e : angle 4 3 = -(Real.pi / 2) + 2 * Real.pi := by unfold angle; ring
  rw [e, Real.cos_add_two_pi, Real.sin_add_two_pi, Real.cos_neg, Real.sin_neg, Real.cos_pi_div_two, Real.sin_pi_div_two]
  exact ⟨rfl, rfl⟩

/-- A frequency of three quarters of the sample rate. -/
example : WrongSide 4 3 1 ∧ 2 * (1 : ℝ) ≠ -Real.sin (angle 4 3) := by
  refine ⟨Or.inl ⟨one_pos, by norm_num, by norm_num⟩, ?_⟩
  rw [angle_4_3.2]
  norm_num

/-- ... so that such a low pass filter blows up although its input is bounded. -/
example : ¬ IsBounded ((LowPass.new : LowPass ℝ).setCoefficients 4 3 1) :=
  ((C104_unstable (Or.inl ⟨one_pos, by norm_num, by norm_num⟩) (by rw [angle_4_3.2]; norm_num)).1 _).2.1

/-- A negative `q`. -/
example : WrongSide 4 1 (-1) ∧ 2 * (-1 : ℝ) ≠ -Real.sin (angle 4 1) := by
  refine ⟨Or.inr ⟨by norm_num, by norm_num, by norm_num⟩, ?_⟩
  have : angle 4 1 = Real.pi / 2 := by unfold angle; ring
  rw [this, Real.sin_pi_div_two]
  norm_num

/-- A peak of 40 dB. -/
example : Unstable ((Peak.new : Peak ℝ).setCoefficients 4 3 40 1) := by
  refine C104_unstable_peak (Or.inl ⟨one_pos, by norm_num, by norm_num⟩) (by norm_num) ?_ _
  rw [angle_4_3.2]
  norm_num

/-- Slope 10/9 at 40 dB is steeper than 1 and still stable. -/
example : Stable ((LowShelf.new : LowShelf ℝ).setCoefficients 4 1 40 (10 / 9)) :=
  (C104_steep_shelves (by norm_num) (by norm_num) (by norm_num) (by norm_num)).1 _

/-- A low shelf of 40 dB at three quarters of the sample rate. -/
example : Unstable ((LowShelf.new : LowShelf ℝ).setCoefficients 4 3 40 1) := by
  refine (C104_unstable_shelves (by norm_num) (by norm_num) one_pos (by norm_num) (by norm_num) (by norm_num)).1 _ ?_
  have e : gainA 40 = 10 := by unfold gainA; norm_num
  unfold alphaS
  rw [angle_4_3.1, angle_4_3.2, e]
  have h1 : Real.sqrt 10 < 4 := by rw [Real.sqrt_lt' (by norm_num)]; norm_num
  have h2 : Real.sqrt ((10 + 1 / 10) * (1 / 1 - 1) + 2) ≤ 2 := by rw [Real.sqrt_le_left (by norm_num)]; norm_num
  have h3 := Real.sqrt_nonneg (10 : ℝ)
  have h4 := Real.sqrt_nonneg (((10 : ℝ) + 1 / 10) * (1 / 1 - 1) + 2)
  nlinarith

end Rasp
