import Verif.Spec.MeterNoise
import Verif.Props.Meters
import Verif.Props.Noise
import Mathlib.MeasureTheory.Integral.Bochner.Basic
import Mathlib.MeasureTheory.Function.L1Space.Integrable

/-!
# C149: what the meters read on noise
-/

namespace Rasp
open FloatOps Filter Topology MeasureTheory
variable {Ω : Type} [MeasurableSpace Ω] {μ : Measure Ω} {a r g c M V : ℝ} {i e : ℕ → Ω → ℝ}

/-! ## The envelope of a random level -/

theorem followed_eq_max (h : a ≤ r) (e i : ℝ) : followed a r e i = max (i + a * (e - i)) (i + r * (e - i)) := by
  unfold followed
  split_ifs with h1
  · rw [max_eq_left (by nlinarith)]
  · rw [max_eq_right (by nlinarith)]

theorem followed_eq_min (h : r ≤ a) (e i : ℝ) : followed a r e i = min (i + a * (e - i)) (i + r * (e - i)) := by
  unfold followed
  split_ifs with h1
  · rw [min_eq_left (by nlinarith)]
  · rw [min_eq_right (by nlinarith)]

theorem le_followed (h1 : a ≤ g) (h2 : g ≤ r) (e i : ℝ) : i + g * (e - i) ≤ followed a r e i := by
  unfold followed
  split_ifs with h <;> nlinarith

theorem followed_le (h1 : r ≤ g) (h2 : g ≤ a) (e i : ℝ) : followed a r e i ≤ i + g * (e - i) := by
  unfold followed
  split_ifs with h <;> nlinarith

theorem envelope_integrable [IsProbabilityMeasure μ] (h0 : ∀ ω, e 0 ω = c) (he : ∀ n ω, e (n + 1) ω = followed a r (e n ω) (i n ω))
    (hi : ∀ n, Integrable (i n) μ) (n : ℕ) : Integrable (e n) μ := by
  induction n with
  | zero => rw [show e 0 = fun _ => c from funext h0]; exact integrable_const c
  | succ n ih =>
    have l : ∀ k : ℝ, Integrable (fun ω => i n ω + k * (e n ω - i n ω)) μ := fun k => (hi n).add ((ih.sub (hi n)).const_mul k)
    rcases le_total a r with h | h
    · rw [show e (n + 1) = fun ω => max (i n ω + a * (e n ω - i n ω)) (i n ω + r * (e n ω - i n ω)) from funext fun ω => by rw [he, followed_eq_max h]]
      exact (l a).sup (l r)
    · rw [show e (n + 1) = fun ω => min (i n ω + a * (e n ω - i n ω)) (i n ω + r * (e n ω - i n ω)) from funext fun ω => by rw [he, followed_eq_min h]]
      exact (l a).inf (l r)

theorem integral_smooth {e i : Ω → ℝ} (he : Integrable e μ) (hi : Integrable i μ) (g : ℝ) :
    ∫ ω, i ω + g * (e ω - i ω) ∂μ = (1 - g) * ∫ ω, i ω ∂μ + g * ∫ ω, e ω ∂μ := by
  have h : Integrable (fun ω => g * (e ω - i ω)) μ := (he.sub hi).const_mul g
  rw [integral_add hi h, integral_const_mul, integral_sub he hi]
  ring

theorem envelope_mean_ge [IsProbabilityMeasure μ] (h0 : ∀ ω, e 0 ω = c) (he : ∀ n ω, e (n + 1) ω = followed a r (e n ω) (i n ω))
    (hi : SteadyMean μ i M) (hg : 0 ≤ g) (h1 : a ≤ g) (h2 : g ≤ r) (n : ℕ) : M + g ^ n * (c - M) ≤ ∫ ω, e n ω ∂μ := by
  have hI := envelope_integrable h0 he fun n => (hi n).1
  induction n with
  | zero => simp [h0]
  | succ n ih =>
    have : ∫ ω, i n ω + g * (e n ω - i n ω) ∂μ ≤ ∫ ω, e (n + 1) ω ∂μ :=
      integral_mono ((hi n).1.add (((hI n).sub (hi n).1).const_mul g)) (hI _) fun ω => by
        beta_reduce; rw [he]; exact le_followed h1 h2 _ _
    rw [integral_smooth (hI n) (hi n).1, (hi n).2] at this
    refine le_trans ?_ this
    have := mul_le_mul_of_nonneg_left ih hg
    rw [pow_succ]
    linarith

theorem envelope_mean_le [IsProbabilityMeasure μ] (h0 : ∀ ω, e 0 ω = c) (he : ∀ n ω, e (n + 1) ω = followed a r (e n ω) (i n ω))
    (hi : SteadyMean μ i M) (hg : 0 ≤ g) (h1 : r ≤ g) (h2 : g ≤ a) (n : ℕ) : ∫ ω, e n ω ∂μ ≤ M + g ^ n * (c - M) := by
  have hI := envelope_integrable h0 he fun n => (hi n).1
  induction n with
  | zero => simp [h0]
  | succ n ih =>
    have : ∫ ω, e (n + 1) ω ∂μ ≤ ∫ ω, i n ω + g * (e n ω - i n ω) ∂μ :=
      integral_mono (hI _) ((hi n).1.add (((hI n).sub (hi n).1).const_mul g)) fun ω => by
        beta_reduce; rw [he]; exact followed_le h1 h2 _ _
    rw [integral_smooth (hI n) (hi n).1, (hi n).2] at this
    refine this.trans ?_
    have := mul_le_mul_of_nonneg_left ih hg
    rw [pow_succ]
    linarith

theorem envelope_variance [IsProbabilityMeasure μ] (h0 : ∀ ω, e 0 ω = c) (he : ∀ n ω, e (n + 1) ω = followed g g (e n ω) (i n ω))
    (hi : SteadyMean μ i M) (hz : WhiteNoise μ (fun n ω => i n ω - M) V) (hg : 0 ≤ g) (n : ℕ) :
    Integrable (fun ω => (e n ω - M) ^ 2) μ ∧ ∫ ω, (e n ω - M) ^ 2 ∂μ = smoothedVariance g V (c - M) n := by
  have hs : ∀ n ω, e (n + 1) ω - M = (1 - g) * (i n ω - M) + g * (e n ω - M) := by
    intro n ω
    rw [he, followed]
    split_ifs <;> ring
  have key : ∀ n, (Integrable (fun ω => (e n ω - M) ^ 2) μ ∧ ∫ ω, (e n ω - M) ^ 2 ∂μ = smoothedVariance g V (c - M) n) ∧
      ∀ k, n ≤ k → Integrable (fun ω => (i k ω - M) * (e n ω - M)) μ ∧ ∫ ω, (i k ω - M) * (e n ω - M) ∂μ = 0 := by
    intro n
    induction n with
    | zero =>
      simp only [h0]
      refine ⟨⟨integrable_const _, by simp [smoothedVariance]⟩, fun k _ => ⟨((hi k).1.sub (integrable_const M)).mul_const _, ?_⟩⟩
      rw [integral_mul_const, integral_sub (hi k).1 (integrable_const M), (hi k).2]
      simp
    | succ n ih =>
      obtain ⟨⟨ih1, ih2⟩, ih3⟩ := ih
      refine ⟨?_, fun k hk => ?_⟩
      · have e1 : ∀ ω, (e (n + 1) ω - M) ^ 2 = (1 - g) ^ 2 * ((i n ω - M) * (i n ω - M)) + (2 * g * (1 - g) * ((i n ω - M) * (e n ω - M)) + g ^ 2 * (e n ω - M) ^ 2) := by
          intro ω; rw [hs]; ring
        simp only [e1]
        have i1 : Integrable (fun ω => (1 - g) ^ 2 * ((i n ω - M) * (i n ω - M))) μ := (hz n n).1.const_mul ((1 - g) ^ 2)
        have i2 : Integrable (fun ω => 2 * g * (1 - g) * ((i n ω - M) * (e n ω - M))) μ := (ih3 n le_rfl).1.const_mul (2 * g * (1 - g))
        have i3 : Integrable (fun ω => g ^ 2 * (e n ω - M) ^ 2) μ := ih1.const_mul (g ^ 2)
        have i4 : Integrable (fun ω => 2 * g * (1 - g) * ((i n ω - M) * (e n ω - M)) + g ^ 2 * (e n ω - M) ^ 2) μ := i2.add i3
        have hv : ∫ ω, (i n ω - M) * (i n ω - M) ∂μ = V := by simpa using (hz n n).2
        refine ⟨i1.add i4, ?_⟩
        rw [integral_add i1 i4, integral_add i2 i3, integral_const_mul, integral_const_mul, integral_const_mul, ih2, (ih3 n le_rfl).2, hv]
        unfold smoothedVariance
        have : 1 + g ≠ 0 := by linarith
        field_simp
        ring
      · have e1 : ∀ ω, (i k ω - M) * (e (n + 1) ω - M) = (1 - g) * ((i k ω - M) * (i n ω - M)) + g * ((i k ω - M) * (e n ω - M)) := by
          intro ω; rw [hs]; ring
        simp only [e1]
        have i1 : Integrable (fun ω => (1 - g) * ((i k ω - M) * (i n ω - M))) μ := (hz k n).1.const_mul (1 - g)
        have i2 : Integrable (fun ω => g * ((i k ω - M) * (e n ω - M))) μ := (ih3 k (by omega)).1.const_mul g
        have hv : ∫ ω, (i k ω - M) * (i n ω - M) ∂μ = 0 := ((hz k n).2).trans (if_neg (by omega))
        refine ⟨i1.add i2, ?_⟩
        rw [integral_add i1 i2, integral_const_mul, integral_const_mul, (ih3 k (by omega)).2, hv]
        ring
  exact (key n).1

/-! ## The meters -/

variable {x y : ℕ → Ω → ℝ} {b : Build}

omit [MeasurableSpace Ω] in
theorem peak_envelope_random {s : PeakEnvDetector ℝ} (hy : ∀ ω, Responds b s (fun n => x n ω) (fun n => y n ω)) :
    ∃ e : ℕ → Ω → ℝ, (∀ ω, e 0 ω = s.lastOut) ∧ (∀ n ω, e (n + 1) ω = followed s.getAttackGain s.getReleaseGain (e n ω) |x n ω|) ∧
      ∀ n ω, y n ω = e (n + 1) ω := by
  choose e h1 h2 h3 using fun ω => peak_follows (hy ω)
  exact ⟨fun n ω => e ω n, h1, fun n ω => h2 ω n, fun n ω => h3 ω n⟩

omit [MeasurableSpace Ω] in
theorem rms_envelope_random {s : RmsEnvDetector ℝ} (ha : s.getAttackGain ∈ Set.Icc (0 : ℝ) 1) (hr : s.getReleaseGain ∈ Set.Icc (0 : ℝ) 1) (h0 : 0 ≤ s.envelope)
    (hy : ∀ ω, Responds b s (fun n => x n ω) (fun n => y n ω)) :
    ∃ e : ℕ → Ω → ℝ, (∀ ω, e 0 ω = s.lastOut ^ 2) ∧ (∀ n ω, e (n + 1) ω = followed s.getAttackGain s.getReleaseGain (e n ω) (x n ω ^ 2)) ∧
      ∀ n ω, y n ω ^ 2 = e (n + 1) ω := by
  choose e h1 h2 h3 using fun ω => rms_follows (hy ω)
  have hn : ∀ ω n, 0 ≤ e ω n := by
    intro ω n
    induction n with
    | zero => rw [h1]; exact h0
    | succ n ih => rw [h2]; exact followed_nonneg ha hr ih (sq_nonneg _)
  refine ⟨fun n ω => e ω n, fun ω => ?_, fun n ω => h2 ω n, fun n ω => ?_⟩
  · exact (h1 ω).trans (Real.sq_sqrt h0).symm
  · beta_reduce; rw [h3, Real.sq_sqrt (hn _ _)]

/-- **C149.** With equal gains the mean reading of the peak meter approaches the mean magnitude, and the mean square of the readings of the
RMS meter the power, geometrically and exactly. -/
theorem C149_mean [IsProbabilityMeasure μ] :
    (∀ s : PeakEnvDetector ℝ, s.getAttackGain = g → s.getReleaseGain = g → 0 ≤ g → SteadyMean μ (fun n ω => |x n ω|) M →
      (∀ ω, Responds b s (fun n => x n ω) (fun n => y n ω)) → ∀ n, ∫ ω, y n ω ∂μ = M + g ^ (n + 1) * (s.lastOut - M)) ∧
    (∀ s : RmsEnvDetector ℝ, s.getAttackGain = g → s.getReleaseGain = g → 0 ≤ g → g ≤ 1 → 0 ≤ s.envelope → SteadyMean μ (fun n ω => x n ω ^ 2) M →
      (∀ ω, Responds b s (fun n => x n ω) (fun n => y n ω)) → ∀ n, ∫ ω, y n ω ^ 2 ∂μ = M + g ^ (n + 1) * (s.lastOut ^ 2 - M)) := by
  refine ⟨fun s ha hr hg hx hy n => ?_, fun s ha hr hg hg1 h0 hx hy n => ?_⟩
  · obtain ⟨e, h1, h2, h3⟩ := peak_envelope_random hy
    rw [ha, hr] at h2
    simp only [h3]
    exact (envelope_mean_le h1 h2 hx hg le_rfl le_rfl _).antisymm (envelope_mean_ge h1 h2 hx hg le_rfl le_rfl _)
  · obtain ⟨e, h1, h2, h3⟩ := rms_envelope_random (by rw [ha]; exact ⟨hg, hg1⟩) (by rw [hr]; exact ⟨hg, hg1⟩) h0 hy
    rw [ha, hr] at h2
    simp only [h3]
    exact (envelope_mean_le h1 h2 hx hg le_rfl le_rfl _).antisymm (envelope_mean_ge h1 h2 hx hg le_rfl le_rfl _)

/-- **C149.** A meter that rises faster than it falls reads at least as much as any meter with equal gains in between does on average, one that falls faster at most that. -/
theorem C149_unequal [IsProbabilityMeasure μ] (hg : 0 ≤ g) :
    (∀ s : PeakEnvDetector ℝ, SteadyMean μ (fun n ω => |x n ω|) M → (∀ ω, Responds b s (fun n => x n ω) (fun n => y n ω)) →
      (s.getAttackGain ≤ g → g ≤ s.getReleaseGain → ∀ n, M + g ^ (n + 1) * (s.lastOut - M) ≤ ∫ ω, y n ω ∂μ) ∧
      (s.getReleaseGain ≤ g → g ≤ s.getAttackGain → ∀ n, ∫ ω, y n ω ∂μ ≤ M + g ^ (n + 1) * (s.lastOut - M))) ∧
    (∀ s : RmsEnvDetector ℝ, s.getAttackGain ∈ Set.Icc (0 : ℝ) 1 → s.getReleaseGain ∈ Set.Icc (0 : ℝ) 1 → 0 ≤ s.envelope →
      SteadyMean μ (fun n ω => x n ω ^ 2) M → (∀ ω, Responds b s (fun n => x n ω) (fun n => y n ω)) →
      (s.getAttackGain ≤ g → g ≤ s.getReleaseGain → ∀ n, M + g ^ (n + 1) * (s.lastOut ^ 2 - M) ≤ ∫ ω, y n ω ^ 2 ∂μ) ∧
      (s.getReleaseGain ≤ g → g ≤ s.getAttackGain → ∀ n, ∫ ω, y n ω ^ 2 ∂μ ≤ M + g ^ (n + 1) * (s.lastOut ^ 2 - M))) := by
  refine ⟨fun s hx hy => ?_, fun s ha hr h0 hx hy => ?_⟩
  · obtain ⟨e, h1, h2, h3⟩ := peak_envelope_random hy
    simp only [h3]
    exact ⟨fun p q n => envelope_mean_ge h1 h2 hx hg p q _, fun p q n => envelope_mean_le h1 h2 hx hg p q _⟩
  · obtain ⟨e, h1, h2, h3⟩ := rms_envelope_random ha hr h0 hy
    simp only [h3]
    exact ⟨fun p q n => envelope_mean_ge h1 h2 hx hg p q _, fun p q n => envelope_mean_le h1 h2 hx hg p q _⟩

/-- **C149.** With equal gains the variance of the readings is `(1-g)/(1+g)` times the variance of the magnitude (of the square), once the start
is forgotten, if the deviations from the mean are uncorrelated. -/
theorem C149_fluctuation [IsProbabilityMeasure μ] :
    (∀ s : PeakEnvDetector ℝ, s.getAttackGain = g → s.getReleaseGain = g → 0 ≤ g → SteadyMean μ (fun n ω => |x n ω|) M →
      WhiteNoise μ (fun n ω => |x n ω| - M) V → (∀ ω, Responds b s (fun n => x n ω) (fun n => y n ω)) →
      ∀ n, Integrable (fun ω => (y n ω - M) ^ 2) μ ∧ ∫ ω, (y n ω - M) ^ 2 ∂μ = smoothedVariance g V (s.lastOut - M) (n + 1)) ∧
    (∀ s : RmsEnvDetector ℝ, s.getAttackGain = g → s.getReleaseGain = g → 0 ≤ g → g ≤ 1 → 0 ≤ s.envelope → SteadyMean μ (fun n ω => x n ω ^ 2) M →
      WhiteNoise μ (fun n ω => x n ω ^ 2 - M) V → (∀ ω, Responds b s (fun n => x n ω) (fun n => y n ω)) →
      ∀ n, Integrable (fun ω => (y n ω ^ 2 - M) ^ 2) μ ∧ ∫ ω, (y n ω ^ 2 - M) ^ 2 ∂μ = smoothedVariance g V (s.lastOut ^ 2 - M) (n + 1)) := by
  refine ⟨fun s ha hr hg hx hz hy n => ?_, fun s ha hr hg hg1 h0 hx hz hy n => ?_⟩
  · obtain ⟨e, h1, h2, h3⟩ := peak_envelope_random hy
    rw [ha, hr] at h2
    simp only [h3]
    exact envelope_variance h1 h2 hx hz hg _
  · obtain ⟨e, h1, h2, h3⟩ := rms_envelope_random (by rw [ha]; exact ⟨hg, hg1⟩) (by rw [hr]; exact ⟨hg, hg1⟩) h0 hy
    rw [ha, hr] at h2
    simp only [h3]
    exact envelope_variance h1 h2 hx hz hg _

/-- What `smoothedVariance` tends to. -/
theorem C149_settles (hg : 0 ≤ g) (hg1 : g < 1) (V d : ℝ) : Tendsto (smoothedVariance g V d) atTop (𝓝 (V * ((1 - g) / (1 + g)))) := by
  have h : Tendsto (fun n : ℕ => g ^ (2 * n)) atTop (𝓝 0) := by
    simp only [pow_mul]
    exact tendsto_pow_atTop_nhds_zero_of_lt_one (by positivity) (by nlinarith)
  have := ((h.const_sub 1).const_mul (V * ((1 - g) / (1 + g)))).add (h.mul_const (d ^ 2))
  rw [sub_zero, mul_one, zero_mul, add_zero] at this
  exact this

theorem chebyshev {f : Ω → ℝ} {v d : ℝ} (hf : Integrable (fun ω => (f ω - M) ^ 2) μ) (hv : ∫ ω, (f ω - M) ^ 2 ∂μ = v) (hd : 0 < d) :
    μ.real {ω | d ≤ |f ω - M|} ≤ v / d ^ 2 := by
  have := mul_meas_ge_le_integral_of_nonneg (.of_forall fun ω => sq_nonneg (f ω - M)) hf (d ^ 2)
  rw [hv, mul_comm] at this
  rw [le_div_iff₀ (by positivity)]
  refine (congrArg (fun S => μ.real S * d ^ 2 ≤ v) (Set.ext fun ω => ?_)).mpr this
  show d ≤ |f ω - M| ↔ d ^ 2 ≤ (f ω - M) ^ 2
  rw [← sq_abs (f ω - M)]
  exact (pow_le_pow_iff_left₀ hd.le (abs_nonneg _) two_ne_zero).symm

/-- **C149.** How rarely a reading is off by `d` or more. -/
theorem C149_confidence [IsProbabilityMeasure μ] {d : ℝ} (hd : 0 < d) :
    (∀ s : PeakEnvDetector ℝ, s.getAttackGain = g → s.getReleaseGain = g → 0 ≤ g → SteadyMean μ (fun n ω => |x n ω|) M →
      WhiteNoise μ (fun n ω => |x n ω| - M) V → (∀ ω, Responds b s (fun n => x n ω) (fun n => y n ω)) →
      ∀ n, μ.real {ω | d ≤ |y n ω - M|} ≤ smoothedVariance g V (s.lastOut - M) (n + 1) / d ^ 2) ∧
    (∀ s : RmsEnvDetector ℝ, s.getAttackGain = g → s.getReleaseGain = g → 0 ≤ g → g ≤ 1 → 0 ≤ s.envelope → SteadyMean μ (fun n ω => x n ω ^ 2) M →
      WhiteNoise μ (fun n ω => x n ω ^ 2 - M) V → (∀ ω, Responds b s (fun n => x n ω) (fun n => y n ω)) →
      ∀ n, μ.real {ω | d ≤ |y n ω ^ 2 - M|} ≤ smoothedVariance g V (s.lastOut ^ 2 - M) (n + 1) / d ^ 2) := by
  refine ⟨fun s ha hr hg hx hz hy n => ?_, fun s ha hr hg hg1 h0 hx hz hy n => ?_⟩
  · obtain ⟨h1, h2⟩ := C149_fluctuation.1 s ha hr hg hx hz hy n
    exact chebyshev h1 h2 hd
  · obtain ⟨h1, h2⟩ := C149_fluctuation.2 s ha hr hg hg1 h0 hx hz hy n
    exact chebyshev (f := fun ω => y n ω ^ 2) h1 h2 hd

/-- **C149.** Behind a filter that turns white noise of power one into noise of power `E`, the mean square of the readings tends to `E` times the
power at the input. -/
theorem C149_filtered [IsProbabilityMeasure μ] {σ : Type} [Processor σ ℝ] {f : σ} {E P : ℝ} (hc : IsConvolution b f) (hE : AmplifiesNoise b f E)
    {w : ℕ → Ω → ℝ} (hx : WhiteNoise μ x P) (hw : ∀ ω, Responds b f (fun n => x n ω) (fun n => w n ω)) {s : RmsEnvDetector ℝ}
    (ha : s.getAttackGain = g) (hr : s.getReleaseGain = g) (hg : 0 ≤ g) (hg1 : g < 1) (h0 : 0 ≤ s.envelope)
    (hy : ∀ ω, Responds b s (fun n => w n ω) (fun n => y n ω)) : Tendsto (fun n => ∫ ω, y n ω ^ 2 ∂μ) atTop (𝓝 (E * P)) := by
  obtain ⟨e, h1, h2, h3⟩ := rms_envelope_random (by rw [ha]; exact ⟨hg, hg1.le⟩) (by rw [hr]; exact ⟨hg, hg1.le⟩) h0 hy
  rw [ha, hr] at h2
  simp only [h3]
  obtain ⟨k, hk, hci⟩ := hc
  have hi : ∀ n, Integrable (fun ω => w n ω ^ 2) μ := by
    intro n
    have e1 : ∀ ω, w n ω ^ 2 = ∑ i ∈ Finset.range (n + 1), ∑ j ∈ Finset.range (n + 1), k i * k j * (x (n - i) ω * x (n - j) ω) := by
      intro ω
      rw [show w n ω = _ from congrFun ((hci _ _).mp (hw ω)) n, sq, convolve, Finset.sum_mul_sum]
      exact Finset.sum_congr rfl fun i _ => Finset.sum_congr rfl fun j _ => by ring
    simp only [e1]
    exact integrable_finsetSum _ fun i _ => integrable_finsetSum _ fun j _ => (hx _ _).1.const_mul _
  have hI := envelope_integrable h1 h2 hi
  have hm : ∀ n, ∫ ω, e (n + 1) ω ∂μ = (1 - g) * ∫ ω, w n ω ^ 2 ∂μ + g * ∫ ω, e n ω ∂μ := by
    intro n
    rw [← integral_smooth (hI n) (hi n)]
    refine integral_congr_ae (.of_forall fun ω => ?_)
    beta_reduce
    rw [h2, followed, ite_self]
  have hl := (hE.2 _ _ _ _ _ _ hx hw).2
  have ht := second_order_tendsto (a1 := -g) (a2 := 0) ⟨by simp, by rw [abs_neg, abs_of_nonneg hg]; linarith⟩
    (v := fun n => ∫ ω, e n ω ∂μ - E * P) (w := fun n => (1 - g) * (∫ ω, w (n + 1) ω ^ 2 ∂μ - E * P)) (fun n => by rw [hm (n + 1)]; ring)
    (by simpa using (((tendsto_add_atTop_iff_nat 1).2 hl).sub_const (E * P)).const_mul (1 - g))
  have := ((tendsto_add_atTop_iff_nat 1).2 ht).add_const (E * P)
  simpa using this

/-! ## Concrete cases -/

/-- Fair signs have mean zero. -/
theorem coin_mean : SteadyMean (Measure.infinitePi fun _ : ℕ => coin) (fun i ω => if ω i then (1 : ℝ) else -1) 0 := by
  let g : Bool → ℝ := fun c => if c then 1 else -1
  have hm : Measurable g := measurable_from_top
  have hb : ∀ c, ‖g c‖ ≤ 1 := by intro c; cases c <;> simp [g]
  intro n
  refine ⟨.of_bound (hm.comp (measurable_pi_apply n)).aestronglyMeasurable 1 (.of_forall fun ω => hb _), ?_⟩
  have mp := measurePreserving_eval_infinitePi (fun _ : ℕ => coin) n
  have e := integral_map (μ := Measure.infinitePi fun _ : ℕ => coin) mp.measurable.aemeasurable (f := g) hm.aestronglyMeasurable
  rw [mp.map_eq] at e
  refine e.symm.trans ?_
  rw [coin, integral_add_measure ((integrable_dirac (by simp)).smul_measure (by simp)) ((integrable_dirac (by simp)).smul_measure (by simp))]
  simp [g]

/-- Coins that show 2 or 0: mean magnitude 1 with variance 1, power 2 and the variance 4 of the square. -/
theorem coin_levels : let μ := Measure.infinitePi fun _ : ℕ => coin; let x : ℕ → (ℕ → Bool) → ℝ := fun i ω => if ω i then 2 else 0
    SteadyMean μ (fun n ω => |x n ω|) 1 ∧ WhiteNoise μ (fun n ω => |x n ω| - 1) 1 ∧
    SteadyMean μ (fun n ω => x n ω ^ 2) 2 ∧ WhiteNoise μ (fun n ω => x n ω ^ 2 - 2) 4 := by
  intro μ x
  have e1 : ∀ n ω, |x n ω| = (if ω n then (1 : ℝ) else -1) + 1 := by intro n ω; simp only [x]; split_ifs <;> norm_num
  have e2 : ∀ n ω, x n ω ^ 2 = 2 * (if ω n then (1 : ℝ) else -1) + 2 := by intro n ω; simp only [x]; split_ifs <;> norm_num
  simp only [e1, e2, add_sub_cancel_right]
  refine ⟨fun n => ⟨(coin_mean n).1.add (integrable_const 1), ?_⟩, coin_whiteNoise,
    fun n => ⟨((coin_mean n).1.const_mul 2).add (integrable_const 2), ?_⟩, fun i j => ?_⟩
  · rw [integral_add (coin_mean n).1 (integrable_const 1), (coin_mean n).2]; simp
  · rw [integral_add ((coin_mean n).1.const_mul 2) (integrable_const 2), integral_const_mul, (coin_mean n).2]; simp
  · obtain ⟨h1, h2⟩ := coin_whiteNoise i j
    have e : ∀ ω : ℕ → Bool, 2 * (if ω i then (1 : ℝ) else -1) * (2 * (if ω j then (1 : ℝ) else -1)) =
        4 * ((if ω i then (1 : ℝ) else -1) * (if ω j then (1 : ℝ) else -1)) := fun ω => by ring
    simp only [e]
    refine ⟨h1.const_mul 4, ?_⟩
    rw [integral_const_mul, h2]
    split_ifs <;> norm_num

/-- An RMS meter with both gains 1/2, at rest, on these coins: mean square `2 - 2/2^(n+1)` of the readings. -/
example (b : Build) : ∃ y : ℕ → (ℕ → Bool) → ℝ,
    (∀ ω, Responds b ({ attack_gain := 1 / 2, release_gain := 1 / 2, envelope := 0 } : RmsEnvDetector ℝ) (fun n => if ω n then 2 else 0) (fun n => y n ω)) ∧
    ∀ n, ∫ ω, y n ω ^ 2 ∂(Measure.infinitePi fun _ : ℕ => coin) = 2 - 2 * (1 / 2) ^ (n + 1) := by
  choose y hy using fun ω : ℕ → Bool => NeverPanics.responds (fun _ _ _ => ⟨_, _, rfl⟩) b ({ attack_gain := 1 / 2, release_gain := 1 / 2, envelope := 0 } : RmsEnvDetector ℝ) fun n => if ω n then (2 : ℝ) else 0
  refine ⟨fun n ω => y ω n, hy, fun n => ?_⟩
  have := (C149_mean (g := 1 / 2)).2 _ rfl rfl (by norm_num) (by norm_num) le_rfl coin_levels.2.2.1 hy n
  refine this.trans ?_
  simp only [RmsEnvDetector.lastOut, real_sqrt, Real.sqrt_zero]
  ring

/-- Both gains 9/10: the variance of the readings settles at a nineteenth. -/
example (d : ℝ) : Tendsto (smoothedVariance (9 / 10) 1 d) atTop (𝓝 (1 / 19)) := by
  have := C149_settles (g := 9 / 10) (by norm_num) (by norm_num) 1 d
  norm_num at this ⊢
  exact this

/-- A detector that is faster up than down. -/
example : (0.5 : ℝ) ∈ Set.Icc (0 : ℝ) 1 ∧ (0.9 : ℝ) ∈ Set.Icc (0 : ℝ) 1 ∧ (0.5 : ℝ) ≤ 0.7 ∧ (0.7 : ℝ) ≤ 0.9 := by norm_num

/-- White noise through a `LowPass` at a quarter of the sample rate with `q = 1/2`, then the meter: 3/8 of the power. -/
example [IsProbabilityMeasure μ] (f : LowPass ℝ) {w : ℕ → Ω → ℝ} {P : ℝ} (hx : WhiteNoise μ x P)
    (hw : ∀ ω, Responds b (f.setCoefficients 4 1 (1 / 2)) (fun n => x n ω) (fun n => w n ω))
    (hy : ∀ ω, Responds b ({ attack_gain := 1 / 2, release_gain := 1 / 2, envelope := 0 } : RmsEnvDetector ℝ) (fun n => w n ω) (fun n => y n ω)) :
    Tendsto (fun n => ∫ ω, y n ω ^ 2 ∂μ) atTop (𝓝 (3 / 8 * P)) := by
  have h : ValidParams 4 1 (1 / 2) := by norm_num [ValidParams]
  have e : angle 4 1 = Real.pi / 2 := by unfold angle; ring
  have hE := (C106_rbj (db := 0) b h (c := 0) (α := 1) (A := 1) (by rw [e, Real.cos_pi_div_two]) (by rw [e, Real.sin_pi_div_two]; norm_num) (by norm_num)).1 f
  norm_num at hE
  exact C149_filtered (g := 1 / 2) ((C87_rbj b 4 1 (1 / 2) 0 1).1 f) hE hx hw rfl rfl (by norm_num) (by norm_num) le_rfl hy

end Rasp
