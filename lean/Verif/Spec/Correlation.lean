import Verif.Spec.Noise
import Verif.Spec.Analog

/-!
# Correlations of noise at the input and the output, independent of the filter code
-/

namespace Rasp
open MeasureTheory

/-- Fed with white noise, the mean product of an input sample and the output `k` samples later is the power times `h[k]`, and output samples
are uncorrelated with the input still to come. -/
def CrossCorrelates {σ : Type} [Processor σ ℝ] (b : Build) (s : σ) (h : ℕ → ℝ) : Prop :=
  ∀ (Ω : Type) (_ : MeasurableSpace Ω) (μ : Measure Ω) (P : ℝ) (x y : ℕ → Ω → ℝ), WhiteNoise μ x P →
    (∀ ω, Responds b s (fun n => x n ω) (fun n => y n ω)) →
    ∀ n k, ∫ ω, x n ω * y (n + k) ω ∂μ = P * h k ∧ ∫ ω, x (n + k + 1) ω * y n ω ∂μ = 0

/-- Fed with white noise, the mean product of output samples `k` apart tends to the power times `R[k]`. -/
def Colours {σ : Type} [Processor σ ℝ] (b : Build) (s : σ) (R : ℕ → ℝ) : Prop :=
  ∀ (Ω : Type) (_ : MeasurableSpace Ω) (μ : Measure Ω) (P : ℝ) (x y : ℕ → Ω → ℝ), WhiteNoise μ x P →
    (∀ ω, Responds b s (fun n => x n ω) (fun n => y n ω)) →
    ∀ k, Filter.Tendsto (fun n => ∫ ω, y n ω * y (n + k) ω ∂μ) Filter.atTop (nhds (P * R k))

/-- Fed with white noise, the correlations `R` of the output tend to the power spectrum: `R[0] + 2 ∑ R[k] cos(ωk)` is the square of the gain at `ω`. -/
def HasPowerSpectrum {σ : Type} [Processor σ ℝ] (b : Build) (s : σ) : Prop :=
  ∃ R, Colours b s R ∧ HasNoiseGain b s (R 0) ∧
    ∀ (ω : ℝ) (K : ℂ), SinusoidGain s ω K → HasSum (fun k : ℕ => 2 * R (k + 1) * Real.cos (ω * (k + 1))) (‖K‖ ^ 2 - R 0)

/-- The equations of Yule and Walker for a filter with these coefficients. -/
structure YuleWalker (b0 b1 b2 a1 a2 : ℝ) (R : ℕ → ℝ) : Prop where
  zero : R 0 + a1 * R 1 + a2 * R 2 = b0 ^ 2 + b1 * (b1 - a1 * b0) + b2 * (b2 - a1 * (b1 - a1 * b0) - a2 * b0)
  one : R 1 + a1 * R 0 + a2 * R 1 = b0 * b1 + b2 * (b1 - a1 * b0)
  two : R 2 + a1 * R 1 + a2 * R 0 = b2 * b0
  next : ∀ k, R (k + 3) + a1 * R (k + 2) + a2 * R (k + 1) = 0

end Rasp
