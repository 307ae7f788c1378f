import Verif.Spec.Convolution
import Mathlib.MeasureTheory.Integral.Bochner.Basic
import Mathlib.Topology.Algebra.InfiniteSum.Defs

/-!
# Noise gain, independent of the filter code
-/

namespace Rasp
open MeasureTheory

/-- The squares of the answer to a single one followed by silence add up to `E`. -/
def HasNoiseGain {σ : Type} [Processor σ ℝ] (b : Build) (s : σ) (E : ℝ) : Prop :=
  ∃ h, Responds b s unitImpulse h ∧ HasSum (fun n => h n ^ 2) E

/-- White noise of power `P`: samples that are not correlated with each other and have mean square `P`. -/
def WhiteNoise {Ω : Type} [MeasurableSpace Ω] (μ : Measure Ω) (x : ℕ → Ω → ℝ) (P : ℝ) : Prop :=
  ∀ i j, Integrable (fun ω => x i ω * x j ω) μ ∧ ∫ ω, x i ω * x j ω ∂μ = if i = j then P else 0

/-- The mean square of the output samples is never more than `E` times the power of white noise at the input, and tends to that. -/
def NoisePower {σ : Type} [Processor σ ℝ] (b : Build) (s : σ) (E : ℝ) : Prop :=
  ∀ (Ω : Type) (_ : MeasurableSpace Ω) (μ : Measure Ω) (P : ℝ) (x y : ℕ → Ω → ℝ), WhiteNoise μ x P →
    (∀ ω, Responds b s (fun n => x n ω) (fun n => y n ω)) →
    (∀ n, ∫ ω, y n ω ^ 2 ∂μ ≤ E * P) ∧ Filter.Tendsto (fun n => ∫ ω, y n ω ^ 2 ∂μ) Filter.atTop (nhds (E * P))

/-- `E` is both: the energy of the impulse response, and the factor for the power of white noise. -/
def AmplifiesNoise {σ : Type} [Processor σ ℝ] (b : Build) (s : σ) (E : ℝ) : Prop := HasNoiseGain b s E ∧ NoisePower b s E

end Rasp
