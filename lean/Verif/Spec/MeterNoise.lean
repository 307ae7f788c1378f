import Verif.Spec.Noise

/-!
# Random signals of steady level, independent of the code of the meters
-/

namespace Rasp
open MeasureTheory

/-- Every one of these random numbers has the mean `M`. -/
def SteadyMean {Ω : Type} [MeasurableSpace Ω] (μ : Measure Ω) (i : ℕ → Ω → ℝ) (M : ℝ) : Prop :=
  ∀ n, Integrable (i n) μ ∧ ∫ ω, i n ω ∂μ = M

/-- What is left of the variance `v` of the input, and of the distance `d` at the start, after `n` steps of smoothing with the gain `g`. -/
noncomputable def smoothedVariance (g v d : ℝ) (n : ℕ) : ℝ := v * ((1 - g) / (1 + g)) * (1 - g ^ (2 * n)) + g ^ (2 * n) * d ^ 2

end Rasp
