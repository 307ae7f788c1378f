import Verif.Spec.Noise
import Verif.Spec.Rounding

/-!
# Random streams of floating-point samples
-/

namespace Rasp
open MeasureTheory Filter

/-- Random floating-point samples of magnitude at most `X`: it is an event that a sample has a given value. -/
def RandomStream {f : Fmt} {L : Libm f} {Ω : Type} [MeasurableSpace Ω] (x : ℕ → Ω → Fl L) (X : ℝ) : Prop :=
  ∀ n, (∀ v, MeasurableSet {ω | x n ω = v}) ∧ ∀ ω, (x n ω).Within X

/-- Fed with floating-point samples that are white noise of power `P`, of magnitude at most `X`, all outputs are finite, their root mean
square is never more than `√(G P)` and `E` more, and in the end within `E` of `√(G P)`. -/
def NoiseLevel {f : Fmt} {L : Libm f} {σ : Type} [Processor σ (Fl L)] (b : Build) (s : σ) (X G E : ℝ) : Prop :=
  ∀ (Ω : Type) (_ : MeasurableSpace Ω) (μ : Measure Ω) (_ : IsProbabilityMeasure μ) (P : ℝ) (x y : ℕ → Ω → Fl L), RandomStream x X →
    WhiteNoise μ (fun n ω => (x n ω).toReal) P → (∀ ω, Responds b s (fun n => x n ω) (fun n => y n ω)) →
    (∀ n ω, (y n ω).Finite) ∧ (∀ n, Integrable (fun ω => (y n ω).toReal ^ 2) μ ∧ √(∫ ω, (y n ω).toReal ^ 2 ∂μ) ≤ √(G * P) + E) ∧
    ∀ ε > 0, ∀ᶠ n in atTop, |√(∫ ω, (y n ω).toReal ^ 2 ∂μ) - √(G * P)| ≤ E + ε

end Rasp
