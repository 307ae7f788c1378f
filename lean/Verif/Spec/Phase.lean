import Verif.Spec.Diff

/-!
# Phase responses
-/

namespace Rasp
open Real (cos pi)

/-- What the phases of all these filters have in common: an angle that rises from 0 through a right angle at the centre frequency
to a half-turn. -/
def RisingPhase (w0 : ℝ) (ψ : ℝ → ℝ) : Prop :=
  ψ 0 = 0 ∧ ψ w0 = pi / 2 ∧ ψ pi = pi ∧ StrictMonoOn ψ (Set.Icc 0 pi) ∧ ContinuousOn ψ (Set.Icc 0 pi)

/-- At frequency `w` the filter multiplies sinusoids by `G` and moves them ahead by `θ`. -/
def ShiftsBy {σ : Type} [Processor σ ℝ] (s : σ) (w G θ : ℝ) : Prop :=
  ∀ A φ : ℝ, ConvergesTo s (fun n => A * cos (w * n + φ)) (fun n => G * A * cos (w * n + φ + θ))

end Rasp
