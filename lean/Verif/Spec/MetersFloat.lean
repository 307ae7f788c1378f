import Verif.Spec.Rounding
import Mathlib.Analysis.SpecialFunctions.Trigonometric.Basic

/-!
# Sampled sinusoids and their level
-/

namespace Rasp

/-- Floating-point samples of a sinusoid of amplitude `A`, each off by at most `η`. -/
def SampledSine {f : Fmt} {L : Libm f} (x : ℕ → Fl L) (A w φ η : ℝ) : Prop :=
  ∀ n : ℕ, (x n).Finite ∧ |(x n).toReal - A * Real.cos (w * n + φ)| ≤ η

/-- What a smoother with gain `g` leaves of the variation of the square of a sinusoid of angle `w` per sample, relative to its mean. -/
noncomputable def ripple (g w : ℝ) : ℝ := (1 - g) / Real.sqrt (1 - 2 * g * Real.cos (2 * w) + g ^ 2)

end Rasp
