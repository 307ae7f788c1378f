import Verif.Spec.Series
import Mathlib.Analysis.SpecialFunctions.Complex.Circle

/-! # Frequency responses of loops, independent of the code -/

namespace Rasp

/-- What a delay of `d` samples, interpolated linearly between whole numbers, does to a sinusoid of angle `ω` per sample. -/
noncomputable def lineResponse (d ω : ℝ) : ℂ :=
  (1 - (d - ⌊d⌋₊) : ℝ) * Complex.exp (-(ω * ⌊d⌋₊ * Complex.I)) + (d - ⌊d⌋₊ : ℝ) * Complex.exp (-(ω * (⌊d⌋₊ + 1) * Complex.I))

/-- The response of a loop that feeds back `g` times what comes through `K` and then `P`. -/
noncomputable def loopResponse (g : ℝ) (P K : ℂ) : ℂ := (1 - g * (K * P))⁻¹

/-- Driven by a sinusoid of amplitude `A`, angle `ω` and phase `φ`, the stream `y` settles to that sinusoid multiplied by `‖H‖` and
shifted by `arg H`. -/
def RespondsWith (y : ℕ → ℝ) (A ω φ : ℝ) (H : ℂ) : Prop := SettlesTo y (‖H‖ * A) ω (φ + H.arg)

end Rasp
