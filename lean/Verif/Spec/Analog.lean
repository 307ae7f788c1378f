import Verif.Spec.Rbj
import Mathlib.Analysis.SpecialFunctions.Trigonometric.Bounds

/-!
# Steady-state gains and the analog filters of the Audio EQ Cookbook, independent of the filter code
-/

namespace Rasp

variable {σ : Type} [Processor σ ℝ]

/-- Every sinusoid of angle `w` per sample ends up multiplied by `‖H‖` and shifted by `arg H`. -/
def SinusoidGain (s : σ) (w : ℝ) (H : ℂ) : Prop :=
  ∀ A φ : ℝ, ConvergesTo s (fun n => A * Real.cos (w * n + φ)) (fun n => ‖H‖ * A * Real.cos (w * n + φ + H.arg))

/-- Every sinusoid of angle `w` per sample comes out (eventually) with its amplitude multiplied by something in `[lo, hi]`. -/
def GainWithin (s : σ) (w lo hi : ℝ) : Prop :=
  ∃ g θ : ℝ, lo ≤ g ∧ g ≤ hi ∧
    ∀ A φ : ℝ, ConvergesTo s (fun n => A * Real.cos (w * n + φ)) (fun n => g * A * Real.cos (w * n + φ + θ))

/-- The point on the imaginary axis that the bilinear transform, normalised to the frequency `f`, sends to the angle `w`. -/
noncomputable def analogPoint (sr f w : ℝ) : ℂ := Complex.I * ((Real.tan (w / 2) / Real.tan (angle sr f / 2) : ℝ) : ℂ)

/-! The transfer functions from the cookbook. `A = 10^(dB/40)`. -/
section
variable (q A R : ℝ) (s : ℂ)
noncomputable def analogLowPass : ℂ := 1 / (s ^ 2 + s / q + 1)
noncomputable def analogHighPass : ℂ := s ^ 2 / (s ^ 2 + s / q + 1)
noncomputable def analogBandPass1 : ℂ := s / (s ^ 2 + s / q + 1)
noncomputable def analogBandPass2 : ℂ := (s / q) / (s ^ 2 + s / q + 1)
noncomputable def analogBandStop : ℂ := (s ^ 2 + 1) / (s ^ 2 + s / q + 1)
noncomputable def analogAllPass : ℂ := (s ^ 2 - s / q + 1) / (s ^ 2 + s / q + 1)
noncomputable def analogPeak : ℂ := (s ^ 2 + s * (A / q) + 1) / (s ^ 2 + s / (A * q) + 1)
/-- `R` is `1/Q`. -/
noncomputable def analogLowShelf : ℂ :=
  A * ((s ^ 2 + (Real.sqrt A * R : ℝ) * s + A) / (A * s ^ 2 + (Real.sqrt A * R : ℝ) * s + 1))
/-- `R` is `1/Q`. -/
noncomputable def analogHighShelf : ℂ :=
  A * ((A * s ^ 2 + (Real.sqrt A * R : ℝ) * s + 1) / (s ^ 2 + (Real.sqrt A * R : ℝ) * s + A))
/-- `1/Q` of a shelf with slope `S`. -/
noncomputable def shelfInvQ (S : ℝ) : ℝ := Real.sqrt ((A + 1 / A) * (1 / S - 1) + 2)
end

end Rasp
