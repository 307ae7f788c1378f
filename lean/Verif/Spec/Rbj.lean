import Verif.Spec.Diff

/-! # Parameters of the rbj filters -/

namespace Rasp

/-- Parameters in range: `0 < f < sample_rate/2`, `0 < q`. -/
def ValidParams (sr f q : ℝ) : Prop := 0 < f ∧ f < sr / 2 ∧ 0 < q

/-- Shelving parameters in range: `0 < f < sample_rate/2`, `0 < slope ≤ 1`. -/
def ValidShelf (sr f slope : ℝ) : Prop := 0 < f ∧ f < sr / 2 ∧ 0 < slope ∧ slope ≤ 1

/-- Angle per sample of the frequency `f`. -/
noncomputable def angle (sr f : ℝ) : ℝ := 2 * Real.pi * f / sr

/-- Amplitude factor of a gain in dB. -/
noncomputable def dbFactor (db : ℝ) : ℝ := 10 ^ (db / 20)

end Rasp
