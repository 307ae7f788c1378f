import Verif.Spec.Shape
import Mathlib.Analysis.SpecialFunctions.Log.Base

/-!
# Bands of frequencies, independent of the filter code
-/

namespace Rasp
variable {σ : Type} [Processor σ ℝ]

/-- Exactly the angles from `w1` to `w2` come out with at least the share `p` of their power. -/
def PassBand (s : σ) (p w1 w2 : ℝ) : Prop :=
  0 < w1 ∧ w1 < w2 ∧ w2 < Real.pi ∧
    ∀ w, 0 ≤ w → w ≤ Real.pi → ∃ g, HasGain s w g ∧ (p ≤ g ^ 2 ↔ w1 ≤ w ∧ w ≤ w2)

/-- Exactly the angles from `w1` to `w2` come out with at most the share `p` of their power. -/
def StopBand (s : σ) (p w1 w2 : ℝ) : Prop :=
  0 < w1 ∧ w1 < w2 ∧ w2 < Real.pi ∧
    ∀ w, 0 ≤ w → w ≤ Real.pi → ∃ g, HasGain s w g ∧ (g ^ 2 ≤ p ↔ w1 ≤ w ∧ w ≤ w2)

/-- Distance of two frequencies in octaves. -/
noncomputable def octaves (lo hi : ℝ) : ℝ := Real.logb 2 (hi / lo)

end Rasp
