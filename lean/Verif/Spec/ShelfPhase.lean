import Verif.Spec.Phase

/-!
# Phases of the shelves
-/

namespace Rasp

/-- How wide the transition of a shelf of slope `S` is, `A` being the square root of its gain: `A (A + 1/A) (1/S - 1) + 2A`. -/
noncomputable def transition (A S : ℝ) : ℝ := (A ^ 2 + 1) * (1 / S - 1) + 2 * A

end Rasp
