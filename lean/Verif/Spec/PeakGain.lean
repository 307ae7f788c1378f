import Verif.Spec.Headroom
import Verif.Spec.Shape

/-! # Words used by C133 -/

namespace Rasp
variable {σ : Type} [Processor σ ℝ]

/-- The peak gain exists and lies between `lo` and `hi`. -/
def PeakGainWithin (b : Build) (s : σ) (lo hi : ℝ) : Prop := ∃ G, HasPeakGain b s G ∧ lo ≤ G ∧ G ≤ hi

end Rasp
