import Verif.Spec.Convolution
import Verif.Spec.Rbj

/-!
# What the first samples of the answer to an impulse tell
-/

namespace Rasp

/-- The answers to a unit impulse have the same first `k` samples. -/
def SameStart (k : ℕ) {σ τ : Type} [Processor σ ℝ] [Processor τ ℝ] (s : σ) (t : τ) : Prop :=
  ∃ b b' h h', Responds b s unitImpulse h ∧ Responds b' t unitImpulse h' ∧ ∀ n, n < k → h n = h' n

/-- The fraction `(b0 + b1 z + b2 z²) / (1 + a1 z + a2 z²)` cannot be reduced: numerator and denominator (as polynomials of degree 2, leading
zeros included) have no common factor. This is their resultant. -/
def Irreducible2 (b0 b1 b2 a1 a2 : ℝ) : Prop :=
  (b2 - a2 * b0) ^ 2 - a1 * (b2 - a2 * b0) * (b1 - a1 * b0) + a2 * (b1 - a1 * b0) ^ 2 ≠ 0

end Rasp
