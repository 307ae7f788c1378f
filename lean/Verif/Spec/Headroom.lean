import Verif.Spec.Convolution
import Mathlib.Order.Bounds.Basic

/-!
# Headroom: the largest sample an input between −1 and 1 can produce
-/

namespace Rasp
variable {σ : Type} [Processor σ ℝ]

/-- `G` is the least upper bound of the output magnitudes over all inputs between −1 and 1. -/
def HasPeakGain (b : Build) (s : σ) (G : ℝ) : Prop :=
  IsLUB {v : ℝ | ∃ (x y : ℕ → ℝ) (n : ℕ), (∀ k, |x k| ≤ 1) ∧ Responds b s x y ∧ v = |y n|} G

/-- Some input between −1 and 1 gives an output beyond that. -/
def Overloads (b : Build) (s : σ) : Prop :=
  ∃ (x y : ℕ → ℝ) (n : ℕ), (∀ k, |x k| ≤ 1) ∧ Responds b s x y ∧ 1 < |y n|

/-- Outputs stay in every interval around zero the input stays in. -/
def StaysInRange (b : Build) (s : σ) : Prop :=
  ∀ (x y : ℕ → ℝ) (lo hi : ℝ), lo ≤ 0 → 0 ≤ hi → (∀ k, lo ≤ x k ∧ x k ≤ hi) → Responds b s x y → ∀ n, lo ≤ y n ∧ y n ≤ hi

end Rasp
