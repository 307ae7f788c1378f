import Mathlib.Algebra.BigOperators.Intervals
import Mathlib.Analysis.RCLike.Basic

/-!
# Sums over window items, independent of the window code
-/

namespace Rasp

/-- The sum of the first `n` items of an iterator. -/
noncomputable def itemSum (o : ℕ → Option ℝ) (n : ℕ) : ℝ := ∑ i ∈ Finset.range n, (o i).getD 0

/-- The sum of their squares. -/
noncomputable def itemSumSq (o : ℕ → Option ℝ) (n : ℕ) : ℝ := ∑ i ∈ Finset.range n, (o i).getD 0 ^ 2

end Rasp
