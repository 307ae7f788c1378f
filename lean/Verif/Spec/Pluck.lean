import Verif.Spec.Feedback
import Verif.Spec.Diff

/-!
# Delay lines with a filter in the feedback path
-/

namespace Rasp

/-- `DampedLoop b next c s p x u v w r`: from line `s` and filter `p`, in every round `next_out` (here `next`) returns `v n`, the
filter turns it into `w n`, the line processes the sample `u n = c (x n) (w n)`, and `process` returns `r n`. -/
def DampedLoop {σ τ T : Type} [Processor σ T] [Processor τ T] (b : Build) (next : σ → Res (σ × T)) (c : T → T → T) (s : σ) (p : τ)
    (x u v w r : ℕ → T) : Prop :=
  ∃ (st mid : ℕ → σ) (ft : ℕ → τ), st 0 = s ∧ ft 0 = p ∧ ∀ n, next (st n) = .ok (mid n, v n) ∧
    Processor.process b (ft n) (v n) = .ok (ft (n + 1), w n) ∧ u n = c (x n) (w n) ∧
    Processor.process b (mid n) (u n) = .ok (st (n + 1), r n)

/-- The string of length `l` that is driven by `x`: sums are kept, so once `x` is over, `u` settles at its total spread evenly
over the string; and from then on no sample leaves the range of the samples of the last `K` rounds. -/
def SettlesEvenly (l : ℝ) (K : ℕ) (x u : ℕ → ℝ) : Prop :=
  ∀ N, (∀ n, N ≤ n → x n = 0) →
    Filter.Tendsto u Filter.atTop (nhds ((∑ n ∈ Finset.range N, x n) / l)) ∧
    ∀ n0 lo hi, N ≤ n0 → (∀ k, 1 ≤ k → k ≤ K → lo ≤ lag u k n0 ∧ lag u k n0 ≤ hi) → ∀ n, n0 ≤ n → lo ≤ u n ∧ u n ≤ hi

end Rasp
