import Verif.Spec.LobesFloat
import Verif.Spec.Noise

/-! # Reading levels off the spectrum of a window, independent of the code -/

namespace Rasp

/-- The distance of two bins in radians per sample: a turn in the `n - 1` steps of a window, for Triangular in its `n` points. -/
noncomputable def binWidth (n : ℕ) : WindowKind → ℝ
  | .triangular => 2 * Real.pi / n
  | _ => 2 * Real.pi / (n - 1 : ℕ)

/-- What is left of a level half way between two bins. -/
noncomputable def halfBinLevel : WindowKind → ℝ
  | .triangular | .bartlett => 0.81
  | .hann => 0.848
  | .hamming => 0.815
  | .blackman => 0.88
  | .blackmanHarris => 0.908

/-- The spectrum of `v 0, …, v (n-1)`, counted from the middle, is real, has its largest value, the sum of the samples, at 0, and falls
strictly from there up to `θ₁`, to both sides. -/
def FallsTo (n : ℕ) (v : ℕ → ℝ) (θ₁ : ℝ) : Prop :=
  ∃ W : ℝ → ℝ, (∀ θ, centred n v θ = W θ) ∧ (∀ θ, W (-θ) = W θ) ∧ W 0 = ∑ i ∈ Finset.range n, v i ∧ (∀ θ, |W θ| ≤ W 0) ∧
    StrictAntiOn W (Set.Icc 0 θ₁)

/-- The noise bandwidth in bins: how many bins of a perfect filter bank let through as much noise as one bin seen through the window,
relative to a sinusoid in the middle of the bin. -/
noncomputable def noiseBins (n : ℕ) (w : WindowKind) (v : ℕ → ℝ) : ℝ :=
  2 * Real.pi / binWidth n w * (∑ i ∈ Finset.range n, v i ^ 2) / (∑ i ∈ Finset.range n, v i) ^ 2

/-- The table: the least noise bandwidth of windows of at least 65 points. -/
noncomputable def noiseLeast : WindowKind → ℝ
  | .triangular | .bartlett => 1.333
  | .hann => 1.5
  | .hamming => 1.356
  | .blackman => 0.3046 / 0.1764
  | .blackmanHarris => 2.004

/-- The table: the largest. For Hann and Blackman it is the same number. -/
noncomputable def noiseMost : WindowKind → ℝ
  | .triangular | .bartlett => 1.334
  | .hann => 1.5
  | .hamming => 1.363
  | .blackman => 0.3046 / 0.1764
  | .blackmanHarris => 2.0044

end Rasp
