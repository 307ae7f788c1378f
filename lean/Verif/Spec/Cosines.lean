import Verif.Spec.Leakage

/-! # Windows that are sums of cosines, independent of the code -/

namespace Rasp

/-- Coefficients of the cosines with 0, 1, 2, … turns over the window (nothing for the straight windows). -/
noncomputable def cosineCoefs : WindowKind → List ℝ
  | .hann => [0.5, -0.5]
  | .hamming => [0.54, -0.46]
  | .blackman => [0.42, -0.5, 0.08]
  | .blackmanHarris => [0.35875, -0.48829, 0.14128, -0.01168]
  | _ => []

/-- Sum of `a k / (sin² c - sin² (k π/N))`. -/
noncomputable def poles (a : List ℝ) (N : ℕ) (c : ℝ) : ℝ :=
  ∑ k ∈ Finset.range a.length, a.getD k 0 / (Real.sin c ^ 2 - Real.sin (k * (Real.pi / N)) ^ 2)

/-- `2c` radians per sample is none of the frequencies of the cosines. -/
def OffLines (a : List ℝ) (N : ℕ) (c : ℝ) : Prop := ∀ k < a.length, Real.sin c ^ 2 ≠ Real.sin (k * (Real.pi / N)) ^ 2

end Rasp
