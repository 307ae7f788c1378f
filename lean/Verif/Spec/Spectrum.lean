import Verif.Spec.Windows
import Mathlib.Analysis.SpecialFunctions.Complex.Circle

/-! # Spectra of windows -/

namespace Rasp
open Complex

/-- The discrete Fourier transform of length `N` of the samples `v 0, …, v (N-1)`, at bin `k`. -/
noncomputable def dft (N : ℕ) (v : ℕ → ℝ) (k : ℤ) : ℂ :=
  ∑ i ∈ Finset.range N, (v i : ℂ) * exp (-(2 * Real.pi * I * k * i / N))

/-- One if bin `k` of a transform of length `N` is bin zero. -/
noncomputable def atBin (N : ℕ) (k : ℤ) : ℂ := open Classical in if (N : ℤ) ∣ k then 1 else 0

end Rasp
