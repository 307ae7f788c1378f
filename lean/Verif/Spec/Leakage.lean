import Verif.Spec.Windows
import Mathlib.Analysis.SpecialFunctions.Complex.Circle

/-! # Spectra at every frequency, independent of the code -/

namespace Rasp

/-- The spectrum of the samples `v 0, …, v (n-1)` at `θ` radians per sample. -/
noncomputable def dtft (n : ℕ) (v : ℕ → ℝ) (θ : ℝ) : ℂ := ∑ i ∈ Finset.range n, (v i : ℂ) * Complex.exp (-(θ * i * Complex.I))

/-- The spectrum counted from the middle of the samples. -/
noncomputable def centred (n : ℕ) (v : ℕ → ℝ) (θ : ℝ) : ℂ := Complex.exp (θ * ((n - 1) / 2) * Complex.I) * dtft n v θ

/-- The items an iterator yields, zero after the last. -/
noncomputable def items (o : ℕ → Option ℝ) (i : ℕ) : ℝ := (o i).getD 0

end Rasp
