import Verif.Spec.Leakage

/-! # Side lobes, independent of the code -/

namespace Rasp

/-- The main lobe of the spectrum of `v 0, …, v (n-1)` reaches `θ₀` radians per sample to both sides of 0 (and of every multiple of
the sample rate); at all other frequencies the spectrum is at most `ρ` times its value at 0, the sum of the samples. -/
def SidelobesBelow (n : ℕ) (v : ℕ → ℝ) (θ₀ ρ : ℝ) : Prop :=
  ∀ θ : ℝ, (∀ m : ℤ, θ₀ ≤ |θ - 2 * Real.pi * m|) → ‖dtft n v θ‖ ≤ ρ * ∑ i ∈ Finset.range n, v i

end Rasp
