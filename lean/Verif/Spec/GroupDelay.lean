import Verif.Spec.Phase
import Mathlib.Analysis.Calculus.Deriv.Basic

/-!
# Group delay
-/

namespace Rasp

/-- At frequency `w` the processor has group delay `τ` (in samples): near `w` it turns sinusoids into sinusoids, and the phase it adds falls
by `τ` per unit of frequency. -/
def GroupDelay {σ : Type} [Processor σ ℝ] (s : σ) (w τ : ℝ) : Prop :=
  ∃ G θ : ℝ → ℝ, (∀ᶠ v in nhds w, 0 < G v ∧ ShiftsBy s v (G v) (θ v)) ∧ HasDerivAt θ (-τ) w

/-- The mean position of the taps `u0`, `u1`, `u2`, weighted by their share in the sum `u0 + u1 e^(-iw) + u2 e^(-2iw)` (the real part of that
mean). -/
noncomputable def tapCentre (u0 u1 u2 w : ℝ) : ℝ :=
  ((u1 * Complex.exp (-(w * Complex.I)) + 2 * u2 * Complex.exp (-(w * Complex.I)) ^ 2) /
    (u0 + u1 * Complex.exp (-(w * Complex.I)) + u2 * Complex.exp (-(w * Complex.I)) ^ 2)).re

/-- The delay of `1 / ((cos w - c) + i α sin w)`. -/
noncomputable def rbjDelay (c α w : ℝ) : ℝ :=
  α * (1 - c * Real.cos w) / ((Real.cos w - c) ^ 2 + (α * Real.sin w) ^ 2)

end Rasp
