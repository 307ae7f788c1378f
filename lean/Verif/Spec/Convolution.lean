import Verif.Spec.Diff
import Mathlib.Algebra.BigOperators.Intervals

/-!
# Convolution, independent of the filter code
-/

namespace Rasp

/-- A one followed by silence. -/
def unitImpulse (n : ℕ) : ℝ := if n = 0 then 1 else 0

/-- `∑ h[k] x[n-k]`, `k = 0 … n`. -/
def convolve (h x : ℕ → ℝ) (n : ℕ) : ℝ := ∑ k ∈ Finset.range (n + 1), h k * x (n - k)

/-- The output is the convolution of the input with the response to an impulse, for every input. -/
def IsConvolution {σ : Type} [Processor σ ℝ] (b : Build) (s : σ) : Prop :=
  ∃ h, Responds b s unitImpulse h ∧ ∀ x y, Responds b s x y ↔ y = convolve h x

/-- `Cascade b s t x z`: the stream `x` through `s`, and what comes out through `t`, gives `z`. -/
def Cascade {σ τ : Type} [Processor σ ℝ] [Processor τ ℝ] (b : Build) (s : σ) (t : τ) (x z : ℕ → ℝ) : Prop :=
  ∃ y, Responds b s x y ∧ Responds b t y z

end Rasp
