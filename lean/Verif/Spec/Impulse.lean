import Verif.Spec.Convolution

/-!
# Kinds of impulse responses
-/

namespace Rasp
variable {σ : Type} [Processor σ ℝ]

/-- After the first sample, the answer to an impulse is a sinusoid of `θ` radians per sample (not zero throughout) that shrinks by `r`
at every sample. -/
def RingsAt (b : Build) (s : σ) (r θ : ℝ) : Prop :=
  ∃ h, Responds b s unitImpulse h ∧ ∃ K φ : ℝ, K ≠ 0 ∧ ∀ n : ℕ, h (n + 1) = K * r ^ n * Real.cos (θ * n + φ)

/-- After the first sample, the answer to an impulse is a sum of two exponentials. -/
def Fades (b : Build) (s : σ) (p q : ℝ) : Prop :=
  ∃ h, Responds b s unitImpulse h ∧ ∃ K L : ℝ, ∀ n : ℕ, h (n + 1) = K * p ^ n + L * q ^ n

/-- After the first sample, the answer to an impulse is an exponential times a linear function of time. -/
def FadesCritically (b : Build) (s : σ) (p : ℝ) : Prop :=
  ∃ h, Responds b s unitImpulse h ∧ ∃ K L : ℝ, ∀ n : ℕ, h (n + 1) = (K + L * n) * p ^ n

end Rasp
