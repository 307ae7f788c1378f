import Verif.Spec.Diff

/-! # What is left of a filter's past -/

namespace Rasp
variable {σ : Type} [Processor σ ℝ]

/-- The factor per sample at which a tail of damping `β` dies out. -/
noncomputable def tailRate (β : ℝ) : ℝ := Real.sqrt ((1 - β) / (1 + β))

/-- Whatever `s` and `t` have been fed with before sample `N` (silence as one case), if it is the same from then on, the two responses differ by a
sinusoid of angle `θ` that dies out by the factor `tailRate β` per sample, with `cos θ √(1 - β²) = κ`. -/
def TailRings (s t : σ) (β κ θ : ℝ) : Prop :=
  (0 < β ∧ β < 1) ∧ (0 < θ ∧ θ < Real.pi ∧ Real.cos θ * Real.sqrt (1 - β ^ 2) = κ) ∧
  (Total (T := ℝ) s ∧ Total (T := ℝ) t) ∧
  ∀ (b : Build) (x y x' y' : ℕ → ℝ) (N : ℕ), Responds b s x y → Responds b t x' y' → (∀ n, N ≤ n → x n = x' n) →
    ∃ A φ : ℝ, 0 ≤ A ∧ ∀ n, N ≤ n → y n - y' n = A * tailRate β ^ n * Real.cos (θ * n + φ)

/-- The same, with the difference a sum of two exponentials. -/
def TailFades (s t : σ) (p q : ℝ) : Prop :=
  (Total (T := ℝ) s ∧ Total (T := ℝ) t) ∧
  ∀ (b : Build) (x y x' y' : ℕ → ℝ) (N : ℕ), Responds b s x y → Responds b t x' y' → (∀ n, N ≤ n → x n = x' n) →
    ∃ K L : ℝ, ∀ n, N ≤ n → y n - y' n = K * p ^ (n - N) + L * q ^ (n - N)

end Rasp
