import Verif.Spec.Line
import Verif.Spec.Pluck
import Verif.Spec.Convolution
import Verif.Model.Delay
import Verif.Model.LinearDelay

/-! # Stability of loops, independent of the code -/

namespace Rasp
variable {τ : Type} [Processor τ ℝ]

/-- The program that makes a `Delay` and feeds back `g` times what the filter `p` makes of its samples: fed with `x`, the line gets `u`. -/
def DelayLoop [Target] (b : Build) (d m : ℕ) (g : ℝ) (p : τ) (x u : ℕ → ℝ) : Prop :=
  ∃ (s : Delay ℝ) (v w r : ℕ → ℝ), Delay.new b d m = .ok s ∧ DampedLoop b Delay.announce (fun a c => a + g * c) s p x u v w r

/-- The same program with a `LinearDelay`. -/
def LinearDelayLoop [Target] (b : Build) (d : ℝ) (m : ℕ) (g : ℝ) (p : τ) (x u : ℕ → ℝ) : Prop :=
  ∃ (s : LinearDelay ℝ ℝ) (v w r : ℕ → ℝ), LinearDelay.new b d m = .ok s ∧
    DampedLoop b (LinearDelay.nextOut b) (fun a c => a + g * c) s p x u v w r

/-- A program that runs for every input, stays within a fixed multiple of the bound of the input, and dies away exponentially when the
input has ended. -/
def StableLoop (L : (ℕ → ℝ) → (ℕ → ℝ) → Prop) : Prop :=
  (∀ x, ∃ u, L x u) ∧ ∃ D r : ℝ, 0 ≤ r ∧ r < 1 ∧ ∀ x u B, L x u → (∀ n, |x n| ≤ B) →
    (∀ n, |u n| ≤ D * B) ∧ ∀ N, (∀ n, N ≤ n → x n = 0) → ∀ n, N ≤ n → |u n| ≤ D * B * r ^ (n - N)

/-- A filter that convolves with an impulse response that decays exponentially. -/
def DiesAway (b : Build) (p : τ) : Prop :=
  ∃ (h : ℕ → ℝ) (C r : ℝ), 0 < r ∧ r < 1 ∧ (∀ x y, Responds b p x y ↔ y = convolve h x) ∧ ∀ n, |h n| ≤ C * r ^ n

/-- Stable in a loop with any `Delay` or `LinearDelay` of at least one sample. -/
def StableInEveryLoop [Target] (b : Build) (g : ℝ) (p : τ) : Prop :=
  (∀ d m : ℕ, Allocatable ℝ m → 1 ≤ d → d ≤ m → StableLoop (DelayLoop b d m g p)) ∧
  (∀ (d : ℝ) (m : ℕ), Allocatable ℝ m → 1 ≤ d → d ≤ m → StableLoop (LinearDelayLoop b d m g p))

/-- Stable in no such loop. -/
def StableInNoLoop [Target] (b : Build) (g : ℝ) (p : τ) : Prop :=
  (∀ d m : ℕ, Allocatable ℝ m → 1 ≤ d → d ≤ m → ¬ StableLoop (DelayLoop b d m g p)) ∧
  (∀ (d : ℝ) (m : ℕ), Allocatable ℝ m → 1 ≤ d → d ≤ m → ¬ StableLoop (LinearDelayLoop b d m g p))

end Rasp
