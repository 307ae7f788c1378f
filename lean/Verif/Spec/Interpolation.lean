import Verif.Spec.Linear
import Mathlib.Analysis.Calculus.Deriv.Basic

/-!
# A delay line whose delay time moves, and signals sampled from smooth functions
-/

namespace Rasp
open FloatOps
variable {D T : Type} [FloatOps D] [FloatOps T] [DelayTime D T]

/-- `Modulated b s c x y`: from state `s`, `set_delay (c n)` is called before sample `x n` is processed, which gives `y n`. -/
def Modulated [Target] (b : Build) (s : LinearDelay D T) (c : ℕ → D) (x y : ℕ → T) : Prop :=
  ∃ st : ℕ → LinearDelay D T, st 0 = s ∧
    ∀ n, ∃ s', (st n).setDelay b (c n) = .ok s' ∧ s'.process b (x n) = .ok (st (n + 1), y n)

/-- `f` is twice differentiable with second derivative at most `M` in absolute value. -/
def CurvesAtMost (M : ℝ) (f : ℝ → ℝ) : Prop :=
  ∃ f' f'' : ℝ → ℝ, (∀ t, HasDerivAt f (f' t) t) ∧ (∀ t, HasDerivAt f' (f'' t) t) ∧ ∀ t, |f'' t| ≤ M

end Rasp
