import Verif.Spec.Convolution
import Mathlib.Order.Bounds.Basic

/-!
# Client programs that set their gain by a detector

A limiter divides a sample by the reading and multiplies by the threshold whenever the reading is above the threshold. With a delay line it acts on
the delayed sample. A leveller does it always.
-/

namespace Rasp
open FloatOps
variable {σ τ T : Type} [FloatOps T] [Processor σ T] [Processor τ T]

/-- `if e > t { z / e * t } else { z }`. -/
def limited (t e z : T) : T := if lt t e then z /. e *. t else z

/-- `let e = s.process(x)`, then the limited sample. -/
def Limits (b : Build) (t : T) (s : σ) (x y : ℕ → T) : Prop := ∃ e, Responds b s x e ∧ ∀ n, y n = limited t (e n) (x n)

/-- `let e = s.process(x); let z = l.process(x)`, then `z` limited by `e`. -/
def LooksAhead (b : Build) (t : T) (s : σ) (l : τ) (x y : ℕ → T) : Prop :=
  ∃ e z, Responds b s x e ∧ Responds b l x z ∧ ∀ n, y n = limited t (e n) (z n)

/-- `x / s.process(x) * t`. -/
def Levels (b : Build) (t : T) (s : σ) (x y : ℕ → T) : Prop := ∃ e, Responds b s x e ∧ ∀ n, y n = x n /. e n *. t

/-- `G` is the least upper bound of the output magnitudes over all inputs. -/
def Ceiling (run : (ℕ → ℝ) → (ℕ → ℝ) → Prop) (G : ℝ) : Prop := IsLUB {v : ℝ | ∃ x y n, run x y ∧ v = |y n|} G

end Rasp
