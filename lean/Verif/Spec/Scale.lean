import Verif.Lemmas.Fl
import Verif.Spec.Stream
import Verif.Model.Filters
import Verif.Model.Analysis

/-!
# Turning a signal up by a power of two
-/

namespace Rasp
open FloatOps
variable {f : Fmt} {L : Libm f}

/-- `x'` is `2 ^ k` times `x` exactly, unless it overflowed. -/
def Fl.Louder (k : ℕ) (x x' : Fl L) : Prop := x'.Finite → x.Finite ∧ x'.toReal = 2 ^ k * x.toReal

/-- The product of `c` and `x` is zero or at least the smallest normal number of the format (before rounding). -/
def Fl.NoUnderflow (c x : Fl L) : Prop :=
  c.toReal * x.toReal = 0 ∨ (2 : ℝ) ^ (f.emin + f.p - 1) ≤ |c.toReal * x.toReal|

/-- What no product of a biquad may do. -/
def Biquad2.NoUnderflow (s : Biquad2 (Fl L)) (x y : ℕ → Fl L) : Prop :=
  ∀ n, Fl.NoUnderflow s.b0 (x n) ∧ Fl.NoUnderflow s.b1 (x n) ∧ Fl.NoUnderflow s.b2 (x n) ∧ Fl.NoUnderflow s.a1 (y n) ∧ Fl.NoUnderflow s.a2 (y n)

/-- What no product of an RmsEnvDetector that starts with a cleared envelope may do. -/
def RmsEnvDetector.NoUnderflow (s : RmsEnvDetector (Fl L)) (x : ℕ → Fl L) : Prop :=
  ∀ st : ℕ → RmsEnvDetector (Fl L), st 0 = s.clear → (∀ n, st (n + 1) = ((st n).process (x n)).1) → ∀ n,
    Fl.NoUnderflow (x n) (x n) ∧ Fl.NoUnderflow s.attack_gain ((st n).envelope -. x n *. x n) ∧
    Fl.NoUnderflow s.release_gain ((st n).envelope -. x n *. x n)

/-- Turning an input `x` up by `2 ^ k` turns the output `y` up by `2 ^ k`, without any new rounding error, if `x` and `y`
satisfy the condition `Ok`. -/
def ScalesExactly {σ : Type} [Processor σ (Fl L)] (s : σ) (Ok : (ℕ → Fl L) → (ℕ → Fl L) → Prop) : Prop :=
  ∀ (b : Build) (k : ℕ) (x x' y : ℕ → Fl L), (∀ n, (x n).Louder k (x' n)) → Responds b s x y → Ok x y →
    ∃ y', Responds b s x' y' ∧ ∀ n, (y n).Louder k (y' n)

end Rasp
