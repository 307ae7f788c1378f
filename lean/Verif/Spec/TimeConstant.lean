import Verif.Spec.Analysis
import Verif.Spec.WindowError
import Verif.Model.Analysis
import Mathlib.Analysis.SpecialFunctions.Exp

/-!
# Detector gains in floating point: what is assumed about the platform's `exp`, and what the setters are asked for
-/

namespace Rasp
open FloatOps

/-- `exp` of finite numbers up to zero has a relative error of at most `k` units of `2^-precision`, up to underflow, and
`exp(-∞) = 0`. -/
structure AccurateExp {f : Fmt} (L : Libm f) (k : ℝ) : Prop where
  exp : ∀ x : Fl L, x.Finite → x.toReal ≤ 0 → (FloatOps.exp x).Finite ∧
    |(FloatOps.exp x).toReal - Real.exp x.toReal| ≤ k * f.u * Real.exp x.toReal + f.tiny
  inf : (FloatOps.exp (Fl.inf L true)).Finite ∧ (FloatOps.exp (Fl.inf L true)).toReal = 0

/-- `exp` of finite numbers up to zero is the correctly rounded value. -/
def RoundedExp {f : Fmt} (L : Libm f) : Prop :=
  ∀ x : Fl L, x.Finite → x.toReal ≤ 0 → (FloatOps.exp x).Finite ∧ (FloatOps.exp x).toReal = rnd f (Real.exp x.toReal)

/-- All four setters turn the length `n` into the gain `g`. -/
def SetsGain {T : Type} [FloatOps T] (n g : T) : Prop :=
  (∀ s : PeakEnvDetector T, (s.setAttack n).getAttackGain = g ∧ (s.setRelease n).getReleaseGain = g) ∧
  (∀ s : RmsEnvDetector T, (s.setAttack n).getAttackGain = g ∧ (s.setRelease n).getReleaseGain = g)

end Rasp
