import Verif.Lemmas.Fl
import Verif.Spec.Rounding

/-!
# Assumptions about the mathematical library

`Libm` allows arbitrary functions. The theorems that need accurate ones say so with these hypotheses.
-/

namespace Rasp
open FloatOps

/-- `cos` and `sin` of small f32 angles: up to `2^-12` the cosine is rounded to one, and the sine of an angle is
the angle up to a relative error of `2^-20`, and not negative for angles that are not. -/
structure SmallAngle (L : Libm binary32) : Prop where
  cos : ∀ x : Fl L, x.Finite → |x.toReal| ≤ 1 / 2 ^ 12 → (FloatOps.cos x).Finite ∧ (FloatOps.cos x).toReal = 1
  sin : ∀ x : Fl L, x.Finite → |x.toReal| ≤ 1 / 2 ^ 12 → (FloatOps.sin x).Finite ∧
    |(FloatOps.sin x).toReal - x.toReal| ≤ |x.toReal| / 2 ^ 20 + 1 / 2 ^ 140
  sin_nonneg : ∀ x : Fl L, x.Finite → 0 ≤ x.toReal → x.toReal ≤ 1 / 2 ^ 12 → 0 ≤ (FloatOps.sin x).toReal

/-- `cos` and `sin` of angles in [-4, 4] have an absolute error of at most `k` units of `2^-precision`. -/
structure AccurateTrig {f : Fmt} (L : Libm f) (k : ℝ) : Prop where
  cos : ∀ x : Fl L, x.Finite → |x.toReal| ≤ 4 → (FloatOps.cos x).Finite ∧ |(FloatOps.cos x).toReal - Real.cos x.toReal| ≤ k * f.u
  sin : ∀ x : Fl L, x.Finite → |x.toReal| ≤ 4 → (FloatOps.sin x).Finite ∧ |(FloatOps.sin x).toReal - Real.sin x.toReal| ≤ k * f.u

/-- Powers of ten with exponents in [-4, 4] have a relative error of at most `k` units of `2^-precision`. -/
structure AccuratePow {f : Fmt} (L : Libm f) (k : ℝ) : Prop where
  powf : ∀ x : Fl L, x.Finite → |x.toReal| ≤ 4 → (FloatOps.powf (FloatOps.ofF64 (.lit 10)) x).Finite ∧
    |(FloatOps.powf (FloatOps.ofF64 (.lit 10)) x).toReal - 10 ^ x.toReal| ≤ k * f.u * 10 ^ x.toReal

end Rasp
