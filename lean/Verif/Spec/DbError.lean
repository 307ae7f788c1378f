import Verif.Spec.WindowError
import Mathlib.Analysis.SpecialFunctions.Log.Base
import Mathlib.Analysis.SpecialFunctions.Pow.Real

/-!
# Decibels: the ideal conversions, and what is assumed about the platform's `log10` and `powf`
-/

namespace Rasp
open FloatOps

/-- The level of a non-negative amplitude in decibels, not below -120. -/
noncomputable def level (x : ℝ) : ℝ := if 1e-6 < x then 20 * Real.logb 10 x else -120

/-- The amplitude of a level in decibels; -120 and below is silence. -/
noncomputable def amplitude (d : ℝ) : ℝ := if -120 < d then 10 ^ (d / 20) else 0

/-- `log10` of values above 5e-7 has a relative error of at most `k` units of `2^-precision` (up to underflow); so do powers of ten with
exponents in [-7, 7]. -/
structure AccurateDb {f : Fmt} (L : Libm f) (k : ℝ) : Prop where
  log10 : ∀ x : Fl L, x.Finite → 5e-7 < x.toReal → (FloatOps.log10 x).Finite ∧
    |(FloatOps.log10 x).toReal - Real.logb 10 x.toReal| ≤ k * f.u * |Real.logb 10 x.toReal| + f.tiny
  powf : ∀ x : Fl L, x.Finite → |x.toReal| ≤ 7 → (FloatOps.powf (FloatOps.ofF64 (.lit 10)) x).Finite ∧
    |(FloatOps.powf (FloatOps.ofF64 (.lit 10)) x).toReal - 10 ^ x.toReal| ≤ k * f.u * 10 ^ x.toReal

end Rasp
