import Verif.Spec.Windows
import Verif.Spec.Libm

/-!
# Accuracy of windows: what is assumed about the format and the platform's cosine
-/

namespace Rasp
open FloatOps

/-- A floating-point format like f32 and f64: enough range for every `usize`, underflow far below the precision, at most the
precision of f64 (in which the constants are given). -/
structure Fmt.Ordinary (f : Fmt) : Prop where
  prec : 10 ≤ f.p
  prec' : f.p ≤ 53
  small : f.emin + 3 * f.p ≤ 0
  large : 67 ≤ f.emax

theorem binary32_ordinary : binary32.Ordinary := ⟨by norm_num [binary32], by norm_num [binary32], by norm_num [binary32], by norm_num [binary32]⟩
theorem binary64_ordinary : binary64.Ordinary := ⟨by norm_num [binary64], by norm_num [binary64], by norm_num [binary64], by norm_num [binary64]⟩

/-- `cos` of angles in [-20, 20] has an absolute error of at most `k` units of `2^-precision`. -/
def AccurateCos {f : Fmt} (L : Libm f) (k : ℝ) : Prop :=
  ∀ x : Fl L, x.Finite → |x.toReal| ≤ 20 → (FloatOps.cos x).Finite ∧ |(FloatOps.cos x).toReal - Real.cos x.toReal| ≤ k * f.u

end Rasp
