import Verif.Spec.Rounding
import Verif.Spec.Diff

/-! # When floating point makes no errors -/

namespace Rasp

/-- A whole multiple of `2 ^ q`. -/
def Multiple (q : ℤ) (x : ℝ) : Prop := ∃ m : ℤ, x = m * (2 : ℝ) ^ q

/-- The format has all multiples of `2 ^ q` up to `M`. -/
def Fmt.Holds (f : Fmt) (q : ℤ) (M : ℝ) : Prop := f.emin ≤ q ∧ M < (2 : ℝ) ^ (q + f.p) ∧ M < f.lim

/-- A finite number, of the value `r`. -/
def Fl.Exactly {f : Fmt} {L : Libm f} (x : Fl L) (r : ℝ) : Prop := x.Finite ∧ x.toReal = r

/-- Samples `x` that are multiples of `2 ^ qx` up to `X`, feedforward coefficients that are multiples of `2 ^ qb`, feedback coefficients that are
integers, and `z` the solution of the difference equation in exact arithmetic, at most `Y` before round `N`. All numbers on the way fit the format. -/
structure ExactCase {f : Fmt} (L : Libm f) (qb qx : ℤ) (X Y : ℝ) (N : ℕ) (b0 b1 b2 a1 a2 : Fl L) (x : ℕ → Fl L) (z : ℕ → ℝ) : Prop where
  hb0 : b0.Finite ∧ Multiple qb b0.toReal
  hb1 : b1.Finite ∧ Multiple qb b1.toReal
  hb2 : b2.Finite ∧ Multiple qb b2.toReal
  ha1 : a1.Finite ∧ Multiple 0 a1.toReal
  ha2 : a2.Finite ∧ Multiple 0 a2.toReal
  hx : ∀ n, (x n).Within X ∧ Multiple qx (x n).toReal
  hz : SolvesDiff b0.toReal b1.toReal b2.toReal a1.toReal a2.toReal (fun n => (x n).toReal) z
  hY : 0 ≤ Y
  small : ∀ n < N, |z n| ≤ Y
  holds : f.Holds (qb + qx) ((|b0.toReal| + |b1.toReal| + |b2.toReal|) * X + (|a1.toReal| + |a2.toReal|) * Y)

/-- Fed with `x`, the processor never stops, and up to and including round `N` returns exactly the numbers `z`. -/
def ExactUpTo {f : Fmt} {L : Libm f} {σ : Type} [Processor σ (Fl L)] (s : σ) (x : ℕ → Fl L) (z : ℕ → ℝ) (N : ℕ) : Prop :=
  ∀ b : Build, (∃ y, Responds b s x y) ∧ ∀ y, Responds b s x y → ∀ n ≤ N, (y n).Exactly (z n)

end Rasp
