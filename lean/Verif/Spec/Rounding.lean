import Verif.Spec.Diff
import Verif.Lemmas.Fl

/-!
# Floating-point runs against exact runs, independent of the filter code
-/

namespace Rasp
variable {f : Fmt} {L : Libm f}

/-- Unit roundoff `2^-p` (`2^-24` for f32, `2^-53` for f64). -/
noncomputable def Fmt.u (f : Fmt) : ℝ := 1 / 2 ^ f.p

/-- The smallest positive number (`2^-149` for f32, `2^-1074` for f64). -/
noncomputable def Fmt.tiny (f : Fmt) : ℝ := 2 ^ f.emin

/-- A finite number of magnitude at most `X`. -/
def Fl.Within (X : ℝ) (v : Fl L) : Prop := v.Finite ∧ |v.toReal| ≤ X

/-- `s` works in floating-point arithmetic, `r` in exact arithmetic. Fed the same finite samples of magnitude at most
`X`, all outputs of `s` are finite and within `E` of those of `r`, however long the stream is. -/
def Tracks {σ τ : Type} [Processor σ (Fl L)] [Processor τ ℝ] (s : σ) (r : τ) (X E : ℝ) : Prop :=
  Total (T := Fl L) s ∧ Total (T := ℝ) r ∧ ∀ (b : Build) (x y : ℕ → Fl L) (z : ℕ → ℝ), (∀ n, (x n).Within X) → Responds b s x y →
    Responds b r (fun n => (x n).toReal) z → ∀ n, (y n).Finite ∧ |(y n).toReal - z n| ≤ E

/-- `p` and `q` are the zeros of `z² + a1 z + a2`, and lie inside the unit circle. -/
structure StablePoles (a1 a2 : ℝ) (p q : ℂ) : Prop where
  sum : p + q = -a1
  prod : p * q = a2
  hp : ‖p‖ < 1
  hq : ‖q‖ < 1

/-- Error amplification of a recursion with poles `p`, `q` and coefficient sum `S`. -/
noncomputable def errGain (S : ℝ) (p q : ℂ) : ℝ := (1 + S) / ((1 - ‖p‖) * (1 - ‖q‖))

/-- Precision and range needed: `32 Q ≤ 2^p` and `592 Q² (X + 2^emin) ≤ 2^emax`. -/
structure FitsFormat (f : Fmt) (Q X : ℝ) : Prop where
  prec : 32 * Q ≤ 2 ^ f.p
  range : 592 * Q ^ 2 * (X + f.tiny) ≤ 2 ^ f.emax

/-- The error bound `112 Q² (2^-p X + 2^emin)`. -/
noncomputable def errBound (f : Fmt) (Q X : ℝ) : ℝ := 112 * Q ^ 2 * (f.u * X + f.tiny)

end Rasp
