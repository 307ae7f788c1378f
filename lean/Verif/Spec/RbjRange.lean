import Verif.Spec.Diff
import Verif.Spec.Rbj
import Verif.Float.IEEE

/-!
# Parameters outside the range of the rbj filters
-/

namespace Rasp
variable {σ : Type} [Processor σ ℝ]

/-- The filter multiplies every sample by `g` and does nothing else. -/
def IsGain (s : σ) (g : ℝ) : Prop := ∀ (b : Build) (x y : ℕ → ℝ), Responds b s x y ↔ y = fun n => g * x n

/-- Some bounded input gives an unbounded output, and some output goes on when the input has ended. -/
def Unstable (s : σ) : Prop := Total (T := ℝ) s ∧ ¬ IsBounded s ∧ ¬ SilenceDecays s

/-- A frequency above half of the sample rate with a positive `q`, or below with a negative `q`. -/
def WrongSide (sr f q : ℝ) : Prop := (0 < q ∧ sr / 2 < f ∧ f < sr) ∨ (q < 0 ∧ 0 < f ∧ f < sr / 2)

/-! ## Floating point -/

section
variable {f : Fmt} {L : Libm f} {ρ : Type} [Processor ρ (Fl L)]

/-- The filter answers every stream, and whatever the samples are, outputs `k`, `k + 1`, ... are NaN. -/
def NaNFrom (k : ℕ) (s : ρ) : Prop :=
  Total (T := Fl L) s ∧ ∀ (b : Build) (x y : ℕ → Fl L), Responds b s x y → ∀ n, k ≤ n → (y n).IsNaN

/-- The filter answers every stream, and whatever the samples are, no output is a finite number. -/
def NeverFinite (s : ρ) : Prop :=
  Total (T := Fl L) s ∧ ∀ (b : Build) (x y : ℕ → Fl L), Responds b s x y → ∀ n, ¬ (y n).Finite

/-- What is needed from the platform: `sin` has no value at the infinities and at NaN. -/
def SinInvalid (L : Libm f) : Prop := ∀ v : Fl L, ¬ v.Finite → (FloatOps.sin v).IsNaN

/-- A sample rate that is zero or NaN, or a frequency that is infinite or NaN. -/
def BadAngle (sr fr : Fl L) : Prop := sr.IsNaN ∨ (sr.Finite ∧ sr.toReal = 0) ∨ ¬ fr.Finite

end

end Rasp
