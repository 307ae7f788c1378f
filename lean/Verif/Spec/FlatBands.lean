import Verif.Spec.TimeShift
import Verif.Model.Rbj

/-!
# Filters that pass the signal on unchanged
-/

namespace Rasp
open FloatOps
variable {f : Fmt} {L : Libm f}

/-- Anything to the power of zero is one (as IEEE 754 and C require of `pow`). -/
def PowZero (L : Libm f) : Prop := ∀ x z : Fl L, z.Finite → z.toReal = 0 → powf x z = one

/-- The samples of `x` come out with the values they had (zeros may change their sign). -/
def Copies {σ : Type} [Processor σ (Fl L)] (s : σ) (x : ℕ → Fl L) : Prop :=
  (∀ b, ∃ y, Responds b s x y) ∧ ∀ b y, Responds b s x y → ∀ n, (y n).Same (x n)

/-- The coefficients of the biquad are finite. -/
def Biquad2.CoeffsFinite (c : Biquad2 (Fl L)) : Prop :=
  c.b0.Finite ∧ c.b1.Finite ∧ c.b2.Finite ∧ c.a1.Finite ∧ c.a2.Finite

/-- The samples are finite and so are their products with the feedback coefficients. -/
def Biquad2.Fits (c : Biquad2 (Fl L)) (x : ℕ → Fl L) : Prop :=
  ∀ n, (x n).Finite ∧ (c.a1 *. x n).Finite ∧ (c.a2 *. x n).Finite

/-- A filter of an equalizer, whatever it did before, and the settings it is given: frequency, gain in dB, quality factor or slope. -/
inductive FlBand (L : Libm f) where
  | peak (s : Peak (Fl L)) (fr db q : Fl L)
  | low (s : LowShelf (Fl L)) (fr db S : Fl L)
  | high (s : HighShelf (Fl L)) (fr db S : Fl L)

def FlBand.db : FlBand L → Fl L
  | .peak _ _ db _ => db
  | .low _ _ db _ => db
  | .high _ _ db _ => db

/-- The biquad of the filter after `set_coefficients`. -/
noncomputable def FlBand.biquad (sr : Fl L) : FlBand L → Biquad2 (Fl L)
  | .peak s fr db q => (s.setCoefficients sr fr db q).biquad
  | .low s fr db S => (s.setCoefficients sr fr db S).biquad
  | .high s fr db S => (s.setCoefficients sr fr db S).biquad

/-- What the filter answers after `set_coefficients`. -/
def FlBand.Answers (b : Build) (sr : Fl L) (x y : ℕ → Fl L) : FlBand L → Prop
  | .peak s fr db q => Responds b (s.setCoefficients sr fr db q) x y
  | .low s fr db S => Responds b (s.setCoefficients sr fr db S) x y
  | .high s fr db S => Responds b (s.setCoefficients sr fr db S) x y

/-- The stream `x` sent through all the bands, one after the other, comes out as `z`. -/
def FlEqualizer (b : Build) (sr : Fl L) : List (FlBand L) → (ℕ → Fl L) → (ℕ → Fl L) → Prop
  | [], x, z => z = x
  | p :: ps, x, z => ∃ y, p.Answers b sr x y ∧ FlEqualizer b sr ps y z

end Rasp
