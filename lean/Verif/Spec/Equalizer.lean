import Verif.Spec.Series
import Verif.Spec.Rbj
import Verif.Model.Rbj

/-!
# Equalizers: `Peak`, `LowShelf` and `HighShelf` filters in series
-/

namespace Rasp

/-- A filter of an equalizer, whatever it did before, and the settings it is given: frequency, gain in dB, quality factor or slope. -/
inductive Band where
  | peak (s : Peak ℝ) (f db q : ℝ)
  | low (s : LowShelf ℝ) (f db S : ℝ)
  | high (s : HighShelf ℝ) (f db S : ℝ)

/-- Settings in range at this sample rate. -/
def Band.Valid (sr : ℝ) : Band → Prop
  | .peak _ f _ q => ValidParams sr f q
  | .low _ f _ S => ValidShelf sr f S
  | .high _ f _ S => ValidShelf sr f S

def Band.db : Band → ℝ
  | .peak _ _ db _ => db
  | .low _ _ db _ => db
  | .high _ _ db _ => db

/-- The gain a band adds at DC. -/
def Band.dbLow : Band → ℝ
  | .low _ _ db _ => db
  | _ => 0

/-- The gain a band adds at Nyquist. -/
def Band.dbHigh : Band → ℝ
  | .high _ _ db _ => db
  | _ => 0

/-- The filter after `set_coefficients`. -/
noncomputable def Band.stage (sr : ℝ) : Band → Stage
  | .peak s f db q => Rasp.stage (s.setCoefficients sr f db q)
  | .low s f db S => Rasp.stage (s.setCoefficients sr f db S)
  | .high s f db S => Rasp.stage (s.setCoefficients sr f db S)

noncomputable def equalizer (sr : ℝ) (bs : List Band) : List Stage := bs.map (Band.stage sr)

/-- The same settings with the opposite gain. -/
def Opposite : Band → Band → Prop
  | .peak _ f db q, .peak _ f' db' q' => f' = f ∧ db' = -db ∧ q' = q
  | .low _ f db S, .low _ f' db' S' => f' = f ∧ db' = -db ∧ S' = S
  | .high _ f db S, .high _ f' db' S' => f' = f ∧ db' = -db ∧ S' = S
  | _, _ => False

/-- Whatever settles to a sinusoid of angle `w` comes out as one with the amplitude multiplied by `g`. -/
def ChainGain (b : Build) (ps : List Stage) (w g : ℝ) : Prop :=
  ∃ θ : ℝ, ∀ (A φ : ℝ) (x z : ℕ → ℝ), SettlesTo x A w φ → Through b ps x z → SettlesTo z (g * A) w (φ + θ)

end Rasp
