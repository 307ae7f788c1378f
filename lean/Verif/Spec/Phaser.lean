import Verif.Spec.Resonance
import Verif.Spec.Rbj
import Verif.Model.Rbj
import Verif.Spec.ChainFloat

/-!
# Phasers: all-pass filters in series, mixed with the input
-/

namespace Rasp
open Filter

/-- `AllPass` filters, each with the sample rate `sr`, its own frequency and its own quality factor. -/
noncomputable def allPasses (sr : ℝ) (ss : List (AllPass ℝ × ℝ × ℝ)) : List Stage := ss.map fun p => stage (p.1.setCoefficients sr p.2.1 p.2.2)

/-- The input plus `g` times what comes out of the stages. -/
def Mixes (b : Build) (ps : List Stage) (g : ℝ) (x y : ℕ → ℝ) : Prop := ∃ z, Through b ps x z ∧ ∀ n, y n = x n + g * z n

/-- Sinusoids of angle `w` per sample die out. -/
def Nulls (b : Build) (ps : List Stage) (g w : ℝ) : Prop :=
  ∀ (A φ : ℝ) (x y : ℕ → ℝ), SettlesTo x A w φ → Mixes b ps g x y → Tendsto y atTop (nhds 0)

/-- Floating-point `AllPass` filters with their frequencies and quality factors, and new exact ones with the same parameters. -/
noncomputable def flAllPasses {f : Fmt} {L : Libm f} (sr : Fl L) (ss : List (AllPass (Fl L) × Fl L × Fl L)) : List (Twin L) :=
  ss.map fun p => twin (p.1.setCoefficients sr p.2.1 p.2.2) ((AllPass.new : AllPass ℝ).setCoefficients sr.toReal p.2.1.toReal p.2.2.toReal)

end Rasp
