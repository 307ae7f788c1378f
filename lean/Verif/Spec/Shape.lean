import Verif.Spec.Analog

/-!
# The gain of a filter as a function of the frequency, independent of the filter code
-/

namespace Rasp

variable {σ : Type} [Processor σ ℝ]

/-- Sinusoids of angle `w` per sample come out (eventually) with their amplitude multiplied by `g`. At most one `g` does
(`HasGain.unique`). -/
def HasGain (s : σ) (w g : ℝ) : Prop :=
  0 ≤ g ∧ ∃ θ : ℝ, ∀ A φ : ℝ, ConvergesTo s (fun n => A * Real.cos (w * n + φ)) (fun n => g * A * Real.cos (w * n + φ + θ))

/-- There is a gain at every angle of `I`, and it is strictly increasing there. -/
def Rises (s : σ) (I : Set ℝ) : Prop :=
  ∃ g : ℝ → ℝ, (∀ w ∈ I, HasGain s w (g w)) ∧ StrictMonoOn g I

/-- There is a gain at every angle of `I`, and it is strictly decreasing there. -/
def Falls (s : σ) (I : Set ℝ) : Prop :=
  ∃ g : ℝ → ℝ, (∀ w ∈ I, HasGain s w (g w)) ∧ StrictAntiOn g I

/-- The gain has a single maximum on `[0, π]`, at `p`. -/
def SinglePeak (s : σ) (p : ℝ) : Prop := Rises s (Set.Icc 0 p) ∧ Falls s (Set.Icc p Real.pi)

/-- The gain has a single minimum on `[0, π]`, at `p`. -/
def SingleDip (s : σ) (p : ℝ) : Prop := Falls s (Set.Icc 0 p) ∧ Rises s (Set.Icc p Real.pi)

end Rasp
