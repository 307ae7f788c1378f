import Verif.Spec.MultiTap
import Verif.Spec.Resonance
import Verif.Spec.Rounding

/-!
# What a finite impulse response does to sinusoids and to noise, independent of the delay lines
-/

namespace Rasp
open FloatOps

/-- The line `s` with its taps read after every sample computes the finite impulse response of the taps. -/
def IsTapFir {σ T : Type} [FloatOps T] [Processor σ T] [TappableDelayLine σ T] (b : Build) (taps : List (T × ℕ)) (s : σ) : Prop :=
  ∀ x y, Gathers b taps s x y ↔ y = fir taps x

/-- The sum of the weights, each turned by the angle its delay makes at `ω` per sample. -/
noncomputable def tapResponse (taps : List (ℝ × ℕ)) (ω : ℝ) : ℂ :=
  (taps.map fun p => (p.1 : ℂ) * Complex.exp (-(ω * p.2 * Complex.I))).sum

/-- From sample `M` on, `y` is exactly the sinusoid of amplitude `A`, angle `ω` and phase `φ`, multiplied by `‖H‖` and shifted by `arg H`. -/
def RespondsFrom (M : ℕ) (y : ℕ → ℝ) (A ω φ : ℝ) (H : ℂ) : Prop := ∀ n ≥ M, y n = ‖H‖ * A * Real.cos (ω * n + φ + H.arg)

/-- `x + g * line.process(x)`, sample by sample. -/
def FeedsForward {σ T : Type} [FloatOps T] [Processor σ T] (b : Build) (s : σ) (g : T) (x y : ℕ → T) : Prop :=
  ∃ v, Responds b s x v ∧ ∀ n, y n = x n +. g *. v n

/-- The average of the latest `N` samples. -/
noncomputable def averageTaps (N : ℕ) : List (ℝ × ℕ) := (List.range N).map fun k => (1 / N, k)

/-- The sample and an echo of it. -/
def echoTaps {T : Type} [FloatOps T] (g : T) (d : ℕ) : List (T × ℕ) := [(one, 0), (g, d)]

/-- The sum of the magnitudes of the weights. -/
noncomputable def weight (taps : List (ℝ × ℕ)) : ℝ := (taps.map fun p => |p.1|).sum

/-- The taps with their weights read as real numbers. -/
noncomputable def exactTaps {f : Fmt} {L : Libm f} (taps : List (Fl L × ℕ)) : List (ℝ × ℕ) := taps.map fun p => (p.1.toReal, p.2)

end Rasp
