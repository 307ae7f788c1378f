import Verif.Spec.Polarity
import Verif.Spec.TimeShift
import Verif.Spec.Diff

/-!
# Mirrored signals

Changing the sign of every second sample turns the frequency `w` into `π - w`: low becomes high.
-/

namespace Rasp

/-- Every second sample with its sign changed. -/
def mirror (x : ℕ → ℝ) (n : ℕ) : ℝ := (-1) ^ n * x n

/-- `t` does to mirrored signals what `s` does to the signals themselves. -/
def IsMirror {σ τ : Type} [Processor σ ℝ] [Processor τ ℝ] (s : σ) (t : τ) : Prop :=
  ∀ (b : Build) (x y : ℕ → ℝ), Responds b s x y ↔ Responds b t (mirror x) (mirror y)

variable {f : Fmt} {L : Libm f}

/-- The same number at even times, the opposite number at odd times. -/
def Fl.Mirrored (n : ℕ) (x y : Fl L) : Prop := if Even n then x.Same y else x.Opposite y

/-- `t` does to mirrored streams exactly what `s` does to the streams themselves, in floating point. -/
def MirrorsTo {σ τ : Type} [Processor σ (Fl L)] [Processor τ (Fl L)] (s : σ) (t : τ) : Prop :=
  ∀ (b : Build) (x x' y : ℕ → Fl L), (∀ n, Fl.Mirrored n (x n) (x' n)) → Responds b s x y →
    ∃ y', Responds b t x' y' ∧ ∀ n, Fl.Mirrored n (y n) (y' n)

end Rasp
