import Verif.Spec.Stream
import Verif.Float.Real
import Mathlib.Analysis.SpecialFunctions.Complex.Arg

/-!
# Difference equations and their properties, independent of the filter code
-/

namespace Rasp
open FloatOps

/-- The stream `x` delayed by `k`, silence before its start. -/
def lag {T : Type} [FloatOps T] (x : ℕ → T) (k n : ℕ) : T := if k ≤ n then x (n - k) else zero

/-- The stream `x` one sample later, with `h` in front. -/
def before {T : Type} (h : T) (x : ℕ → T) : ℕ → T
  | 0 => h
  | n + 1 => x n

/-- `y[n] = b0 x[n] + b1 x[n-1] + b2 x[n-2] - a1 y[n-1] - a2 y[n-2]`, everything zero before the start. -/
def SolvesDiff (b0 b1 b2 a1 a2 : ℝ) (x y : ℕ → ℝ) : Prop :=
  ∀ n, y n = b0 * x n + b1 * lag x 1 n + b2 * lag x 2 n - a1 * lag y 1 n - a2 * lag y 2 n

/-- The same equation with leftovers `c0`, `c1` of earlier samples added to the first two outputs. -/
def SolvesDiffFrom (c0 c1 b0 b1 b2 a1 a2 : ℝ) (x y : ℕ → ℝ) : Prop :=
  ∀ n, y n = b0 * x n + b1 * lag x 1 n + b2 * lag x 2 n - a1 * lag y 1 n - a2 * lag y 2 n
    + (if n = 0 then c0 else if n = 1 then c1 else 0)

variable {σ : Type} [Processor σ ℝ]

/-- The processor in state `s` implements exactly this difference equation. -/
def Implements (s : σ) (b0 b1 b2 a1 a2 : ℝ) : Prop :=
  ∀ (b : Build) (x y : ℕ → ℝ), Responds b s x y ↔ SolvesDiff b0 b1 b2 a1 a2 x y

/-- The processor in state `s` implements this difference equation after earlier input left something behind. -/
def ImplementsFrom (s : σ) (c0 c1 b0 b1 b2 a1 a2 : ℝ) : Prop :=
  ∀ (b : Build) (x y : ℕ → ℝ), Responds b s x y ↔ SolvesDiffFrom c0 c1 b0 b1 b2 a1 a2 x y

/-- Linear: responses to weighted sums are the weighted sums of the responses. -/
def IsLinear (s : σ) : Prop :=
  Total (T := ℝ) s ∧ ∀ (b : Build) (x y u v : ℕ → ℝ) (p q : ℝ), Responds b s x y → Responds b s u v →
    Responds b s (fun n => p * x n + q * u n) (fun n => p * y n + q * v n)

/-- Time-invariant: delaying the input by `k` (inserting silence) delays the output by `k`. -/
def IsTimeInvariant (s : σ) : Prop :=
  Total (T := ℝ) s ∧ ∀ (b : Build) (x y : ℕ → ℝ) (k : ℕ), Responds b s x y → Responds b s (lag x k) (lag y k)

/-- Bounded inputs give bounded outputs, with one gain factor for all streams. -/
def IsBoundedGain (s : σ) : Prop :=
  Total (T := ℝ) s ∧
  ∃ G, ∀ (b : Build) (x y : ℕ → ℝ) (B : ℝ), Responds b s x y → (∀ n, |x n| ≤ B) → ∀ n, |y n| ≤ G * B

/-- Bounded inputs give bounded outputs. -/
def IsBounded (s : σ) : Prop :=
  Total (T := ℝ) s ∧ ∀ B : ℝ, ∃ M : ℝ, ∀ (b : Build) (x y : ℕ → ℝ), Responds b s x y → (∀ n, |x n| ≤ B) → ∀ n, |y n| ≤ M

/-- Once the input is silent, the output dies away. -/
def SilenceDecays (s : σ) : Prop :=
  Total (T := ℝ) s ∧
  ∀ (b : Build) (x y : ℕ → ℝ), Responds b s x y → (∃ N, ∀ n, N ≤ n → x n = 0) → Filter.Tendsto y Filter.atTop (nhds 0)

/-- The outputs for input `x` converge to the stream `z`. -/
def ConvergesTo (s : σ) (x z : ℕ → ℝ) : Prop :=
  Total (T := ℝ) s ∧ ∀ (b : Build) (y : ℕ → ℝ), Responds b s x y → Filter.Tendsto (fun n => y n - z n) Filter.atTop (nhds 0)

/-- The stability triangle of `1 + a1 z⁻¹ + a2 z⁻²`. -/
def StablePair (a1 a2 : ℝ) : Prop := |a2| < 1 ∧ |a1| < 1 + a2

/-- The frequency response `B(z)/A(z)` at `z⁻¹ = e^(-iw)`, `w` in radians per sample. -/
noncomputable def freqResponse (b0 b1 b2 a1 a2 w : ℝ) : ℂ :=
  (b0 + b1 * Complex.exp (-(w * Complex.I)) + b2 * Complex.exp (-(w * Complex.I)) ^ 2) /
    (1 + a1 * Complex.exp (-(w * Complex.I)) + a2 * Complex.exp (-(w * Complex.I)) ^ 2)

end Rasp
