import Verif.Spec.Analog
import Verif.Spec.Spectrum
import Verif.Spec.Rounding

/-!
# Periodic signals and offsets, independent of the filter code
-/

namespace Rasp
open Filter Topology

/-- The stream repeats every `N` samples. -/
def Repeats (N : ℕ) {α : Type} (x : ℕ → α) : Prop := ∀ n, x (n + N) = x n

/-- The mean of the first `N` samples. -/
noncomputable def average (N : ℕ) (x : ℕ → ℝ) : ℝ := (∑ i ∈ Finset.range N, x i) / N

variable {σ : Type} [Processor σ ℝ]

/-- Fed a signal that approaches one of period `N`, the output approaches a signal `Y` of period `N`, every harmonic of
which is that of the input, changed in amplitude and phase as the processor changes sinusoids of that frequency. -/
def FiltersPeriodic (s : σ) : Prop :=
  ∀ (N : ℕ) (u : ℕ → ℝ), 0 < N → Repeats N u → ∃ Y : ℕ → ℝ, Repeats N Y ∧
    (∀ x : ℕ → ℝ, Tendsto (fun n => x n - u n) atTop (𝓝 0) → ConvergesTo s x Y) ∧
    ∀ k : ℤ, ∃ H : ℂ, SinusoidGain s (2 * Real.pi * k / N) H ∧ dft N Y k = H * dft N u k

/-- In the long run the mean over a period of the output is `g` times that of the input. -/
def AverageGain (s : σ) (g : ℝ) : Prop :=
  ∀ (N : ℕ) (u : ℕ → ℝ), 0 < N → Repeats N u → ∃ Y : ℕ → ℝ, Repeats N Y ∧ ConvergesTo s u Y ∧ average N Y = g * average N u

/-- In the long run the energy of a period of the output lies between `lo ^ 2` and `hi ^ 2` times that of the input. -/
def PeriodEnergyWithin (s : σ) (lo hi : ℝ) : Prop :=
  ∀ (N : ℕ) (u : ℕ → ℝ), 0 < N → Repeats N u → ∃ Y : ℕ → ℝ, Repeats N Y ∧ ConvergesTo s u Y ∧
    lo ^ 2 * ∑ i ∈ Finset.range N, u i ^ 2 ≤ ∑ i ∈ Finset.range N, Y i ^ 2 ∧
    ∑ i ∈ Finset.range N, Y i ^ 2 ≤ hi ^ 2 * ∑ i ∈ Finset.range N, u i ^ 2

/-- Whatever the signal, adding something that approaches the constant `c` ends up adding `g * c` to the output. -/
def OffsetGain (s : σ) (g : ℝ) : Prop :=
  Total (T := ℝ) s ∧ ∀ (b : Build) (x y x' y' : ℕ → ℝ) (c : ℝ), Responds b s x y → Responds b s x' y' →
    Tendsto (fun n => x' n - x n) atTop (𝓝 c) → Tendsto (fun n => y' n - y n) atTop (𝓝 (g * c))

end Rasp
