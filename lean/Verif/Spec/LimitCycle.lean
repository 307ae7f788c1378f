import Verif.Spec.Periodic

/-!
# Limit cycles, independent of the code
-/

namespace Rasp

/-- Fed a signal of period `N`, the output repeats itself exactly, every `j * N` samples from sample `M * N` on, where the
periods `M` before and `j` of the cycle are at most `C` together. -/
def LimitCycle {σ T : Type} [Processor σ T] (s : σ) (C : ℕ) : Prop :=
  ∀ (b : Build) (N : ℕ) (x y : ℕ → T), 0 < N → Repeats N x → Responds b s x y →
    ∃ M j, 0 < j ∧ M + j ≤ C ∧ ∀ n, M * N ≤ n → y (n + j * N) = y n

/-- Fed a signal of period `N`, the output has period `N` from sample `d` on. -/
def RepeatsAfter {σ T : Type} [Processor σ T] (s : σ) (d : ℕ) : Prop :=
  ∀ (b : Build) (N : ℕ) (x y : ℕ → T), Repeats N x → Responds b s x y → ∀ n, d ≤ n → y (n + N) = y n

/-- How many numbers the format has: both signs of the infinities, of NaN and of the `2 ^ (p - 1) * (emax - emin + 3 - p)`
finite magnitudes. -/
def Fmt.count (f : Fmt) : ℕ := 2 * (2 ^ (f.p - 1) * (f.emax - f.emin + 3 - f.p).toNat + 2)

end Rasp
