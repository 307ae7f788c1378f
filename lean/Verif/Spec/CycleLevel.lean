import Verif.Spec.LimitCycle

/-!
# The mean and the level of a cycle, independent of the code
-/

namespace Rasp

/-- The root mean square of the first `N` samples. -/
noncomputable def rmsLevel (N : ℕ) (x : ℕ → ℝ) : ℝ := Real.sqrt (average N fun n => x n ^ 2)

/-- The values of the samples from `m` on. -/
noncomputable def valuesFrom {f : Fmt} {L : Libm f} (y : ℕ → Fl L) (m : ℕ) : ℕ → ℝ := fun i => (y (m + i)).toReal

/-- From some sample on all samples are finite and repeat exactly, every `j` periods of `N` samples, reached within `C` periods
including the first of the cycle; `p` holds of the values in the cycle and of its length. -/
def EndsInCycle {f : Fmt} {L : Libm f} (C N : ℕ) (y : ℕ → Fl L) (p : (ℕ → ℝ) → ℕ → Prop) : Prop :=
  ∃ M j, 0 < j ∧ M + j ≤ C ∧ (∀ n, M * N ≤ n → y (n + j * N) = y n ∧ (y n).Finite) ∧ p (valuesFrom y (M * N)) (j * N)

section
variable {f : Fmt} {L : Libm f} {σ : Type} [Processor σ (Fl L)]

/-- Fed periodic samples of magnitude at most `X`, the output ends in a cycle whose mean is `g` times that of the input, within `E`. -/
def CycleMean (s : σ) (X : ℝ) (C : ℕ) (g E : ℝ) : Prop :=
  ∀ (b : Build) (N : ℕ) (x y : ℕ → Fl L), 0 < N → (∀ n, (x n).Within X) → Repeats N x → Responds b s x y →
    EndsInCycle C N y fun v P => |average P v - g * average N fun n => (x n).toReal| ≤ E

/-- Fed periodic samples of magnitude at most `X`, the output ends in a cycle whose level is from `lo` to `hi` times that of the
input, within `E`. -/
def CycleLevel (s : σ) (X : ℝ) (C : ℕ) (lo hi E : ℝ) : Prop :=
  ∀ (b : Build) (N : ℕ) (x y : ℕ → Fl L), 0 < N → (∀ n, (x n).Within X) → Repeats N x → Responds b s x y →
    EndsInCycle C N y fun v P => lo * rmsLevel N (fun n => (x n).toReal) - E ≤ rmsLevel P v ∧ rmsLevel P v ≤ hi * rmsLevel N (fun n => (x n).toReal) + E
end

end Rasp
