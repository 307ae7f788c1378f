import Verif.Spec.Feedback
import Verif.Spec.Diff

/-! # Networks of delay lines, independent of the code's internals -/

namespace Rasp
open Finset

/-- `Network b f s x u v r`: `N` lines, starting as `s`. In round `n` every line announces a sample `v i n` (`next_out`), the samples
`u i n = f n (x · n) (v · n) i` are made of them and of the inputs, and every line processes its own and returns `r i n`. -/
def Network [Target] {T : Type} [FloatOps T] {N : ℕ} (b : Build) (f : ℕ → (Fin N → T) → (Fin N → T) → Fin N → T) (s : Fin N → Delay T) (x u v r : Fin N → ℕ → T) : Prop :=
  ∃ st : ℕ → Fin N → Delay T, st 0 = s ∧ ∀ n i, (st n i).nextOut = .ok (v i n) ∧ u i n = f n (fun j => x j n) (fun j => v j n) i ∧
    Processor.process b (st n i) (u i n) = .ok (st (n + 1) i, r i n)

/-- The energy in lines of lengths `d` before round `n`, `u i` being fed to line `i`. -/
noncomputable def lineEnergy {N : ℕ} (d : Fin N → ℕ) (u : Fin N → ℕ → ℝ) (n : ℕ) : ℝ := ∑ i, ∑ k ∈ range (d i), lag (u i) (k + 1) n ^ 2

/-- `x + a 0 v 0 + a 1 v 1 + …`, one row of a mixing matrix, added up from the left. -/
def mixRow {T : Type} [FloatOps T] {N : ℕ} (x : T) (a v : Fin N → T) : T :=
  (List.finRange N).foldl (fun acc j => FloatOps.add acc (FloatOps.mul (a j) (v j))) x

/-- `√(N D) / (1 - g)`: `N` lines of at most `D` samples, and a mixer that multiplies root energies by at most `g`. -/
noncomputable def networkGain (N D : ℕ) (g : ℝ) : ℝ := √(N * D) / (1 - g)

end Rasp
