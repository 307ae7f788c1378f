import Verif.Spec.Diff

/-!
# Answers to a step
-/

namespace Rasp
open Filter
variable {σ : Type} [Processor σ ℝ]

/-- Fed with ones, the outputs converge to `G` but go above and below it again and again. -/
def RingsAround (s : σ) (G : ℝ) : Prop :=
  ∀ b : Build, ∃ y, Responds b s (fun _ => 1) y ∧ Tendsto y atTop (nhds G) ∧ (∀ N, ∃ n, N ≤ n ∧ G < y n) ∧ ∀ N, ∃ n, N ≤ n ∧ y n < G

/-- Fed with ones, the outputs converge to `G` and never fall. -/
def RisesTo (s : σ) (G : ℝ) : Prop :=
  ∀ b : Build, ∃ y, Responds b s (fun _ => 1) y ∧ Tendsto y atTop (nhds G) ∧ Monotone y ∧ ∀ n, y n ≤ G

end Rasp
