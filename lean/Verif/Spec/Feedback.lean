import Verif.Model.Delay
import Verif.Model.LinearDelay
import Verif.Spec.Stream

/-!
# Delay lines in a feedback loop

The loop in which delay lines are used: read `next_out`, combine it with the input, `process` the result.
-/

namespace Rasp

/-- `FeedbackLoop b next f s x u v r`: from state `s`, in every round `next_out` (here `next`) returns `v n`, the sample
`u n = f (x n) (v n)` is processed, and `process` returns `r n`. -/
def FeedbackLoop {σ T : Type} [Processor σ T] (b : Build) (next : σ → Res (σ × T)) (f : T → T → T) (s : σ) (x u v r : ℕ → T) : Prop :=
  ∃ st mid : ℕ → σ, st 0 = s ∧ ∀ n, next (st n) = .ok (mid n, v n) ∧ u n = f (x n) (v n) ∧
    Processor.process b (mid n) (u n) = .ok (st (n + 1), r n)

/-- `Delay::next_out`, which takes `&self`, as a step of the loop. -/
def Delay.announce {T : Type} (s : Delay T) : Res (Delay T × T) := do let y ← s.nextOut; .ok (s, y)

end Rasp
