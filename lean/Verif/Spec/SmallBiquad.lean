import Verif.Spec.TimeShift

/-! # Two processors that agree as long as the signal is finite -/

namespace Rasp
variable {f : Fmt} {L : Libm f} {σ τ : Type} [Processor σ (Fl L)] [Processor τ (Fl L)]

/-- `t` answers every signal like `s` (up to the sign of zero), up to and including the first sample at which the input
or the output of `s` is not finite. -/
def SameWhileFinite (s : σ) (t : τ) : Prop :=
  ∀ (b : Build) (x y : ℕ → Fl L), Responds b s x y →
    ∃ y', Responds b t x y' ∧ ∀ n, (∀ k < n, (x k).Finite ∧ (y k).Finite) → (y n).Same (y' n)

end Rasp
