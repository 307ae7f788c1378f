import Verif.Lemmas.Fl
import Verif.Spec.Stream

/-!
# Opposite signals
-/

namespace Rasp
variable {f : Fmt} {L : Libm f}

/-- Equal magnitude and opposite sign; two NaNs are opposite, and so are two zeros whatever their sign bits. -/
def Fl.Opposite (x y : Fl L) : Prop :=
  (x.IsNaN ∧ y.IsNaN) ∨ (∃ s, x = Fl.inf L s ∧ y = Fl.inf L (!s)) ∨ (x.Finite ∧ y.Finite ∧ y.toReal = -x.toReal)

/-- Turning the input stream upside down turns the output stream upside down (and causes no panic). -/
def Inverts {σ : Type} [Processor σ (Fl L)] (s : σ) : Prop :=
  ∀ (b : Build) (x x' y : ℕ → Fl L), (∀ n, (x n).Opposite (x' n)) → Responds b s x y →
    ∃ y', Responds b s x' y' ∧ ∀ n, (y n).Opposite (y' n)

end Rasp
