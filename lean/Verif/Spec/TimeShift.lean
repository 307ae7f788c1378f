import Verif.Lemmas.Fl
import Verif.Spec.Stream

/-!
# Signals that start later
-/

namespace Rasp
open FloatOps

/-- The signal `x` after `k` samples of silence. -/
def delayed {T : Type} [FloatOps T] (k : ℕ) (x : ℕ → T) : ℕ → T := fun n => if n < k then zero else x (n - k)

variable {f : Fmt} {L : Libm f}

/-- The same number, except that the two zeros and all NaNs are identified. -/
def Fl.Same (x y : Fl L) : Prop :=
  (x.IsNaN ∧ y.IsNaN) ∨ (∃ s, x = Fl.inf L s ∧ y = Fl.inf L s) ∨ (x.Finite ∧ y.Finite ∧ x.toReal = y.toReal)

/-- It does not matter when a signal starts: silence in front of the input gives the same amount of silence in front of the
same output (and causes no panic). -/
def TimeInvariant {σ : Type} [Processor σ (Fl L)] (b : Build) (s : σ) : Prop :=
  ∀ (k : ℕ) (x y : ℕ → Fl L), Responds b s x y →
    ∃ y', Responds b s (delayed k x) y' ∧ ∀ n, (y' n).Same (delayed k y n)

end Rasp
