import Verif.Spec.Automation
import Verif.Spec.Rounding

/-!
# Samples that are not finite

One infinity or NaN, or one overflow, in a stream that is otherwise in order: how far does it reach?
-/

namespace Rasp
variable {f : Fmt} {L : Libm f} {σ : Type} [Processor σ (Fl L)]

/-- From state `s`, whatever the parameters are set to before each sample: once an input or an output is not finite, no later output is
finite; once one is NaN, all later outputs are NaN. -/
def SpoiltForGood {π : Type} (set : σ → π → σ) (s : σ) : Prop :=
  (∀ (b : Build) (c : ℕ → π) (x : ℕ → Fl L), ∃ y, Automated b set s c x y) ∧
  ∀ (b : Build) (c : ℕ → π) (x y : ℕ → Fl L), Automated b set s c x y → ∀ k n, k ≤ n →
    (¬ (x k).Finite ∨ ¬ (y k).Finite → ¬ (y n).Finite) ∧ ((x k).IsNaN ∨ (y k).IsNaN → (y n).IsNaN)

/-- The same while the parameters stay as they are. -/
def StaysSpoilt (s : σ) : Prop :=
  Total (T := Fl L) s ∧
  ∀ (b : Build) (x y : ℕ → Fl L), Responds b s x y → ∀ k n, k ≤ n →
    (¬ (x k).Finite ∨ ¬ (y k).Finite → ¬ (y n).Finite) ∧ ((x k).IsNaN ∨ (y k).IsNaN → (y n).IsNaN)

/-- From state `s`, whatever the parameters are set to before each sample: an input that is not finite spoils the output of its own time
and the next `w` ones, and no other output depends on this input at all. -/
def SpoiltFor {π : Type} (w : ℕ) (set : σ → π → σ) (s : σ) : Prop :=
  (∀ (b : Build) (c : ℕ → π) (x : ℕ → Fl L), ∃ y, Automated b set s c x y) ∧
  ∀ (b : Build) (c : ℕ → π) (x y : ℕ → Fl L), Automated b set s c x y → ∀ k,
    (¬ (x k).Finite → ∀ n, k ≤ n → n ≤ k + w → ¬ (y n).Finite) ∧
    ∀ x' y', Automated b set s c x' y' → (∀ n, n ≠ k → x' n = x n) → ∀ n, n < k ∨ k + w < n → y' n = y n

/-- A way of combining the input with the fed-back sample whose result is finite only when both are. -/
def PassesOn (c : Fl L → Fl L → Fl L) : Prop :=
  ∀ x v, (c x v).Finite → x.Finite ∧ v.Finite

end Rasp
