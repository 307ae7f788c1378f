import Verif.Spec.Diff

/-!
# One processor undoing another
-/

namespace Rasp

/-- `Undoes b s t`: `s` answers every stream, and whatever it makes of one, `t` turns back into that stream, sample by sample. -/
def Undoes {T σ τ : Type} [Processor σ T] [Processor τ T] (b : Build) (s : σ) (t : τ) : Prop :=
  (∀ x : ℕ → T, ∃ y, Responds b s x y) ∧ ∀ x y : ℕ → T, Responds b s x y → Responds b t y x

end Rasp
