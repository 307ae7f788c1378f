import Verif.Spec.Stream
import Verif.Spec.Rounding

/-!
# Order of floating-point signals
-/

namespace Rasp
variable {f : Fmt} {L : Libm f}

/-- Not above, as far as both are numbers. -/
def Fl.NotAbove (x y : Fl L) : Prop := x.Finite → y.Finite → x.toReal ≤ y.toReal

/-- If `z` is finite then so is `y`, and not larger in magnitude. -/
def Fl.DominatedBy (y z : Fl L) : Prop := z.Finite → y.Finite ∧ |y.toReal| ≤ z.toReal

/-- A library whose `log10` and powers of ten keep order, whose `log10` does not go below -6 above 1e-6, and whose
powers of ten are not negative. -/
structure OrderedDb (L : Libm f) : Prop where
  log : ∀ x y : Fl L, x.Finite → y.Finite → 0 < x.toReal → x.toReal ≤ y.toReal → (FloatOps.log10 x).NotAbove (FloatOps.log10 y)
  floor : ∀ x : Fl L, x.Finite → 1 / 1000000 < x.toReal → (FloatOps.log10 x).Finite → -6 ≤ (FloatOps.log10 x).toReal
  pow : ∀ t x y : Fl L, t.Finite → t.toReal = 10 → x.Finite → y.Finite → x.toReal ≤ y.toReal → (FloatOps.powf t x).NotAbove (FloatOps.powf t y)
  pos : ∀ t x : Fl L, t.Finite → t.toReal = 10 → (FloatOps.powf t x).Finite → 0 ≤ (FloatOps.powf t x).toReal

variable {σ : Type} [Processor σ (Fl L)]

/-- From `s` and `t`, inputs that never cross give outputs that never cross. -/
def InOrder (s t : σ) : Prop :=
  Total (T := Fl L) s ∧ Total (T := Fl L) t ∧
  ∀ (b : Build) (x x' y y' : ℕ → Fl L), Responds b s x y → Responds b t x' y' → (∀ n, (x n).NotAbove (x' n)) → ∀ n, (y n).NotAbove (y' n)

/-- From `s` an input gives outputs never larger than those an input that dominates it gives from `t`; in particular it does not overflow
before that one does. -/
def Dominates (t s : σ) : Prop :=
  ∀ (b : Build) (x x' y y' : ℕ → Fl L), Responds b s x y → Responds b t x' y' → (∀ n, (x n).DominatedBy (x' n)) →
    ∀ n, (y n).DominatedBy (y' n)

/-- A constant input from 0 up makes the output rise until it overflows, or stops changing for good after finitely many samples. -/
def RisesAndFreezes (s : σ) : Prop :=
  ∀ (b : Build) (c : Fl L) (y : ℕ → Fl L), c.Finite → 0 ≤ c.toReal → Responds b s (fun _ => c) y →
    (∀ n, (y n).NotAbove (y (n + 1))) ∧
    ∃ N, (∀ n, N ≤ n → ¬ (y n).Finite) ∨ ∀ n, N ≤ n → (y n).Finite ∧ (y n).toReal = (y N).toReal

end Rasp
