import Verif.Spec.Linear
import Verif.Spec.Rounding

/-!
# Comb filters
-/

namespace Rasp

/-- `z = x + g · (z delayed by k)`, starting from silence. -/
def Comb (g : ℝ) (k : ℕ) (x z : ℕ → ℝ) : Prop := ∀ n, z n = x n + g * lag z k n

/-- The same with the linearly interpolated past at distance `d`. -/
def FractionalComb (g d : ℝ) (x z : ℕ → ℝ) : Prop := ∀ n, z n = x n + g * interp d [] z n

/-- `u` consists of finite numbers, each within `E` of `z`. -/
def StaysClose {f : Fmt} {L : Libm f} (u : ℕ → Fl L) (z : ℕ → ℝ) (E : ℝ) : Prop := ∀ n, (u n).Finite ∧ |(u n).toReal - z n| ≤ E

end Rasp
