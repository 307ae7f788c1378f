import Verif.Spec.Stream
import Verif.Spec.Diff

/-!
# Parameters that change while the signal runs
-/

namespace Rasp
variable {σ T : Type} [Processor σ T]

/-- `Automated b set s c x y`: from state `s`, the parameters are set to `c n` before sample `x n` is processed, which gives `y n`. -/
def Automated {π : Type} (b : Build) (set : σ → π → σ) (s : σ) (c : ℕ → π) (x y : ℕ → T) : Prop :=
  ∃ st : ℕ → σ, st 0 = s ∧ ∀ n, Processor.process b (set (st n) (c n)) (x n) = .ok (st (n + 1), y n)

/-- Setting the parameters to the values they have is not heard: doing so before every sample is the same as doing so once. -/
def SettingIsFree {π : Type} (set : σ → π → σ) : Prop :=
  ∀ (b : Build) (s : σ) (p : π) (x y : ℕ → T), Automated b set s (fun _ => p) x y ↔ Responds b (set s p) x y

/-- With the parameters set before every sample, the output depends on the current parameters and the current sample only, and is what a
new filter with those parameters makes of that sample. -/
def Memoryless {π : Type} (new : σ) (set : σ → π → σ) : Prop :=
  ∀ (b : Build) (s : σ) (c : ℕ → π) (x y : ℕ → T), Automated b set s c x y →
    ∀ n, ∃ s', Processor.process b (set new (c n)) (x n) = .ok (s', y n)

/-- Coefficients of a second-order filter. -/
structure Coef (T : Type) where
  b0 : T
  b1 : T
  b2 : T
  a1 : T
  a2 : T

/-- Every sample meets the coefficients that are current when it is output: direct form I. -/
def SolvesNow (c : ℕ → Coef ℝ) (x y : ℕ → ℝ) : Prop :=
  ∀ n, y n = (c n).b0 * x n + (c n).b1 * lag x 1 n + (c n).b2 * lag x 2 n - (c n).a1 * lag y 1 n - (c n).a2 * lag y 2 n

/-- Every sample meets the coefficients that were current when it came in: transposed direct form II. -/
def SolvesThen (c : ℕ → Coef ℝ) (x y : ℕ → ℝ) : Prop :=
  ∀ n, y n = (c n).b0 * x n + lag (fun m => (c m).b1 * x m - (c m).a1 * y m) 1 n + lag (fun m => (c m).b2 * x m - (c m).a2 * y m) 2 n

end Rasp
