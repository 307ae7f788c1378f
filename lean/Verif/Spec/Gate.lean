import Verif.Spec.Limiter

/-!
# Noise gates: client programs that mute what a detector reads as quiet
-/

namespace Rasp
open FloatOps
variable {σ T : Type} [FloatOps T] [Processor σ T]

/-- `if e < t { 0.0 } else { z }`. -/
def gated (t e z : T) : T := if lt e t then zero else z

/-- `let e = s.process(x)`, then the gated sample. -/
def Gates (b : Build) (t : T) (s : σ) (x y : ℕ → T) : Prop := ∃ e, Responds b s x e ∧ ∀ n, y n = gated t (e n) (x n)

end Rasp
