import Verif.Spec.Limiter
import Verif.Spec.Rbj
import Verif.Model.Util

/-!
# Client programs that set their gain by a detector, in decibels

A compressor reads a level with a detector and `to_db`; what is above the threshold it reduces by a fixed part, with `to_sample` and `apply_gain`.
-/

namespace Rasp
open FloatOps
variable {σ T : Type} [FloatOps T] [Processor σ T]

/-- `let l = to_db(e); if l > t { apply_gain(z, to_sample((t - l) * c)) } else { z }`. -/
def compressed (b : Build) (t c e z : T) : Res T := do
  let l ← toDb b e
  if lt t l then applyGain b z (toSample ((t -. l) *. c)) else .ok z

/-- `let e = s.process(x)`, then the compressed sample. -/
def Compresses (b : Build) (t c : T) (s : σ) (x y : ℕ → T) : Prop := ∃ e, Responds b s x e ∧ ∀ n, compressed b t c (e n) (x n) = .ok (y n)

/-- The gain at the level `e` with threshold `θ` (both amplitudes) when the part `c` of the excess, in decibels, is taken away. -/
noncomputable def compressorGain (θ c e : ℝ) : ℝ := if θ < e then (θ / e) ^ c else 1

/-- The amplitude that comes out where the amplitude `a` goes in and is read correctly. -/
noncomputable def staticCurve (θ c a : ℝ) : ℝ := a * compressorGain θ c a

/-- No more than 120 dB are taken away at the reading `e`. -/
def InGainRange (t c e : ℝ) : Prop := dbFactor t < e → c * (20 * Real.logb 10 e - t) < 120

end Rasp
