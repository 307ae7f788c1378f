import Verif.Spec.TapResponse
import Verif.Spec.Cosines
import Mathlib.Analysis.SpecialFunctions.Log.Basic

/-!
# Low-pass filters designed with a window, independent of the code

The impulse response of the ideal low-pass filter, cut off by one of the windows, and how far the result is from ideal.
-/

namespace Rasp

/-- Sample `m` of the impulse response of the ideal low-pass filter that keeps everything up to `Ω` radians per sample. -/
noncomputable def idealTap (Ω : ℝ) (m : ℤ) : ℝ := if m = 0 then Ω / Real.pi else Real.sin (Ω * m) / (Real.pi * m)

/-- The `2M + 1` samples around the middle. -/
noncomputable def idealTaps (M : ℕ) (Ω : ℝ) : List ℝ := (List.range (2 * M + 1)).map fun k : ℕ => idealTap Ω ((k : ℤ) - M)

/-- A list of weights as taps: weight number `k` for the sample `k` back. -/
def tapsOf {T : Type} [FloatOps T] (cs : List T) : List (T × ℕ) := (List.range cs.length).map fun k => (cs.getD k FloatOps.zero, k)

/-- Sum of `a k * log ((sin² (t/2) - sin² (kπ/N)) / cos² (kπ/N))` over the cosines of a window with `N` steps, divided by `π`: how far a low-pass filter
designed with the window may be from ideal at a distance of `t` radians per sample from the edge. -/
noncomputable def designRipple (a : List ℝ) (N : ℕ) (t : ℝ) : ℝ :=
  (∑ k ∈ Finset.range a.length, a.getD k 0 * (Real.log (Real.sin (t / 2) ^ 2 - Real.sin (k * (Real.pi / N)) ^ 2) -
    Real.log (1 - Real.sin (k * (Real.pi / N)) ^ 2))) / Real.pi

/-- The gain `r` at `ω` is within `ρ` of that of the ideal low-pass filter with edge `Ω`, except within `t` of the edge. -/
def NearlyIdeal (Ω t ρ ω r : ℝ) : Prop := (|ω| ≤ Ω - t → |r - 1| ≤ ρ) ∧ (Ω + t ≤ |ω| → |ω| ≤ Real.pi → |r| ≤ ρ)

end Rasp
