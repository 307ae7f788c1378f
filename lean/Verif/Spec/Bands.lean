import Verif.Spec.WindowedSinc

/-!
# Filters with several bands designed with a window, independent of the code

Ideal filters with real gains that are constant between edges are sums of ideal low-pass filters; the edge `π` passes everything.
-/

namespace Rasp

/-- Sample `m` of the impulse response of the sum of ideal low-pass filters with gains `p.1` and edges `p.2`. -/
noncomputable def bandTap (bands : List (ℝ × ℝ)) (m : ℤ) : ℝ := (bands.map fun p => p.1 * idealTap p.2 m).sum

/-- The `2M + 1` samples around the middle. -/
noncomputable def bandTaps (M : ℕ) (bands : List (ℝ × ℝ)) : List ℝ := (List.range (2 * M + 1)).map fun k : ℕ => bandTap bands ((k : ℤ) - M)

/-- The gain of the ideal filter at `ω`: what has its edge above `|ω|` counts. -/
noncomputable def bandGain (bands : List (ℝ × ℝ)) (ω : ℝ) : ℝ := (bands.map fun p => if |ω| ≤ p.2 then p.1 else 0).sum

/-- The sum of the magnitudes of the steps of the gain, at all edges but `π`. -/
noncomputable def bandSteps (bands : List (ℝ × ℝ)) : ℝ := (bands.map fun p => if p.2 = Real.pi then 0 else |p.1|).sum

/-- The sum of the magnitudes of all gains. -/
noncomputable def bandTotal (bands : List (ℝ × ℝ)) : ℝ := (bands.map fun p => |p.1|).sum

/-- All edges are between `0` and `π - t`, or at `π`. -/
def EdgesWithin (bands : List (ℝ × ℝ)) (t : ℝ) : Prop := ∀ p ∈ bands, p.2 = Real.pi ∨ 0 ≤ p.2 ∧ p.2 ≤ Real.pi - t

/-- `ω` is at most half the sample rate and at least `t` away from all edges but `π`. -/
def AwayFromEdges (bands : List (ℝ × ℝ)) (t ω : ℝ) : Prop := |ω| ≤ Real.pi ∧ ∀ p ∈ bands, p.2 = Real.pi ∨ |ω| ≤ p.2 - t ∨ p.2 + t ≤ |ω|

/-- What another filter leaves out. -/
noncomputable def complementBands (bands : List (ℝ × ℝ)) : List (ℝ × ℝ) := (1, Real.pi) :: bands.map fun p => (-p.1, p.2)

/-- Everything but the low-pass filter of edge `Ω`. -/
noncomputable def highPassBands (Ω : ℝ) : List (ℝ × ℝ) := [(1, Real.pi), (-1, Ω)]

/-- What is between two edges. -/
noncomputable def bandPassBands (Ω Ω' : ℝ) : List (ℝ × ℝ) := [(1, Ω'), (-1, Ω)]

/-- Everything but what is between two edges. -/
noncomputable def bandStopBands (Ω Ω' : ℝ) : List (ℝ × ℝ) := [(1, Real.pi), (-1, Ω'), (1, Ω)]

end Rasp
