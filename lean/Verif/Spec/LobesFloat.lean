import Verif.Spec.Sidelobes
import Verif.Spec.WindowError

/-! # Levels of the side lobes of the six windows, independent of the code -/

namespace Rasp

/-- The items of an iterator over floating-point numbers as real numbers, zero after the last. -/
noncomputable def floatItems {f : Fmt} {L : Libm f} (o : ℕ → Option (Fl L)) (i : ℕ) : ℝ := ((o i).map Fl.toReal).getD 0

/-- The edge of the main lobe of a window with `n` points, in radians per sample. -/
noncomputable def lobeEdge (n : ℕ) : WindowKind → ℝ
  | .triangular => 2 * (2 * Real.pi / n)
  | .bartlett | .hann | .hamming => 2 * (2 * Real.pi / (n - 1 : ℕ))
  | .blackman => 3 * (2 * Real.pi / (n - 1 : ℕ))
  | .blackmanHarris => 4 * (2 * Real.pi / (n - 1 : ℕ))

/-- The level the side lobes stay below, relative to the sum of the window. -/
noncomputable def lobeLevel : WindowKind → ℝ
  | .triangular | .bartlett => 1 / 16
  | .hann => 1 / 30
  | .hamming => 1 / 100
  | .blackman => 1 / 500
  | .blackmanHarris => 1 / 10000

end Rasp
