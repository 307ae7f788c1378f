import Verif.Model.SizeHint

/-! # What std demands of size hints -/

namespace Rasp

/-- Contract of `Iterator::size_hint` with `r` items to come: the bounds are bounds. -/
def Hint.Sound (h : Hint) (r : ℕ) : Prop := h.1 ≤ r ∧ ∀ u, h.2 = some u → r ≤ u

/-- Contract of `ExactSizeIterator`: `size_hint` is exact. -/
def Hint.Exact (h : Hint) (r : ℕ) : Prop := h = (r, some r)

end Rasp
