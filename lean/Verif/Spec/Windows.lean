import Verif.Model.Windows
import Verif.Float.Real
import Verif.Spec.Analysis

/-! # Windows: what a caller observes, and the textbook shapes -/

namespace Rasp

/-- `Yields b k n o`: an iterator of kind `k` created with size `n` returns `o 0, o 1, …` from successive `next` calls,
none of which panics. -/
def Yields [Target] {T : Type} [FloatOps T] (b : Build) (k : WindowKind) (n : ℕ) (o : ℕ → Option T) : Prop :=
  ∃ st : ℕ → WindowIter, st 0 = WindowIter.new n ∧ ∀ i, WindowIter.next T b k (st i) = .ok (st (i + 1), o i)

/-- The textbook formula of each shape for `n` points. -/
noncomputable def shape (k : WindowKind) (n i : ℝ) : ℝ :=
  let w := 2 * Real.pi * i / (n - 1)
  match k with
  | .triangular => 1 - |(i - (n - 1) / 2) / (n / 2)|
  | .bartlett => 1 - |(i - (n - 1) / 2) / ((n - 1) / 2)|
  | .hann => 0.5 * (1 - Real.cos w)
  | .hamming => 0.54 - 0.46 * Real.cos w
  | .blackman => 0.42 - 0.5 * Real.cos w + 0.08 * Real.cos (2 * w)
  | .blackmanHarris => 0.35875 - 0.48829 * Real.cos w + 0.14128 * Real.cos (2 * w) - 0.01168 * Real.cos (3 * w)

/-- Overlap-add of copies of a window started every `hop` samples from time 0, at time `t`: the sum of the values of all
copies that cover `t`. -/
noncomputable def overlapAdd (o : ℕ → Option ℝ) (hop t : ℕ) : ℝ :=
  ((List.range (t / hop + 1)).map fun j => (o (t - j * hop)).getD 0).sum

/-- What the IEEE results need from the platform's `cos`: NaN gives NaN. -/
def CosNaN {f : Fmt} (L : Libm f) : Prop := ∀ v : Fl L, v.IsNaN → (FloatOps.cos v).IsNaN

/-- … finite arguments give a value in `[-1, 1]`. -/
def CosUnit {f : Fmt} (L : Libm f) : Prop := ∀ v : Fl L, v.Finite → Fl.In (-1) 1 (FloatOps.cos v)

/-- … and zero gives exactly one. -/
def CosZero {f : Fmt} (L : Libm f) : Prop := ∀ v : Fl L, v.Finite → v.toReal = 0 → FloatOps.cos v = (FloatOps.one : Fl L)

/-- A library with a correctly rounded `cos` (the other functions do not matter here). Only used to show that the three
assumptions are satisfiable together. -/
noncomputable def Libm.roundedCos (f : Fmt) : Libm f where
  exp x := x
  cos
    | .nan _ => .nan false
    | .inf _ => .nan false
    | .fin s a h => FP.ofReal f false (Real.cos (FP.toReal (.fin s a h)))
  sin x := x
  log10 x := x
  powf x _ := x

theorem Libm.roundedCos_ok (f : Fmt) :
    CosNaN (Libm.roundedCos f) ∧ CosUnit (Libm.roundedCos f) ∧ CosZero (Libm.roundedCos f) := by
  refine ⟨fun v hv => ?_, fun v hv => ?_, fun v hv h0 => ?_⟩
  · obtain ⟨s, rfl⟩ := Fl.isNaN_iff.mp hv
    exact trivial
  · obtain ⟨s, a, h, rfl⟩ := FP.finite_cases hv
    have hno : FP.NoOvf f (Real.cos (FP.toReal (.fin s a h : FP f))) :=
      FP.noOvf_of_le (isRep_one f) (FP.one_lt_lim f) (Real.abs_cos_le_one _)
    obtain ⟨h2, h3⟩ := FP.ofReal_of_noOvf (s := false) hno
    refine ⟨h2, ?_, ?_⟩
    · show -1 ≤ FP.toReal (FP.ofReal f false _)
      rw [h3]; exact le_rnd_of_le (isRep_one f).neg (Real.neg_one_le_cos _)
    · show FP.toReal (FP.ofReal f false _) ≤ 1
      rw [h3]; exact rnd_le_of_le (isRep_one f) (Real.cos_le_one _)
  · obtain ⟨s, a, h, rfl⟩ := FP.finite_cases hv
    have h0' : FP.toReal (.fin s a h : FP f) = 0 := h0
    show FP.ofReal f false (Real.cos (FP.toReal (.fin s a h))) = FP.ofReal f false 1
    rw [h0', Real.cos_zero]

end Rasp
