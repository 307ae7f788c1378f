import Verif.Lemmas.FP

/-! # `FP` lemmas restated for the `FloatOps` operations of `Fl L` -/

namespace Rasp
open FloatOps
namespace Fl
variable {f : Fmt} {L : Libm f}

/-- The real value of a finite number (and `0` for the others). -/
noncomputable def toReal (x : Fl L) : ℝ := FP.toReal (f := f) x
/-- Finite: neither infinite nor NaN. -/
def Finite (x : Fl L) : Prop := FP.Finite (f := f) x
/-- Is NaN. -/
def IsNaN (x : Fl L) : Prop := FP.IsNaN (f := f) x
/-- Rust's `==`. -/
noncomputable def eq (x y : Fl L) : Bool := FP.eq (f := f) x y
/-- NaN, `∞`, `-∞` -/
def nan (L : Libm f) (s : Bool) : Fl L := FP.nan (f := f) s
def inf (L : Libm f) (s : Bool) : Fl L := FP.inf (f := f) s

theorem isRep_toReal (x : Fl L) : IsRep f x.toReal := FP.isRep_toReal x
theorem abs_toReal_lt (x : Fl L) : |x.toReal| < f.lim := FP.abs_toReal_lt x
theorem noOvf_of_abs_le {x : ℝ} {y : Fl L} (h : |x| ≤ |y.toReal|) : FP.NoOvf f x := FP.noOvf_of_abs_le h
theorem noOvf_toReal (y : Fl L) : FP.NoOvf f y.toReal := FP.noOvf_toReal y

theorem cases (x : Fl L) : (∃ s, x = nan L s) ∨ (∃ s, x = inf L s) ∨ x.Finite := by
  cases x with
  | nan s => exact .inl ⟨s, rfl⟩
  | inf s => exact .inr (.inl ⟨s, rfl⟩)
  | fin s a h => exact .inr (.inr trivial)

theorem isNaN_iff {x : Fl L} : x.IsNaN ↔ ∃ s, x = nan L s := by
  cases x with
  | nan s => exact ⟨fun _ => ⟨s, rfl⟩, fun _ => trivial⟩
  | inf s => exact ⟨fun h => h.elim, fun ⟨_, h⟩ => FP.noConfusion rfl (heq_of_eq h)⟩
  | fin s a h => exact ⟨fun h => h.elim, fun ⟨_, h⟩ => FP.noConfusion rfl (heq_of_eq h)⟩

theorem Finite.not_isNaN {x : Fl L} (h : x.Finite) : ¬ x.IsNaN := by
  obtain ⟨s, a, ha, rfl⟩ := FP.finite_cases h
  exact id

theorem isFinite_iff {x : Fl L} : FloatOps.isFinite x = true ↔ x.Finite := FP.isFinite_iff

theorem zero_finite : (zero : Fl L).Finite := (FP.ofReal_zero false).1
@[simp] theorem zero_toReal : (zero : Fl L).toReal = 0 := (FP.ofReal_zero false).2
theorem one_finite : (one : Fl L).Finite := (FP.ofReal_one false).1
@[simp] theorem one_toReal : (one : Fl L).toReal = 1 := (FP.ofReal_one false).2

theorem ofUsize_val {n : ℕ} (h : (n : ℝ) ≤ 2 ^ f.emax) :
    (ofUsize n : Fl L).Finite ∧ (ofUsize n : Fl L).toReal = rnd f n :=
  FP.ofReal_of_noOvf (FP.noOvf_nat h)

theorem add_val {x y : Fl L} (hx : x.Finite) (hy : y.Finite) (h : FP.NoOvf f (x.toReal + y.toReal)) :
    (x +. y).Finite ∧ (x +. y).toReal = rnd f (x.toReal + y.toReal) := FP.add_val hx hy h
theorem sub_val {x y : Fl L} (hx : x.Finite) (hy : y.Finite) (h : FP.NoOvf f (x.toReal - y.toReal)) :
    (x -. y).Finite ∧ (x -. y).toReal = rnd f (x.toReal - y.toReal) := FP.sub_val hx hy h
theorem mul_val {x y : Fl L} (hx : x.Finite) (hy : y.Finite) (h : FP.NoOvf f (x.toReal * y.toReal)) :
    (x *. y).Finite ∧ (x *. y).toReal = rnd f (x.toReal * y.toReal) := FP.mul_val hx hy h
theorem div_val {x y : Fl L} (hx : x.Finite) (hy : y.Finite) (h0 : y.toReal ≠ 0)
    (h : FP.NoOvf f (x.toReal / y.toReal)) :
    (x /. y).Finite ∧ (x /. y).toReal = rnd f (x.toReal / y.toReal) := FP.div_val hx hy h0 h
theorem neg_finite {x : Fl L} : (FloatOps.neg x).Finite ↔ x.Finite := FP.finite_neg
@[simp] theorem neg_toReal (x : Fl L) : (FloatOps.neg x).toReal = - x.toReal := FP.toReal_neg x
theorem abs_finite {x : Fl L} : (FloatOps.abs x).Finite ↔ x.Finite := FP.finite_abs
@[simp] theorem abs_toReal (x : Fl L) : (FloatOps.abs x).toReal = |x.toReal| := FP.toReal_abs x

theorem lt_iff {x y : Fl L} (hx : x.Finite) (hy : y.Finite) : lt x y = true ↔ x.toReal < y.toReal := FP.lt_fin hx hy
theorem le_iff {x y : Fl L} (hx : x.Finite) (hy : y.Finite) : le x y = true ↔ x.toReal ≤ y.toReal := FP.le_fin hx hy
theorem eq_iff {x y : Fl L} (hx : x.Finite) (hy : y.Finite) : eq x y = true ↔ x.toReal = y.toReal := FP.eq_fin hx hy
theorem lt_false_iff {x y : Fl L} (hx : x.Finite) (hy : y.Finite) : lt x y = false ↔ y.toReal ≤ x.toReal := by
  rw [← Bool.not_eq_true, lt_iff hx hy, not_lt]
theorem lt_nan_left {x y : Fl L} (h : x.IsNaN) : lt x y = false := by
  obtain ⟨s, rfl⟩ := isNaN_iff.mp h; exact FP.lt_nan_left _ _
theorem lt_nan_right {x y : Fl L} (h : y.IsNaN) : lt x y = false := by
  obtain ⟨s, rfl⟩ := isNaN_iff.mp h; exact FP.lt_nan_right _ _
theorem le_nan_left {x y : Fl L} (h : x.IsNaN) : le x y = false := by
  obtain ⟨s, rfl⟩ := isNaN_iff.mp h; exact FP.le_nan_left _ _
theorem le_nan_right {x y : Fl L} (h : y.IsNaN) : le x y = false := by
  obtain ⟨s, rfl⟩ := isNaN_iff.mp h; exact FP.le_nan_right _ _

theorem add_nan_left {x y : Fl L} (h : x.IsNaN) : (x +. y).IsNaN := by
  obtain ⟨s, rfl⟩ := isNaN_iff.mp h
  show FP.IsNaN (FP.add (f := f) (FP.nan s) y)
  cases y <;> trivial
theorem add_nan_right {x y : Fl L} (h : y.IsNaN) : (x +. y).IsNaN := by
  obtain ⟨s, rfl⟩ := isNaN_iff.mp h
  show FP.IsNaN (FP.add (f := f) x (FP.nan s))
  cases x <;> trivial
theorem sub_nan_left {x y : Fl L} (h : x.IsNaN) : (x -. y).IsNaN := by
  obtain ⟨s, rfl⟩ := isNaN_iff.mp h
  show FP.IsNaN (FP.add (f := f) (FP.nan s) (FP.neg y))
  cases (FP.neg y) <;> trivial
theorem sub_nan_right {x y : Fl L} (h : y.IsNaN) : (x -. y).IsNaN := by
  obtain ⟨s, rfl⟩ := isNaN_iff.mp h
  show FP.IsNaN (FP.add (f := f) x (FP.nan (!s)))
  cases x <;> trivial
theorem mul_nan_left {x y : Fl L} (h : x.IsNaN) : (x *. y).IsNaN := by
  obtain ⟨s, rfl⟩ := isNaN_iff.mp h
  show FP.IsNaN (FP.mul (f := f) (FP.nan s) y)
  cases y <;> trivial
theorem mul_nan_right {x y : Fl L} (h : y.IsNaN) : (x *. y).IsNaN := by
  obtain ⟨s, rfl⟩ := isNaN_iff.mp h
  show FP.IsNaN (FP.mul (f := f) x (FP.nan s))
  cases x <;> trivial

/-- Finite numbers with the same value and, if zero, the same sign are the same. -/
theorem ext_of_finite {x y : Fl L} (hx : x.Finite) (hy : y.Finite) (h : x.toReal = y.toReal)
    (hs : isSignNegative x = isSignNegative y) : x = y := FP.ext_of_finite hx hy h hs

theorem ext_of_ne {x y : Fl L} (hx : x.Finite) (hy : y.Finite) (h : x.toReal = y.toReal) (h0 : x.toReal ≠ 0) : x = y :=
  FP.ext_of_ne hx hy h h0

/-! ## Multiplying by and adding constants -/

theorem one_mul_val {x : Fl L} (hx : x.Finite) : (one *. x).Finite ∧ (one *. x).toReal = x.toReal := by
  have h := mul_val one_finite hx (by rw [one_toReal, one_mul]; exact noOvf_toReal x)
  rw [one_toReal, one_mul, rnd_of_isRep (isRep_toReal x)] at h
  exact h

theorem zero_mul_val {x : Fl L} (hx : x.Finite) : (zero *. x).Finite ∧ (zero *. x).toReal = 0 := by
  have h := mul_val zero_finite hx (by rw [zero_toReal, zero_mul]; exact noOvf_of_abs_le (y := (zero : Fl L)) (by simp))
  rw [zero_toReal, zero_mul, rnd_zero] at h
  exact h

theorem add_zero_val {x z : Fl L} (hx : x.Finite) (hz : z.Finite) (h0 : z.toReal = 0) :
    (x +. z).Finite ∧ (x +. z).toReal = x.toReal := by
  have h := add_val hx hz (by rw [h0, add_zero]; exact noOvf_toReal x)
  rw [h0, add_zero, rnd_of_isRep (isRep_toReal x)] at h
  exact h

theorem sub_zero_val {x z : Fl L} (hx : x.Finite) (hz : z.Finite) (h0 : z.toReal = 0) :
    (x -. z).Finite ∧ (x -. z).toReal = x.toReal := by
  have h := sub_val hx hz (by rw [h0, sub_zero]; exact noOvf_toReal x)
  rw [h0, sub_zero, rnd_of_isRep (isRep_toReal x)] at h
  exact h

theorem not_finite_cases {x : Fl L} (h : ¬ x.Finite) : x.IsNaN ∨ ∃ s, x = inf L s := by
  rcases cases x with ⟨s, hs⟩ | ⟨s, hs⟩ | hf
  · exact .inl (isNaN_iff.mpr ⟨s, hs⟩)
  · exact .inr ⟨s, hs⟩
  · exact absurd hf h

theorem IsNaN.not_finite {x : Fl L} (h : x.IsNaN) : ¬ x.Finite := fun hf => hf.not_isNaN h

theorem inf_not_finite (s : Bool) : ¬ (inf L s).Finite := id

theorem zero_mul_not_finite {x : Fl L} (h : ¬ x.Finite) : (zero *. x).IsNaN := by
  rcases not_finite_cases h with hn | ⟨s, rfl⟩
  · exact mul_nan_right hn
  · obtain ⟨s0, a, ha, h0⟩ := FP.finite_cases (f := f) (zero_finite (L := L))
    have hz : a = 0 := by
      have := zero_toReal (L := L)
      have e : FP.toReal (f := f) (zero : Fl L) = 0 := this
      rw [h0] at e
      cases s0 <;> simpa [FP.toReal] using e
    show FP.IsNaN (FP.mul (f := f) (zero : Fl L) (FP.inf s))
    rw [h0]
    simp [FP.mul, hz, FP.IsNaN]

theorem one_mul_not_finite {x : Fl L} (h : ¬ x.Finite) : ¬ (one *. x).Finite := by
  rcases not_finite_cases h with hn | ⟨s, rfl⟩
  · exact (mul_nan_right hn).not_finite
  · obtain ⟨s0, a, ha, h0⟩ := FP.finite_cases (f := f) (one_finite (L := L))
    have hz : a ≠ 0 := by
      have := one_toReal (L := L)
      have e : FP.toReal (f := f) (one : Fl L) = 1 := this
      rw [h0] at e
      rintro rfl
      cases s0 <;> simp [FP.toReal] at e
    show ¬ FP.Finite (FP.mul (f := f) (one : Fl L) (FP.inf s))
    rw [h0]
    simp [FP.mul, hz, FP.Finite]

theorem add_not_finite_left {x y : Fl L} (h : ¬ x.Finite) : ¬ (x +. y).Finite := by
  rcases not_finite_cases h with hn | ⟨s, rfl⟩
  · exact (add_nan_left hn).not_finite
  · show ¬ FP.Finite (FP.add (f := f) (FP.inf s) y)
    cases y with
    | nan t => exact id
    | inf t => cases s <;> cases t <;> exact id
    | fin t a ha => exact id

theorem sub_not_finite_left {x y : Fl L} (h : ¬ x.Finite) : ¬ (x -. y).Finite :=
  add_not_finite_left (y := FloatOps.neg y) h

/-! ## Building numbers, square roots, overflow -/

/-- The number with a given representable value below the limit. -/
theorem exists_of_isRep (L : Libm f) {v : ℝ} (hv : IsRep f v) (hl : |v| < f.lim) : ∃ x : Fl L, x.Finite ∧ x.toReal = v :=
  ⟨FP.ofReal f false v, FP.ofReal_exact hv hl⟩

theorem sqrt_val {x : Fl L} (hx : x.Finite) (h : 0 ≤ x.toReal) :
    (FloatOps.sqrt x).Finite ∧ (FloatOps.sqrt x).toReal = rnd f (Real.sqrt x.toReal) := FP.sqrt_fin hx h

theorem mul_not_finite_right {x y : Fl L} (h : ¬ y.Finite) : ¬ (x *. y).Finite := by
  rcases not_finite_cases h with hn | ⟨s, rfl⟩
  · exact (mul_nan_right hn).not_finite
  · show ¬ FP.Finite (FP.mul (f := f) x (FP.inf s))
    cases x with
    | nan => exact id
    | inf => exact id
    | fin t a ha =>
      simp only [FP.mul]
      split <;> exact id

theorem add_not_finite_right {x y : Fl L} (h : ¬ y.Finite) : ¬ (x +. y).Finite := by
  rcases not_finite_cases h with hn | ⟨s, rfl⟩
  · exact (add_nan_right hn).not_finite
  · show ¬ FP.Finite (FP.add (f := f) x (FP.inf s))
    cases x with
    | nan => exact id
    | inf t => simp only [FP.add]; split <;> exact id
    | fin t a ha => exact id

theorem sub_ovf {x y : Fl L} (hx : x.Finite) (hy : y.Finite) (h : ¬ FP.NoOvf f (x.toReal - y.toReal)) :
    ¬ (x -. y).Finite := by
  show ¬ FP.Finite (FP.sub (f := f) x y)
  rw [FP.sub_fin hx hy]
  change ¬ FP.NoOvf f (FP.toReal (f := f) x - FP.toReal (f := f) y) at h
  rw [FP.ofReal_of_ovf h]
  exact id

theorem mul_ovf {x y : Fl L} (hx : x.Finite) (hy : y.Finite) (h : ¬ FP.NoOvf f (x.toReal * y.toReal)) :
    (x *. y) = inf L (decide (x.toReal * y.toReal < 0)) := by
  show FP.mul (f := f) x y = FP.inf _
  rw [FP.mul_fin hx hy]
  exact FP.ofReal_of_ovf h

/-- `2^emax`, the largest power of two. -/
theorem exists_big (L : Libm f) : ∃ x : Fl L, x.Finite ∧ x.toReal = (2 : ℝ) ^ f.emax ∧
    ¬ FP.NoOvf f (x.toReal + x.toReal) := by
  have h1 := f.hp; have h2 := f.hemin; have h3 := f.hemax
  have hlt : (2 : ℝ) ^ f.emax < f.lim := zpow_lt_zpow_right₀ (by norm_num) (by omega)
  obtain ⟨x, hx, hv⟩ := exists_of_isRep L (v := (2 : ℝ) ^ f.emax) (isRep_two_zpow (by omega)) (by
    rw [abs_of_pos (two_zpow_pos _)]; exact hlt)
  refine ⟨x, hx, hv, ?_⟩
  have h4 : x.toReal + x.toReal = (2 : ℝ) ^ (f.emax + 1) := by
    rw [hv, zpow_add₀ (by norm_num)]; ring
  rw [h4, FP.NoOvf, rnd_of_isRep (isRep_two_zpow (by omega)), abs_of_pos (two_zpow_pos _)]
  exact lt_irrefl _

end Fl
end Rasp
