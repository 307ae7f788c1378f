import Verif.Float.IEEE

/-! # IEEE operations on finite numbers, through their real values -/

namespace Rasp
namespace FP
variable {f g : Fmt}

theorem lim_pos (f : Fmt) : 0 < f.lim := two_zpow_pos _

@[simp] theorem toReal_fin (s : Bool) (a : ℝ) (h) : toReal (fin s a h : FP f) = if s then -a else a := rfl
@[simp] theorem toReal_nan (s : Bool) : toReal (nan s : FP f) = 0 := rfl
@[simp] theorem toReal_inf (s : Bool) : toReal (inf s : FP f) = 0 := rfl
@[simp] theorem finite_fin (s : Bool) (a : ℝ) (h) : Finite (fin s a h : FP f) := trivial
@[simp] theorem not_finite_nan (s : Bool) : ¬ Finite (nan s : FP f) := id
@[simp] theorem not_finite_inf (s : Bool) : ¬ Finite (inf s : FP f) := id

theorem abs_toReal_fin (s : Bool) (a : ℝ) (h) : |toReal (fin s a h : FP f)| = a := by
  cases s <;> simp [abs_of_nonneg h.1]

theorem isRep_toReal (x : FP f) : IsRep f x.toReal := by
  cases x with
  | nan => exact isRep_zero f
  | inf => exact isRep_zero f
  | fin s a h =>
    cases s
    · exact h.2.1
    · exact h.2.1.neg

theorem abs_toReal_lt (x : FP f) : |x.toReal| < f.lim := by
  cases x with
  | nan => simpa using lim_pos f
  | inf => simpa using lim_pos f
  | fin s a h => rw [abs_toReal_fin]; exact h.2.2

/-- A finite number is determined by its value and its sign bit. -/
theorem ext_of_finite {x y : FP f} (hx : x.Finite) (hy : y.Finite) (h : x.toReal = y.toReal)
    (hs : x.signBit = y.signBit) : x = y := by
  cases x with
  | nan => exact hx.elim
  | inf => exact hx.elim
  | fin s a ha =>
    cases y with
    | nan => exact hy.elim
    | inf => exact hy.elim
    | fin t b hb =>
      have hst : s = t := hs
      subst hst
      have : a = b := by cases s <;> simpa using h
      subst this
      rfl

/-- A finite non-zero number is determined by its value. -/
theorem ext_of_ne {x y : FP f} (hx : x.Finite) (hy : y.Finite) (h : x.toReal = y.toReal) (h0 : x.toReal ≠ 0) :
    x = y := by
  apply ext_of_finite hx hy h
  cases x with
  | nan => exact hx.elim
  | inf => exact hx.elim
  | fin s a ha =>
    cases y with
    | nan => exact hy.elim
    | inf => exact hy.elim
    | fin t b hb =>
      have ha0 := ha.1
      have hb0 := hb.1
      show s = t
      cases s <;> cases t <;> simp at h h0 ⊢ <;> exact h0 (by linarith)

/-! ## Rounding -/

/-- A real that rounds to something below the overflow threshold. -/
def NoOvf (f : Fmt) (x : ℝ) : Prop := |rnd f x| < f.lim

theorem noOvf_of_le {x z : ℝ} (hz : IsRep f z) (hl : z < f.lim) (h : |x| ≤ z) : NoOvf f x :=
  (abs_rnd_le_of_le hz h).trans_lt hl

theorem noOvf_of_abs_le {x : ℝ} {y : FP f} (h : |x| ≤ |y.toReal|) : NoOvf f x :=
  noOvf_of_le (isRep_toReal y).abs (abs_toReal_lt y) h

theorem noOvf_toReal (y : FP f) : NoOvf f y.toReal := noOvf_of_abs_le le_rfl

theorem noOvf_nat {n : ℕ} (hn : (n : ℝ) ≤ 2 ^ f.emax) : NoOvf f n := by
  refine noOvf_of_le (f := f) (z := 2 ^ f.emax) (isRep_two_zpow ?_) ?_ ?_
  · have := f.hemin; have := f.hemax; omega
  · unfold Fmt.lim
    exact zpow_lt_zpow_right₀ (by norm_num) (by omega)
  · rwa [abs_of_nonneg (by positivity)]

theorem ofReal_of_noOvf {s : Bool} {x : ℝ} (h : NoOvf f x) :
    (ofReal f s x).Finite ∧ (ofReal f s x).toReal = rnd f x := by
  unfold ofReal
  rw [dif_pos (show |rnd f x| < f.lim from h)]
  refine ⟨trivial, ?_⟩
  by_cases h0 : x = 0
  · subst h0; simp
  · simp only [h0, if_false, toReal_fin, decide_eq_true_eq]
    split
    · next hx => rw [abs_of_nonpos (rnd_nonpos hx.le)]; ring
    · next hx => rw [abs_of_nonneg (rnd_nonneg (not_lt.mp hx))]

theorem ofReal_of_ovf {s : Bool} {x : ℝ} (h : ¬ NoOvf f x) : ofReal f s x = inf (decide (x < 0)) := by
  unfold ofReal
  rw [dif_neg (show ¬ |rnd f x| < f.lim from h)]

theorem ofReal_not_nan (s : Bool) (x : ℝ) : ¬ (ofReal f s x).IsNaN := by
  unfold ofReal
  split <;> simp [IsNaN]

/-- Representable results are exact. -/
theorem ofReal_exact {s : Bool} {x : ℝ} (hx : IsRep f x) (hl : |x| < f.lim) :
    (ofReal f s x).Finite ∧ (ofReal f s x).toReal = x := by
  have h : NoOvf f x := by unfold NoOvf; rwa [rnd_of_isRep hx]
  have := ofReal_of_noOvf (s := s) h
  rwa [rnd_of_isRep hx] at this

theorem signBit_ofReal_zero (s : Bool) : (ofReal f s 0).signBit = s := by
  unfold ofReal
  rw [dif_pos (by simpa using lim_pos f)]
  simp [signBit]

theorem signBit_ofReal_pos {s : Bool} {x : ℝ} (h : 0 < x) : (ofReal f s x).signBit = false := by
  unfold ofReal
  split <;> simp [signBit, h.ne', h.le]

theorem signBit_ofReal_neg {s : Bool} {x : ℝ} (h : x < 0) : (ofReal f s x).signBit = true := by
  unfold ofReal
  split <;> simp [signBit, h.ne, h]

/-! ## Operations on finite numbers -/

theorem finite_cases {x : FP f} (h : x.Finite) : ∃ s a ha, x = fin s a ha := by
  cases x with
  | nan => exact h.elim
  | inf => exact h.elim
  | fin s a ha => exact ⟨s, a, ha, rfl⟩

theorem add_fin {x y : FP f} (hx : x.Finite) (hy : y.Finite) :
    add x y = ofReal f (x.signBit && y.signBit) (x.toReal + y.toReal) := by
  obtain ⟨s, a, ha, rfl⟩ := finite_cases hx
  obtain ⟨t, b, hb, rfl⟩ := finite_cases hy
  rfl

@[simp] theorem toReal_neg (x : FP f) : (neg x).toReal = -x.toReal := by
  cases x with
  | nan => simp [neg]
  | inf => simp [neg]
  | fin s a h => cases s <;> simp [neg]

@[simp] theorem finite_neg {x : FP f} : (neg x).Finite ↔ x.Finite := by cases x <;> exact Iff.rfl

@[simp] theorem signBit_neg (x : FP f) : (neg x).signBit = !x.signBit := by cases x <;> rfl

theorem sub_fin {x y : FP f} (hx : x.Finite) (hy : y.Finite) :
    sub x y = ofReal f (x.signBit && !y.signBit) (x.toReal - y.toReal) := by
  unfold sub
  rw [add_fin hx (finite_neg.mpr hy), toReal_neg, signBit_neg, ← sub_eq_add_neg]

theorem mul_fin {x y : FP f} (hx : x.Finite) (hy : y.Finite) :
    mul x y = ofReal f (x.signBit != y.signBit) (x.toReal * y.toReal) := by
  obtain ⟨s, a, ha, rfl⟩ := finite_cases hx
  obtain ⟨t, b, hb, rfl⟩ := finite_cases hy
  rfl

theorem add_val {x y : FP f} (hx : x.Finite) (hy : y.Finite) (h : NoOvf f (x.toReal + y.toReal)) :
    (add x y).Finite ∧ (add x y).toReal = rnd f (x.toReal + y.toReal) := by
  rw [add_fin hx hy]; exact ofReal_of_noOvf h

theorem sub_val {x y : FP f} (hx : x.Finite) (hy : y.Finite) (h : NoOvf f (x.toReal - y.toReal)) :
    (sub x y).Finite ∧ (sub x y).toReal = rnd f (x.toReal - y.toReal) := by
  rw [sub_fin hx hy]; exact ofReal_of_noOvf h

theorem mul_val {x y : FP f} (hx : x.Finite) (hy : y.Finite) (h : NoOvf f (x.toReal * y.toReal)) :
    (mul x y).Finite ∧ (mul x y).toReal = rnd f (x.toReal * y.toReal) := by
  rw [mul_fin hx hy]; exact ofReal_of_noOvf h

theorem div_fin {x y : FP f} (hx : x.Finite) (hy : y.Finite) (h0 : y.toReal ≠ 0) :
    div x y = ofReal f (x.signBit != y.signBit) (x.toReal / y.toReal) := by
  obtain ⟨s, a, ha, rfl⟩ := finite_cases hx
  obtain ⟨t, b, hb, rfl⟩ := finite_cases hy
  have : b ≠ 0 := by rintro rfl; apply h0; cases t <;> simp
  simp only [div, this, if_false]
  rfl

theorem div_val {x y : FP f} (hx : x.Finite) (hy : y.Finite) (h0 : y.toReal ≠ 0)
    (h : NoOvf f (x.toReal / y.toReal)) :
    (div x y).Finite ∧ (div x y).toReal = rnd f (x.toReal / y.toReal) := by
  rw [div_fin hx hy h0]; exact ofReal_of_noOvf h

@[simp] theorem toReal_abs (x : FP f) : (abs x).toReal = |x.toReal| := by
  cases x with
  | nan => simp [abs]
  | inf => simp [abs]
  | fin s a h => cases s <;> simp [abs, abs_of_nonneg h.1]

@[simp] theorem finite_abs {x : FP f} : (abs x).Finite ↔ x.Finite := by cases x <;> exact Iff.rfl

theorem lt_fin {x y : FP f} (hx : x.Finite) (hy : y.Finite) : lt x y = true ↔ x.toReal < y.toReal := by
  obtain ⟨s, a, ha, rfl⟩ := finite_cases hx
  obtain ⟨t, b, hb, rfl⟩ := finite_cases hy
  exact decide_eq_true_iff

theorem le_fin {x y : FP f} (hx : x.Finite) (hy : y.Finite) : le x y = true ↔ x.toReal ≤ y.toReal := by
  obtain ⟨s, a, ha, rfl⟩ := finite_cases hx
  obtain ⟨t, b, hb, rfl⟩ := finite_cases hy
  exact decide_eq_true_iff

theorem lt_nan_left (s : Bool) (y : FP f) : lt (nan s) y = false := by cases y <;> rfl
theorem lt_nan_right (x : FP f) (s : Bool) : lt x (nan s) = false := by cases x <;> rfl
theorem le_nan_left (s : Bool) (y : FP f) : le (nan s) y = false := by cases y <;> rfl
theorem le_nan_right (x : FP f) (s : Bool) : le x (nan s) = false := by cases x <;> rfl

theorem eq_fin {x y : FP f} (hx : x.Finite) (hy : y.Finite) : eq x y = true ↔ x.toReal = y.toReal := by
  unfold eq
  rw [Bool.and_eq_true, le_fin hx hy, le_fin hy hx]
  exact ⟨fun h => le_antisymm h.1 h.2, fun h => ⟨h.le, h.ge⟩⟩

theorem isFinite_iff {x : FP f} : x.isFinite = true ↔ x.Finite := by cases x <;> simp [isFinite]

theorem sqrt_fin {x : FP f} (hx : x.Finite) (h : 0 ≤ x.toReal) :
    (sqrt x).Finite ∧ (sqrt x).toReal = rnd f (Real.sqrt x.toReal) := by
  obtain ⟨s, a, ha, rfl⟩ := finite_cases hx
  simp only [sqrt]
  by_cases h0 : a = 0
  · subst h0
    simp only [if_true]
    have := ofReal_exact (f := f) (s := s) (isRep_zero f) (by simpa using lim_pos f)
    refine ⟨this.1, ?_⟩
    rw [this.2]
    cases s <;> simp
  · rw [if_neg h0]
    have hs : s = false := by
      cases s
      · rfl
      · have := ha.1
        simp at h
        exact absurd (le_antisymm h this) h0
    subst hs
    simp only [Bool.false_eq_true, if_false]
    apply ofReal_of_noOvf
    rcases le_total a 1 with h1 | h1
    · apply noOvf_of_le (f := f) (isRep_one f)
      · unfold Fmt.lim
        have hh : (1 : ℝ) = 2 ^ (0 : ℤ) := by norm_num
        rw [hh]
        apply zpow_lt_zpow_right₀ (by norm_num)
        have := f.hemax; have := f.hp; omega
      · rw [abs_of_nonneg (Real.sqrt_nonneg _)]
        exact Real.sqrt_le_one.mpr h1
    · apply noOvf_of_le ha.2.1 ha.2.2
      rw [abs_of_nonneg (Real.sqrt_nonneg _), Real.sqrt_le_left ha.1]
      nlinarith

/-! ## Constants -/

theorem one_lt_lim (f : Fmt) : 1 < f.lim := by
  unfold Fmt.lim
  have hh : (1 : ℝ) = 2 ^ (0 : ℤ) := by norm_num
  rw [hh]
  apply zpow_lt_zpow_right₀ (by norm_num)
  have := f.hemax; have := f.hp; omega

theorem ofReal_zero (s : Bool) : (ofReal f s 0).Finite ∧ (ofReal f s 0).toReal = 0 :=
  ofReal_exact (isRep_zero f) (by simpa using lim_pos f)

theorem ofReal_one (s : Bool) : (ofReal f s 1).Finite ∧ (ofReal f s 1).toReal = 1 :=
  ofReal_exact (isRep_one f) (by simpa using one_lt_lim f)

end FP
end Rasp
