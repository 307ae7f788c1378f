import Verif.Lemmas.Smooth
import Verif.Lemmas.Fl

/-! # The smoothing step `x + α (y - x)` on IEEE numbers -/

namespace Rasp
open FloatOps
namespace Fl
variable {f : Fmt} {L : Libm f}

theorem noOvf_of_mem {u : ℝ} {x y : Fl L} (h1 : min x.toReal y.toReal ≤ u) (h2 : u ≤ max x.toReal y.toReal) :
    FP.NoOvf f u := by
  by_cases h : |x.toReal| ≤ |y.toReal|
  · apply noOvf_of_abs_le (y := y)
    rw [abs_le]
    have h3 := abs_le.mp h
    have h4 := neg_abs_le y.toReal
    have h5 := le_abs_self y.toReal
    constructor
    · refine le_trans (le_min h3.1 h4) h1
    · exact le_trans h2 (max_le h3.2 h5)
  · push Not at h
    apply noOvf_of_abs_le (y := x)
    rw [abs_le]
    have h3 := abs_le.mp h.le
    have h4 := neg_abs_le x.toReal
    have h5 := le_abs_self x.toReal
    constructor
    · refine le_trans (le_min h4 h3.1) h1
    · exact le_trans h2 (max_le h5 h3.2)

/-- The smoothing step with a factor below one stays between its arguments. -/
theorem smooth_between {α x y : Fl L} (hα : α.Finite) (h0 : 0 ≤ α.toReal) (h1 : α.toReal < 1) (hx : x.Finite)
    (hy : y.Finite) (hov : FP.NoOvf f (y.toReal - x.toReal)) :
    (x +. α *. (y -. x)).Finite ∧ min x.toReal y.toReal ≤ (x +. α *. (y -. x)).toReal ∧
      (x +. α *. (y -. x)).toReal ≤ max x.toReal y.toReal := by
  obtain ⟨hd, hd'⟩ := sub_val hy hx hov
  obtain ⟨hm, hm'⟩ := mul_val hα hd (noOvf_of_abs_le (y := y -. x) (by
    rw [abs_mul, abs_of_nonneg h0]
    have := abs_nonneg (y -. x).toReal
    nlinarith))
  rw [hd'] at hm'
  obtain ⟨b1, b2, b3, b4⟩ := rnd_smooth_between (isRep_toReal α) h0 h1 (isRep_toReal x) (isRep_toReal y)
  rw [← hm'] at b1 b2 b3 b4
  obtain ⟨hs, hs'⟩ := add_val hx hm (noOvf_of_mem b3 b4)
  rw [hs']
  exact ⟨hs, b1, b2⟩

/-- The smoothing step with a factor in `[0, 1]` stays in `[0, B]` for a bound with an even significand. -/
theorem follow_mem {B : ℝ} (hB : EvenSig f B) (hl : B < f.lim) {α i e : Fl L} (hα : α.Finite) (a0 : 0 ≤ α.toReal)
    (a1 : α.toReal ≤ 1) (hi : i.Finite) (i0 : 0 ≤ i.toReal) (i1 : i.toReal ≤ B) (he : e.Finite) (e0 : 0 ≤ e.toReal)
    (e1 : e.toReal ≤ B) :
    (i +. α *. (e -. i)).Finite ∧ 0 ≤ (i +. α *. (e -. i)).toReal ∧ (i +. α *. (e -. i)).toReal ≤ B := by
  obtain ⟨hd, hd'⟩ := sub_val he hi (FP.noOvf_of_le hB.isRep hl (by rw [abs_le]; constructor <;> linarith))
  obtain ⟨hm, hm'⟩ := mul_val hα hd (noOvf_of_abs_le (y := e -. i) (by
    rw [abs_mul, abs_of_nonneg a0]
    have := abs_nonneg (e -. i).toReal
    nlinarith))
  rw [hd'] at hm'
  obtain ⟨b1, b2⟩ := hB.rnd_follow (isRep_toReal i) i0 i1 e0 e1 a0 a1
  rw [← hm'] at b1 b2
  obtain ⟨hs, hs'⟩ := add_val hi hm (by
    show |rnd f _| < f.lim
    rw [abs_of_nonneg (rnd_nonneg b1)]
    exact b2.trans_lt hl)
  rw [hs']
  exact ⟨hs, rnd_nonneg b1, b2⟩

theorem abs_sign (x : Fl L) : isSignNegative (FloatOps.abs x) = false := by
  show FP.signBit (FP.abs (f := f) x) = false
  cases x <;> rfl

theorem toReal_nonneg_of_sign {x : Fl L} (hx : x.Finite) (h : isSignNegative x = false) : 0 ≤ x.toReal := by
  obtain ⟨s, a, ha, rfl⟩ := FP.finite_cases hx
  have : s = false := h
  subst this
  show 0 ≤ FP.toReal _
  simpa using ha.1

theorem add_zero_sign {i z : Fl L} (hi : i.Finite) (si : isSignNegative i = false) (hz : z.Finite) (h0 : z.toReal = 0) :
    isSignNegative (i +. z) = false := by
  show FP.signBit (FP.add (f := f) i z) = false
  have si' : FP.signBit (f := f) i = false := si
  have hv : FP.toReal (f := f) i + FP.toReal (f := f) z = i.toReal := by
    rw [show FP.toReal (f := f) z = 0 from h0, add_zero]; rfl
  rw [FP.add_fin hi hz, si', Bool.false_and, hv]
  rcases (toReal_nonneg_of_sign hi si).lt_or_eq with h | h
  · exact FP.signBit_ofReal_pos h
  · rw [← h]; exact FP.signBit_ofReal_zero false

/-- With factor zero the step returns its first argument bit for bit (for non-negative signs). -/
theorem zero_smooth {i e : Fl L} (hi : i.Finite) (si : isSignNegative i = false) (he : e.Finite)
    (se : isSignNegative e = false) : i +. zero *. (e -. i) = i := by
  have i0 := toReal_nonneg_of_sign hi si
  have e0 := toReal_nonneg_of_sign he se
  obtain ⟨hd, -⟩ := sub_val he hi (by
    rcases le_total e.toReal i.toReal with h | h
    · exact noOvf_of_abs_le (y := i) (by rw [abs_le, abs_of_nonneg i0]; constructor <;> linarith)
    · exact noOvf_of_abs_le (y := e) (by rw [abs_le, abs_of_nonneg e0]; constructor <;> linarith))
  obtain ⟨hm, hm'⟩ := zero_mul_val hd
  obtain ⟨hs, hs'⟩ := add_zero_val hi hm hm'
  apply ext_of_finite hs hi hs'
  rw [si]
  exact add_zero_sign hi si hm hm'

/-! ## Non-finite values in the step -/

/-- A NaN sample makes the step NaN. -/
theorem smooth_nan_left {α i e : Fl L} (h : i.IsNaN) : (i +. α *. (e -. i)).IsNaN := add_nan_left h

/-- A NaN state makes the step NaN. -/
theorem smooth_nan_right {α i e : Fl L} (h : e.IsNaN) : (i +. α *. (e -. i)).IsNaN :=
  add_nan_right (mul_nan_right (sub_nan_left h))

/-- A non-finite state gives a non-finite result. -/
theorem smooth_not_finite_right {α i e : Fl L} (h : ¬ e.Finite) : ¬ (i +. α *. (e -. i)).Finite :=
  add_not_finite_right (mul_not_finite_right (sub_not_finite_left h))

/-- An infinite sample makes the step NaN, whatever the state, for non-negative factors. -/
theorem smooth_inf_left {α e : Fl L} (h0 : 0 ≤ α.toReal) (hα : α.Finite) (s : Bool) :
    (inf L s +. α *. (e -. inf L s)).IsNaN := by
  obtain ⟨t, a, ha, rfl⟩ := FP.finite_cases hα
  show FP.IsNaN (FP.add (f := f) (FP.inf s) (FP.mul (FP.fin t a ha) (FP.add e (FP.inf (!s)))))
  have key : ∀ d : FP f, (d.IsNaN ∨ d = FP.inf (!s)) → FP.IsNaN (FP.add (f := f) (FP.inf s) (FP.mul (FP.fin t a ha) d)) := by
    rintro d (hd | rfl)
    · cases d with
      | nan => trivial
      | inf => exact hd.elim
      | fin => exact hd.elim
    · simp only [FP.mul]
      split
      · trivial
      · rename_i hne
        have ht : t = false := by
          by_contra hc
          have : t = true := by simpa using hc
          subst this
          change 0 ≤ FP.toReal _ at h0
          rw [FP.toReal_fin, if_pos rfl] at h0
          exact hne (le_antisymm (by linarith) ha.1)
        subst ht
        simp only [FP.add]
        rw [if_neg (by cases s <;> simp)]
        trivial
  apply key
  cases e with
  | nan => exact .inl trivial
  | inf t =>
    simp only [FP.add]
    split
    · rename_i h; exact .inr (by rw [h])
    · exact .inl trivial
  | fin => exact .inr rfl

/-- A non-finite sample makes the step NaN. -/
theorem smooth_not_finite_left {α i e : Fl L} (h0 : 0 ≤ α.toReal) (hα : α.Finite) (hi : ¬ i.Finite) :
    (i +. α *. (e -. i)).IsNaN := by
  rcases not_finite_cases hi with hn | ⟨s, rfl⟩
  · exact smooth_nan_left hn
  · exact smooth_inf_left h0 hα s

end Fl
end Rasp
