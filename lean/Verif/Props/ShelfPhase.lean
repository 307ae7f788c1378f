import Verif.Spec.ShelfPhase
import Verif.Props.Phase

/-!
# C151: phases of the shelves
-/

namespace Rasp
open Real (cos sin pi)

/-- What the numerator of a LowShelf makes with the conjugate of its denominator, up to a positive factor: with `A` the square root
of the gain of the shelf, `c` the cosine of the corner and `p` the damping term. -/
noncomputable def shelfTurn (A c p w : ℝ) : ℂ :=
  ⟨(A + 1) ^ 2 * (cos w - c) ^ 2 - (A - 1) ^ 2 * (1 - c * cos w) ^ 2 + (p * sin w) ^ 2, -(2 * (p * sin w) * (A - 1) * (1 - c * cos w))⟩

/-- Half the numerator of a HighShelf and half the denominator of a LowShelf for `e = 1`, the other two for `e = -1`. -/
noncomputable def shelfPart (A c p e w : ℝ) : ℂ := ⟨(A + 1) * (cos w - c) - e * ((A - 1) * (1 - c * cos w)), p * sin w⟩

section geometry
variable {A c p w w0 κ : ℝ}

theorem shelfTurn_eq : shelfTurn A c p w = shelfPart A c p (-1) w * (starRingEnd ℂ) (shelfPart A c p 1 w) := by
  apply Complex.ext <;> simp only [shelfTurn, shelfPart, Complex.mul_re, Complex.mul_im, Complex.conj_re, Complex.conj_im] <;> ring

theorem chord_identity (c w : ℝ) : (1 - c * cos w) ^ 2 = (cos w - c) ^ 2 + (1 - c ^ 2) * sin w ^ 2 := by
  rw [Real.sin_sq]; ring

theorem chord_pos (hc : |c| < 1) (w : ℝ) : 0 < 1 - c * cos w := by
  have h1 : |c * cos w| ≤ |c| * 1 := by
    rw [abs_mul]
    exact mul_le_mul_of_nonneg_left (Real.abs_cos_le_one w) (abs_nonneg c)
  have := le_abs_self (c * cos w)
  linarith

theorem shelfTurn_slit (hA : 0 < A) (hc : |c| < 1) (hp : 0 < p) : shelfTurn A c p w ∈ Complex.slitPlane := by
  rw [Complex.mem_slitPlane_iff]
  have hY := chord_pos hc w
  have hid := chord_identity c w
  simp only [shelfTurn]
  rcases eq_or_ne (sin w) 0 with hs | hs
  · left
    rw [hs] at hid ⊢
    have hX : 0 < (cos w - c) ^ 2 := by nlinarith [mul_pos hY hY]
    have e : (A + 1) ^ 2 * (cos w - c) ^ 2 - (A - 1) ^ 2 * (1 - c * cos w) ^ 2 + (p * 0) ^ 2 = 4 * A * (cos w - c) ^ 2 := by
      rw [hid]; ring
    rw [e]
    positivity
  · rcases eq_or_ne A 1 with rfl | h1
    · left
      have : 0 < (p * sin w) ^ 2 := by positivity
      nlinarith [sq_nonneg (cos w - c)]
    · right
      exact neg_ne_zero.2 (mul_ne_zero (mul_ne_zero (mul_ne_zero two_ne_zero (mul_ne_zero hp.ne' hs)) (sub_ne_zero.2 h1)) hY.ne')

theorem shelfTurn_continuous : Continuous (shelfTurn A c p) := by
  have e : shelfTurn A c p = fun w => (((A + 1) ^ 2 * (cos w - c) ^ 2 - (A - 1) ^ 2 * (1 - c * cos w) ^ 2 + (p * sin w) ^ 2 : ℝ) : ℂ) +
      ((-(2 * (p * sin w) * (A - 1) * (1 - c * cos w)) : ℝ) : ℂ) * Complex.I := funext fun w => Complex.mk_eq_add_mul_I _ _
  rw [e]
  fun_prop

theorem shelfTurn_arg_continuous (hA : 0 < A) (hc : |c| < 1) (hp : 0 < p) : Continuous fun w => (shelfTurn A c p w).arg :=
  continuous_iff_continuousAt.2 fun _ =>
    (Complex.continuousAt_arg (shelfTurn_slit hA hc hp)).comp (f := shelfTurn A c p) shelfTurn_continuous.continuousAt

theorem shelfTurn_arg_abs (hA : 0 < A) (hc : |c| < 1) (hp : 0 < p) : |(shelfTurn A c p w).arg| < pi := by
  have h := (Complex.mem_slitPlane_iff_arg.1 (shelfTurn_slit (w := w) hA hc hp)).1
  exact abs_lt.2 ⟨Complex.neg_pi_lt_arg _, lt_of_le_of_ne (Complex.arg_le_pi _) h⟩

theorem shelfTurn_arg_end (hA : 0 < A) (hc : |c| < 1) (hp : 0 < p) (hs : sin w = 0) : (shelfTurn A c p w).arg = 0 := by
  have h := shelfTurn_slit (w := w) hA hc hp
  have him : (shelfTurn A c p w).im = 0 := by simp only [shelfTurn, hs]; ring
  rw [Complex.mem_slitPlane_iff] at h
  exact Complex.arg_eq_zero_iff.2 ⟨(h.resolve_right (fun h => h him)).le, him⟩

theorem shelfTurn_arg_neg (hc : |c| < 1) (hp : 0 < p) (hs : 0 < sin w) (h1 : 1 < A) : (shelfTurn A c p w).arg < 0 := by
  rw [Complex.arg_neg_iff]
  have hY := chord_pos hc w
  have : 0 < A - 1 := by linarith
  show -(2 * (p * sin w) * (A - 1) * (1 - c * cos w)) < 0
  have : 0 < 2 * (p * sin w) * (A - 1) * (1 - c * cos w) := by positivity
  linarith

theorem shelfTurn_arg_pos (hc : |c| < 1) (hp : 0 < p) (hs : 0 < sin w) (h1 : A < 1) : 0 < (shelfTurn A c p w).arg := by
  have hY := chord_pos hc w
  have h2 : 0 < 1 - A := by linarith
  have him : 0 < (shelfTurn A c p w).im := by
    show 0 < -(2 * (p * sin w) * (A - 1) * (1 - c * cos w))
    have : 0 < 2 * (p * sin w) * (1 - A) * (1 - c * cos w) := by positivity
    linarith
  refine lt_of_le_of_ne (Complex.arg_nonneg_iff.2 him.le) fun h => ?_
  exact him.ne' (Complex.arg_eq_zero_iff.1 h.symm).2

/-- The angle at the corner. -/
theorem shelfTurn_arg_corner (hs : 0 < sin w0) (hp : 0 < p) :
    (shelfTurn A (cos w0) p w0).arg = -(2 * Real.arctan ((A - 1) * sin w0 / p)) := by
  obtain ⟨t, ht⟩ : ∃ t, t = (A - 1) * sin w0 / p := ⟨_, rfl⟩
  rw [← ht]
  have hm : (A - 1) * sin w0 = t * p := by rw [ht]; field_simp
  set θ := Real.arctan t with hθ
  have hc0 := Real.cos_arctan_pos t
  have e : shelfTurn A (cos w0) p w0 =
      ((sin w0 ^ 2 * p ^ 2 / cos θ ^ 2 : ℝ) : ℂ) * (Complex.cos ((-(2 * θ) : ℝ) : ℂ) + Complex.sin ((-(2 * θ) : ℝ) : ℂ) * Complex.I) := by
    rw [← Complex.ofReal_cos, ← Complex.ofReal_sin, Real.cos_neg, Real.sin_neg, Real.cos_two_mul, Real.sin_two_mul]
    have hst : sin θ = t * cos θ := by
      have := Real.tan_arctan t
      rw [← hθ, Real.tan_eq_sin_div_cos] at this
      rw [← this]
      exact (div_mul_cancel₀ _ hc0.ne').symm
    have hct : cos θ ^ 2 * (1 + t ^ 2) = 1 := by
      have := Real.sin_sq_add_cos_sq θ
      rw [hst] at this
      linarith
    have hY : 1 - cos w0 * cos w0 = sin w0 ^ 2 := by rw [Real.sin_sq]; ring
    have hc0' : cos θ ≠ 0 := hc0.ne'
    apply Complex.ext
    · simp only [shelfTurn, Complex.mul_re, Complex.add_re, Complex.add_im, Complex.ofReal_re, Complex.ofReal_im, Complex.I_re, Complex.I_im, mul_zero, mul_one,
        Complex.mul_im, zero_mul, sub_zero, add_zero]
      rw [hY]
      have h1 : (A - 1) ^ 2 * (sin w0 ^ 2) ^ 2 = sin w0 ^ 2 * (t * p) ^ 2 := by rw [← hm]; ring
      rw [h1]
      field_simp
      linear_combination (-(sin w0 ^ 2 * p ^ 2)) * hct
    · simp only [shelfTurn, Complex.mul_re, Complex.add_re, Complex.add_im, Complex.ofReal_re, Complex.ofReal_im, Complex.I_re, Complex.I_im, mul_zero, mul_one,
        Complex.mul_im, zero_mul, sub_zero, add_zero]
      rw [hY, hst]
      have h1 : 2 * (p * sin w0) * (A - 1) * sin w0 ^ 2 = 2 * p * sin w0 ^ 2 * (t * p) := by rw [← hm]; ring
      rw [h1]
      field_simp
      ring
  have h1 := Real.neg_pi_div_two_lt_arctan t
  have h2 := Real.arctan_lt_pi_div_two t
  rw [e]
  exact Complex.arg_mul_cos_add_sin_mul_I (by positivity) ⟨by linarith, by linarith⟩

theorem shelfTurn_re (hκ : p ^ 2 = sin w0 ^ 2 * κ) :
    (shelfTurn A (cos w0) p w).re = 4 * A * (cos w - cos w0) ^ 2 + (κ - (A - 1) ^ 2) * (sin w0 ^ 2 * sin w ^ 2) := by
  simp only [shelfTurn]
  rw [chord_identity, mul_pow, hκ, ← Real.sin_sq]
  ring

/-- When the shift stays below a right angle. -/
theorem shelfTurn_right_angle (hA : 0 < A) (hs0 : 0 < sin w0) (hw0 : w0 ∈ Set.Icc 0 pi) (hc : |cos w0| < 1) (hp : 0 < p)
    (hκ : p ^ 2 = sin w0 ^ 2 * κ) :
    (∀ w ∈ Set.Icc 0 pi, |(shelfTurn A (cos w0) p w).arg| < pi / 2) ↔ (A - 1) ^ 2 < κ := by
  constructor
  · intro h
    have h1 := h w0 hw0
    rw [Complex.abs_arg_lt_pi_div_two_iff] at h1
    have h1 := h1.resolve_right (Complex.slitPlane_ne_zero (shelfTurn_slit hA hc hp))
    rw [shelfTurn_re hκ] at h1
    have : 0 < (κ - (A - 1) ^ 2) * (sin w0 ^ 2 * sin w0 ^ 2) := by linarith [h1]
    have := (pos_iff_pos_of_mul_pos this).2 (by positivity)
    linarith
  · intro h w _
    rw [Complex.abs_arg_lt_pi_div_two_iff]
    left
    rw [shelfTurn_re hκ]
    have h1 : 0 < κ - (A - 1) ^ 2 := by linarith
    rcases eq_or_ne (sin w) 0 with hs | hs
    · have : cos w - cos w0 ≠ 0 := by
        intro h0
        have e1 := Real.sin_sq_add_cos_sq w
        have e2 := Real.sin_sq_add_cos_sq w0
        have : cos w = cos w0 := by linarith
        rw [this, hs] at e1
        have : 0 < sin w0 ^ 2 := by positivity
        linarith
      have : 0 < (cos w - cos w0) ^ 2 := by positivity
      positivity
    · positivity

/-- The sign of the cross product orders angles of the same sign. -/
theorem arg_lt_of_cross {z z' : ℂ} (h : 0 < z.re * z'.im - z.im * z'.re)
    (hd : |z.arg - z'.arg| < pi) : z.arg < z'.arg := by
  by_contra hn
  rw [not_lt] at hn
  have h1 : 0 ≤ sin (z.arg - z'.arg) :=
    Real.sin_nonneg_of_nonneg_of_le_pi (by linarith) ((le_abs_self _).trans hd.le)
  rw [Real.sin_sub] at h1
  rw [← Complex.norm_mul_cos_arg z, ← Complex.norm_mul_sin_arg z, ← Complex.norm_mul_cos_arg z', ← Complex.norm_mul_sin_arg z'] at h
  have h2 := mul_nonneg (mul_nonneg (norm_nonneg z) (norm_nonneg z')) h1
  linarith

theorem shelfTurn_cross (hκ : p ^ 2 = sin w0 ^ 2 * κ) :
    (shelfTurn A (cos w0) p w0).re * (shelfTurn A (cos w0) p w).im - (shelfTurn A (cos w0) p w0).im * (shelfTurn A (cos w0) p w).re =
      2 * p * (A - 1) * sin w0 ^ 3 * ((1 - cos w0 * cos w - sin w0 * sin w) *
        (4 * A * (1 - cos w0 * cos w + sin w0 * sin w) - (κ - (A - 1) ^ 2) * (sin w0 * sin w))) := by
  rw [shelfTurn_re hκ, shelfTurn_re hκ]
  have h1 : (cos w - cos w0) ^ 2 = (1 - cos w0 * cos w) ^ 2 - sin w0 ^ 2 * sin w ^ 2 := by
    rw [chord_identity, ← Real.sin_sq]; ring
  have hY : 1 - cos w0 * cos w0 = sin w0 ^ 2 := by rw [Real.sin_sq]; ring
  rw [h1]
  simp only [shelfTurn]
  rw [hY]
  ring

/-- When the shift is largest at the corner. -/
theorem shelfTurn_extreme (hA : 0 < A) (hA1 : A ≠ 1) (hw0 : w0 ∈ Set.Ioo 0 pi) (hc : |cos w0| < 1) (hp : 0 < p)
    (hκ : p ^ 2 = sin w0 ^ 2 * κ) (hm : κ - (A - 1) ^ 2 ≤ 8 * A) {w : ℝ} (hw : w ∈ Set.Icc 0 pi) (hne : w ≠ w0) :
    |(shelfTurn A (cos w0) p w).arg| < |(shelfTurn A (cos w0) p w0).arg| := by
  have hs0 := Real.sin_pos_of_pos_of_lt_pi hw0.1 hw0.2
  have hs := Real.sin_nonneg_of_nonneg_of_le_pi hw.1 hw.2
  have ha := shelfTurn_arg_abs (A := A) (c := cos w0) (p := p) (w := w0) hA hc hp
  rcases hs.eq_or_lt with h0 | h0
  · rw [shelfTurn_arg_end hA hc hp h0.symm, abs_zero, abs_pos]
    rcases lt_or_gt_of_ne hA1 with h | h
    · exact (shelfTurn_arg_pos hc hp hs0 h).ne'
    · exact (shelfTurn_arg_neg hc hp hs0 h).ne
  have hd : 0 < 1 - cos w0 * cos w - sin w0 * sin w := by
    have e : 1 - cos w0 * cos w - sin w0 * sin w = 1 - cos (w0 - w) := by rw [Real.cos_sub]; ring
    rw [e]
    have hlt : cos (w0 - w) < 1 := by
      refine lt_of_le_of_ne (Real.cos_le_one _) fun h => hne ?_
      have := (Real.cos_eq_one_iff_of_lt_of_lt (by linarith [hw0.1, hw0.2, hw.1, hw.2]) (by linarith [hw0.1, hw0.2, hw.1, hw.2])).1 h
      linarith
    linarith
  have hq : 0 < sin w0 * sin w := mul_pos hs0 h0
  have hb : 0 < 4 * A * (1 - cos w0 * cos w + sin w0 * sin w) - (κ - (A - 1) ^ 2) * (sin w0 * sin w) := by
    have h1 := mul_le_mul_of_nonneg_right hm hq.le
    have h2 := mul_pos hA hd
    linarith
  have hx := shelfTurn_cross (A := A) (w := w) hκ
  have hprod := mul_pos hd hb
  generalize (1 - cos w0 * cos w - sin w0 * sin w) * (4 * A * (1 - cos w0 * cos w + sin w0 * sin w) - (κ - (A - 1) ^ 2) * (sin w0 * sin w)) = F at hx hprod
  have h4 : 0 < 2 * p * sin w0 ^ 3 * F := by positivity
  have ha' := shelfTurn_arg_abs (A := A) (c := cos w0) (p := p) (w := w) hA hc hp
  rcases lt_or_gt_of_ne hA1 with h | h
  · have p1 := shelfTurn_arg_pos (c := cos w0) hc hp h0 h
    have p2 := shelfTurn_arg_pos (c := cos w0) hc hp hs0 h
    rw [abs_of_pos p1] at ha' ⊢
    rw [abs_of_pos p2] at ha ⊢
    apply arg_lt_of_cross
    · have := mul_pos h4 (sub_pos.2 h)
      linarith
    · rw [abs_lt]
      constructor <;> linarith
  · have p1 := shelfTurn_arg_neg (c := cos w0) hc hp h0 h
    have p2 := shelfTurn_arg_neg (c := cos w0) hc hp hs0 h
    rw [abs_of_neg p1] at ha' ⊢
    rw [abs_of_neg p2] at ha ⊢
    apply neg_lt_neg
    apply arg_lt_of_cross
    · have := mul_pos h4 (sub_pos.2 h)
      linarith
    · rw [abs_lt]
      constructor <;> linarith

theorem shelfPart_ne (hA : 0 < A) (hc : |c| < 1) (hp : 0 < p) {e : ℝ} (he : e = 1 ∨ e = -1) : shelfPart A c p e w ≠ 0 := by
  have h := Complex.slitPlane_ne_zero (shelfTurn_slit (w := w) hA hc hp)
  rw [shelfTurn_eq] at h
  rcases he with rfl | rfl
  · intro h0
    exact h (by rw [h0, map_zero, mul_zero])
  · exact left_ne_zero_of_mul h

end geometry

/-- Gain and phase of a filter from its two polynomials on the unit circle. -/
theorem Implements.turn {σ : Type} [Processor σ ℝ] {s : σ} {b0 b1 b2 a0 a1 a2 : ℝ}
    (hi : Implements s (b0 / a0) (b1 / a0) (b2 / a0) (a1 / a0) (a2 / a0)) (h0 : a0 ≠ 0) (hs : StablePair (a1 / a0) (a2 / a0))
    {w A : ℝ} (hA : 0 < A) {N D : ℂ} (hD : D ≠ 0)
    (d1 : 2 * D.re = (a0 + a2) * cos w + a1) (d2 : 2 * D.im = (a0 - a2) * sin w)
    (n1 : 2 * (A * N.re) = (b0 + b2) * cos w + b1) (n2 : 2 * (A * N.im) = (b0 - b2) * sin w) :
    ShiftsBy s w (A * ‖N‖ / ‖D‖) (N * (starRingEnd ℂ) D).arg := by
  intro B φ
  set z := N * (starRingEnd ℂ) D with hz
  have hDn : 0 < ‖D‖ := norm_pos_iff.2 hD
  have hzn : ‖z‖ = ‖N‖ * ‖D‖ := by rw [hz, norm_mul, RCLike.norm_conj]
  have hsq : ‖D‖ ^ 2 = D.re ^ 2 + D.im ^ 2 := by
    rw [← Complex.normSq_eq_norm_sq, Complex.normSq_apply]; ring
  have hcos : A * ‖N‖ / ‖D‖ * cos z.arg = A * z.re / ‖D‖ ^ 2 := by
    rw [← Complex.norm_mul_cos_arg z, hzn]; field_simp
  have hsin : A * ‖N‖ / ‖D‖ * sin z.arg = A * z.im / ‖D‖ ^ 2 := by
    rw [← Complex.norm_mul_sin_arg z, hzn]; field_simp
  have hre : z.re = N.re * D.re + N.im * D.im := by
    rw [hz, Complex.mul_re, Complex.conj_re, Complex.conj_im]; ring
  have him : z.im = N.im * D.re - N.re * D.im := by
    rw [hz, Complex.mul_im, Complex.conj_re, Complex.conj_im]; ring
  have hpos : D.re ^ 2 + D.im ^ 2 ≠ 0 := by rw [← hsq]; positivity
  have g1 : A * ‖N‖ / ‖D‖ * cos z.arg * D.re - A * ‖N‖ / ‖D‖ * sin z.arg * D.im = A * N.re := by
    rw [hcos, hsin, hsq, hre, him]; field_simp; ring
  have g2 : A * ‖N‖ / ‖D‖ * sin z.arg * D.re + A * ‖N‖ / ‖D‖ * cos z.arg * D.im = A * N.im := by
    rw [hcos, hsin, hsq, hre, him]; field_simp; ring
  have e1 := Real.sin_sq_add_cos_sq w
  have := hi.sinusoid_div h0 hs (A * ‖N‖ / ‖D‖ * cos z.arg) (A * ‖N‖ / ‖D‖ * sin z.arg) (w := w) ?_ ?_ B φ
  · refine cast ?_ this
    congr 1
    funext n
    rw [Real.cos_add (w * n + φ)]
    ring
  all_goals
    generalize A * ‖N‖ / ‖D‖ * cos z.arg = P at *
    generalize A * ‖N‖ / ‖D‖ * sin z.arg = Q at *
    rw [Real.cos_two_mul, Real.sin_two_mul]
    clear_value z
    clear hcos hsin
  · have k1 : P * ((a0 + a2) * cos w + a1) - Q * ((a0 - a2) * sin w) = (b0 + b2) * cos w + b1 := by rw [← d1, ← d2, ← n1]; linarith
    have k2 : Q * ((a0 + a2) * cos w + a1) + P * ((a0 - a2) * sin w) = (b0 - b2) * sin w := by rw [← d1, ← d2, ← n2]; linarith
    linear_combination (cos w) * k1 + (sin w) * k2 + (P * a2 + Q * 0 - b2 + b0 - P * a0) * e1
  · have k1 : P * ((a0 + a2) * cos w + a1) - Q * ((a0 - a2) * sin w) = (b0 + b2) * cos w + b1 := by rw [← d1, ← d2, ← n1]; linarith
    have k2 : Q * ((a0 + a2) * cos w + a1) + P * ((a0 - a2) * sin w) = (b0 - b2) * sin w := by rw [← d1, ← d2, ← n2]; linarith
    linear_combination (cos w) * k2 - (sin w) * k1 + (Q * a2 - Q * a0) * e1

section shelves
variable {sr f S db : ℝ}

theorem damping_sq (h : ValidShelf sr f S) (db : ℝ) :
    (2 * Real.sqrt (gainA db) * alphaS sr f (gainA db) S) ^ 2 = sin (angle sr f) ^ 2 * transition (gainA db) S := by
  have hA := gainA_pos db
  have h1 := Real.sq_sqrt hA.le
  have h2 := Real.sq_sqrt (h.sqrt_arg_pos hA).le
  unfold alphaS transition
  rw [mul_pow, mul_pow, mul_pow, div_pow, h1, h2]
  field_simp

/-- **C151**: the phase `η` of a LowShelf, of which the phase of the HighShelf with the same parameters is the opposite. -/
theorem C151_phases (h : ValidShelf sr f S) (db : ℝ) : ∃ η : ℝ → ℝ, ContinuousOn η (Set.Icc 0 pi) ∧
    η 0 = 0 ∧ η pi = 0 ∧ η (angle sr f) = -(2 * Real.arctan ((gainA db - 1) / Real.sqrt (transition (gainA db) S))) ∧
    (∀ w ∈ Set.Icc 0 pi, |η w| < pi ∧ ∃ G G' : ℝ, 0 < G ∧ 0 < G' ∧ G * G' = dbFactor db ∧
      (∀ s : LowShelf ℝ, ShiftsBy (s.setCoefficients sr f db S) w G (η w)) ∧
      ∀ s : HighShelf ℝ, ShiftsBy (s.setCoefficients sr f db S) w G' (-η w)) ∧
    (0 < db → ∀ w ∈ Set.Ioo 0 pi, η w < 0) ∧
    (db < 0 → ∀ w ∈ Set.Ioo 0 pi, 0 < η w) ∧
    ((∀ w ∈ Set.Icc 0 pi, |η w| < pi / 2) ↔ (gainA db ^ 2 + 1) * (2 - 1 / S) < 4 * gainA db) ∧
    (db ≠ 0 → (gainA db ^ 2 + 1) * (1 / S - 2) ≤ 4 * gainA db → ∀ w ∈ Set.Icc 0 pi, w ≠ angle sr f → |η w| < |η (angle sr f)|) := by
  have hA := gainA_pos db
  have hc : |cos (angle sr f)| < 1 := abs_lt.2 (cos_lt_one_of_sin_pos h.params.sin_pos)
  have hw0 : angle sr f ∈ Set.Ioo 0 pi := angle_mem h.params
  have hs0 := Real.sin_pos_of_pos_of_lt_pi hw0.1 hw0.2
  have hp := h.product_pos (db := db)
  have hκ := damping_sq h db
  have hL0 := h.low_den db
  have hH0 := h.high_den db
  have hLs := h.stableLow db
  have hHs := h.stableHigh db
  have hL := fun s : LowShelf ℝ => s.implements sr f db S
  have hH := fun s : HighShelf ℝ => s.implements sr f db S
  have hlt : (0 < db → 1 < gainA db) ∧ (db < 0 → gainA db < 1) := by
    rw [← gainA_zero]
    exact ⟨fun h => gainA_strictMono h, fun h => gainA_strictMono h⟩
  have hne : db ≠ 0 → gainA db ≠ 1 := fun h => by
    rcases lt_or_gt_of_ne h with h | h
    · exact (hlt.2 h).ne
    · exact (hlt.1 h).ne'
  rw [← gainA_sq]
  generalize 2 * Real.sqrt (gainA db) * alphaS sr f (gainA db) S = p at *
  generalize gainA db = A at *
  generalize angle sr f = w0 at *
  have hκ0 : 0 < transition A S := by
    have : 0 < sin w0 ^ 2 * transition A S := by rw [← hκ]; positivity
    exact (pos_iff_pos_of_mul_pos this).1 (by positivity)
  have hp' : p = sin w0 * Real.sqrt (transition A S) := by
    rw [← Real.sqrt_sq hp.le, hκ, Real.sqrt_mul (sq_nonneg _), Real.sqrt_sq hs0.le]
  refine ⟨fun w => (shelfTurn A (cos w0) p w).arg, (shelfTurn_arg_continuous hA hc hp).continuousOn,
    shelfTurn_arg_end hA hc hp Real.sin_zero, shelfTurn_arg_end hA hc hp Real.sin_pi, ?_, fun w _ => ⟨shelfTurn_arg_abs hA hc hp,
      A * ‖shelfPart A (cos w0) p (-1) w‖ / ‖shelfPart A (cos w0) p 1 w‖, A * ‖shelfPart A (cos w0) p 1 w‖ / ‖shelfPart A (cos w0) p (-1) w‖,
      ?_, ?_, ?_, fun s => ?_, fun s => ?_⟩,
    fun h w hw => shelfTurn_arg_neg hc hp (Real.sin_pos_of_pos_of_lt_pi hw.1 hw.2) (hlt.1 h),
    fun h w hw => shelfTurn_arg_pos hc hp (Real.sin_pos_of_pos_of_lt_pi hw.1 hw.2) (hlt.2 h), ?_,
    fun h hm w hw hw' => shelfTurn_extreme hA (hne h) hw0 hc hp hκ ?_ hw hw'⟩
  · beta_reduce
    rw [shelfTurn_arg_corner hs0 hp]
    congr 3
    rw [hp', mul_comm (A - 1)]
    exact mul_div_mul_left _ _ hs0.ne'
  · have := norm_pos_iff.2 (shelfPart_ne (w := w) hA hc hp (Or.inl rfl))
    have := norm_pos_iff.2 (shelfPart_ne (w := w) hA hc hp (Or.inr rfl))
    positivity
  · have := norm_pos_iff.2 (shelfPart_ne (w := w) hA hc hp (Or.inl rfl))
    have := norm_pos_iff.2 (shelfPart_ne (w := w) hA hc hp (Or.inr rfl))
    positivity
  · have := norm_pos_iff.2 (shelfPart_ne (w := w) hA hc hp (Or.inl rfl))
    have := norm_pos_iff.2 (shelfPart_ne (w := w) hA hc hp (Or.inr rfl))
    field_simp
  · beta_reduce
    rw [shelfTurn_eq]
    refine (hL s).turn hL0 hLs hA (shelfPart_ne hA hc hp (Or.inl rfl)) ?_ ?_ ?_ ?_ <;> simp only [shelfPart] <;> ring
  · have e : -(shelfTurn A (cos w0) p w).arg = (shelfPart A (cos w0) p 1 w * (starRingEnd ℂ) (shelfPart A (cos w0) p (-1) w)).arg := by
      have h1 : shelfPart A (cos w0) p 1 w * (starRingEnd ℂ) (shelfPart A (cos w0) p (-1) w) = (starRingEnd ℂ) (shelfTurn A (cos w0) p w) := by
        rw [shelfTurn_eq, map_mul, Complex.conj_conj, mul_comm]
      rw [h1, Complex.arg_conj, if_neg (Complex.mem_slitPlane_iff_arg.1 (shelfTurn_slit hA hc hp)).1]
    rw [e]
    refine (hH s).turn hH0 hHs hA (shelfPart_ne hA hc hp (Or.inr rfl)) ?_ ?_ ?_ ?_ <;> simp only [shelfPart] <;> ring
  · rw [shelfTurn_right_angle hA hs0 ⟨hw0.1.le, hw0.2.le⟩ hc hp hκ]
    unfold transition
    constructor <;> intro h <;> linarith
  · unfold transition
    linarith

/-- **C151**, the two conditions of `C151_phases`: slopes up to 1/2 never reach a right angle, the steepest shelf reaches it from 22.88 dB
on, and from slope 1/2 on the shift is largest at the corner. -/
theorem C151_slopes (db : ℝ) : (∀ S : ℝ, 0 < S → S ≤ 1 / 2 → (gainA db ^ 2 + 1) * (2 - 1 / S) < 4 * gainA db) ∧
    ((gainA db ^ 2 + 1) * (2 - 1 / 1) < 4 * gainA db ↔ |db| < 40 * Real.logb 10 (2 + Real.sqrt 3)) ∧
    (∀ S : ℝ, 1 / 2 ≤ S → (gainA db ^ 2 + 1) * (1 / S - 2) ≤ 4 * gainA db) := by
  have hA := gainA_pos db
  refine ⟨fun S h0 h1 => ?_, ?_, fun S h1 => ?_⟩
  · have h2 : 2 ≤ 1 / S := by rw [le_div_iff₀ h0]; linarith
    have : (gainA db ^ 2 + 1) * (2 - 1 / S) ≤ 0 := mul_nonpos_of_nonneg_of_nonpos (by positivity) (by linarith)
    linarith
  · have h3 := Real.sq_sqrt (show (0 : ℝ) ≤ 3 by norm_num)
    have h30 : 1 < Real.sqrt 3 := by nlinarith [Real.sqrt_nonneg 3]
    have h32 : Real.sqrt 3 < 2 := by nlinarith [Real.sqrt_nonneg 3]
    have hpos : 0 < 2 + Real.sqrt 3 := by linarith
    have hinv : (2 + Real.sqrt 3)⁻¹ = 2 - Real.sqrt 3 := by
      rw [inv_eq_one_div, div_eq_iff hpos.ne']
      nlinarith
    have e1 : gainA db < 2 + Real.sqrt 3 ↔ db < 40 * Real.logb 10 (2 + Real.sqrt 3) := by
      unfold gainA
      rw [← Real.lt_logb_iff_rpow_lt (by norm_num) hpos, div_lt_iff₀ (by norm_num), mul_comm]
    have e2 : 2 - Real.sqrt 3 < gainA db ↔ -(40 * Real.logb 10 (2 + Real.sqrt 3)) < db := by
      unfold gainA
      rw [← hinv, ← Real.logb_lt_iff_lt_rpow (by norm_num) (by positivity), Real.logb_inv, lt_div_iff₀ (by norm_num)]
      constructor <;> intro h <;> linarith
    rw [abs_lt, ← e1, ← e2]
    constructor
    · intro h
      have h' : (gainA db - 2) ^ 2 < Real.sqrt 3 ^ 2 := by linarith
      have := abs_lt_of_sq_lt_sq h' (by linarith)
      obtain ⟨a, b⟩ := abs_lt.1 this
      constructor <;> linarith
    · rintro ⟨a, b⟩
      have := mul_pos (sub_pos.2 a) (sub_pos.2 b)
      nlinarith
  · have h2 : 1 / S ≤ 2 := by rw [div_le_iff₀ (by linarith)]; linarith
    have : (gainA db ^ 2 + 1) * (1 / S - 2) ≤ 0 := mul_nonpos_of_nonneg_of_nonpos (by positivity) (by linarith)
    linarith

/-- The parameters of a shelf at 1 kHz, and gains on both sides of the limit. -/
example : ValidShelf 48000 1000 1 ∧ (40 * Real.logb 10 10 : ℝ) = 40 ∧ Real.logb 10 (2 + Real.sqrt 3) < 1 := by
  refine ⟨by unfold ValidShelf; norm_num, by rw [Real.logb_self_eq_one (by norm_num)]; norm_num, ?_⟩
  rw [Real.logb_lt_iff_lt_rpow (by norm_num) (by positivity), Real.rpow_one]
  nlinarith [Real.sq_sqrt (show (0 : ℝ) ≤ 3 by norm_num), Real.sqrt_nonneg 3]

/-- At 40 dB the steepest shelf turns some sinusoids by more than a right angle; a cut turns them ahead. -/
example : ¬ (gainA 40 ^ 2 + 1) * (2 - 1 / 1) < 4 * gainA 40 ∧ gainA (-40) < 1 := by
  unfold gainA
  norm_num [Real.rpow_neg_one]

end shelves

end Rasp
