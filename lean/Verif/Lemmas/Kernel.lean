import Verif.Props.Headroom
import Verif.Props.ChainFloat
import Verif.Props.Impulse

/-!
# Sums of the magnitudes of second-order impulse responses

The denominator is `1 + α − 2 c z⁻¹ + (1 − α) z⁻²` with `c² + s² = 1` and `α = s / (2 Q)`, `Q ≥ 1/2`: poles `p` and its conjugate.
-/

namespace Rasp

/-- The partial sums of the magnitudes stay below `G`. -/
def SumBelow (h : ℕ → ℝ) (G : ℝ) : Prop := ∀ n, ∑ k ∈ Finset.range n, |h k| ≤ G

theorem geom_le {r : ℝ} (h0 : 0 ≤ r) (h1 : r < 1) (n : ℕ) : ∑ k ∈ Finset.range n, r ^ k ≤ 1 / (1 - r) := by
  rw [le_div_iff₀ (by linarith), geom_sum_mul_neg]
  have := pow_nonneg h0 n
  linarith

theorem SumBelow.nonneg {h : ℕ → ℝ} {G : ℝ} (hh : SumBelow h G) : 0 ≤ G := by simpa using hh 0

theorem SumBelow.mono {h : ℕ → ℝ} {G G' : ℝ} (hh : SumBelow h G) (hG : G ≤ G') : SumBelow h G' := fun n => (hh n).trans hG

theorem SumBelow.add {h h' : ℕ → ℝ} {G G' : ℝ} (hh : SumBelow h G) (hh' : SumBelow h' G') : SumBelow (fun n => h n + h' n) (G + G') := fun n =>
  (Finset.sum_le_sum fun _ _ => abs_add_le _ _).trans (by rw [Finset.sum_add_distrib]; exact add_le_add (hh n) (hh' n))

theorem SumBelow.smul {h : ℕ → ℝ} {G : ℝ} (hh : SumBelow h G) (c : ℝ) : SumBelow (fun n => c * h n) (|c| * G) := fun n => by
  simp only [abs_mul, ← Finset.mul_sum]
  exact mul_le_mul_of_nonneg_left (hh n) (abs_nonneg c)

theorem SumBelow.lag {h : ℕ → ℝ} {G : ℝ} (hh : SumBelow h G) : SumBelow (lag h 1) G := fun n => by
  cases n with
  | zero => simpa using hh.nonneg
  | succ n =>
    rw [Finset.sum_range_succ']
    refine le_trans (le_of_eq ?_) (hh n)
    rw [show Rasp.lag h 1 0 = 0 from rfl, abs_zero, add_zero]
    rfl

theorem SumBelow.geom {h : ℕ → ℝ} {C r : ℝ} (hr0 : 0 ≤ r) (hr1 : r < 1) (hC : 0 ≤ C) (hh : ∀ n, |h n| ≤ C * r ^ n) : SumBelow h (C / (1 - r)) := fun n =>
  (Finset.sum_le_sum fun k _ => hh k).trans (by
    rw [← Finset.mul_sum, div_eq_mul_one_div]
    exact mul_le_mul_of_nonneg_left (geom_le hr0 hr1 n) hC)

/-- A first-order recursion driven by a geometric sequence. -/
theorem SumBelow.recur {h : ℕ → ℝ} {C r : ℝ} (hr0 : 0 ≤ r) (hr1 : r < 1) (hC : 0 ≤ C) (h0 : |h 0| ≤ 1)
    (hh : ∀ n, |h (n + 1)| ≤ r * |h n| + C * r ^ n) : SumBelow h ((1 + C / (1 - r)) / (1 - r)) := by
  have hr : 0 < 1 - r := by linarith
  have hC' : 0 ≤ C / (1 - r) := by positivity
  have key : ∀ n, ∑ k ∈ Finset.range (n + 1), |h k| ≤ 1 + C / (1 - r) + r * ∑ k ∈ Finset.range n, |h k| := by
    intro n
    rw [Finset.sum_range_succ', Finset.mul_sum]
    have e1 : ∑ k ∈ Finset.range n, |h (k + 1)| ≤ ∑ k ∈ Finset.range n, (r * |h k| + C * r ^ k) := Finset.sum_le_sum fun k _ => hh k
    rw [Finset.sum_add_distrib, ← Finset.mul_sum (f := fun k => r ^ k)] at e1
    have e2 := mul_le_mul_of_nonneg_left (geom_le hr0 hr1 n) hC
    rw [mul_one_div] at e2
    linarith
  intro n
  rw [le_div_iff₀ hr]
  have h1 := key n
  have h2 : ∑ k ∈ Finset.range n, |h k| ≤ ∑ k ∈ Finset.range (n + 1), |h k| :=
    Finset.sum_le_sum_of_subset_of_nonneg (Finset.range_subset_range.mpr (Nat.le_succ n)) fun _ _ _ => abs_nonneg _
  linarith

/-- `c`, `s`, `α`, `Q` as above; `e` is the response to an impulse of the denominator alone. -/
structure Kernel (c s α Q : ℝ) (e : ℕ → ℝ) : Prop where
  circle : c ^ 2 + s ^ 2 = 1
  pos : 0 < s
  half : 1 / 2 ≤ Q
  alpha : α = s / (2 * Q)
  solves : SolvesDiff 1 0 0 (-2 * c / (1 + α)) ((1 - α) / (1 + α)) unitImpulse e

namespace Kernel
variable {c s α Q : ℝ} {e : ℕ → ℝ} (h : Kernel c s α Q e)
include h

theorem s_le : s ≤ 1 := by nlinarith [h.circle, h.pos, sq_nonneg c]
theorem alpha_pos : 0 < α := by rw [h.alpha]; have := h.half; have := h.pos; positivity
theorem alpha_le : α ≤ s := by
  rw [h.alpha, div_le_iff₀ (by linarith [h.half])]; nlinarith [h.half, h.pos]
theorem two_Q : 2 * Q * α = s := by rw [h.alpha]; have := h.half; field_simp

/-- A pole. -/
noncomputable def pole (_ : Kernel c s α Q e) : ℂ := ⟨c / (1 + α), √(s ^ 2 - α ^ 2) / (1 + α)⟩

theorem im_sq : √(s ^ 2 - α ^ 2) ^ 2 = s ^ 2 - α ^ 2 := Real.sq_sqrt (by nlinarith [h.alpha_le, h.alpha_pos])

theorem norm_sq : ‖h.pole‖ ^ 2 = (1 - α) / (1 + α) := by
  have h1 := h.alpha_pos
  rw [← Complex.normSq_eq_norm_sq, Complex.normSq_apply, pole]
  have := h.im_sq
  field_simp
  linear_combination h.circle + this

theorem norm_lt : ‖h.pole‖ < 1 := by
  have h1 := h.alpha_pos
  have h2 : ‖h.pole‖ ^ 2 < 1 := by rw [h.norm_sq, div_lt_one (by linarith)]; linarith
  nlinarith [norm_nonneg h.pole]

theorem one_sub_ge : α / (1 + α) ≤ 1 - ‖h.pole‖ := by
  have h1 := h.alpha_pos
  have h2 := h.norm_sq
  have h3 := h.norm_lt
  have h4 : (1 - ‖h.pole‖) * (1 + ‖h.pole‖) = 2 * (α / (1 + α)) := by
    have : 1 - (1 - α) / (1 + α) = 2 * (α / (1 + α)) := by field_simp; ring
    linarith
  nlinarith [norm_nonneg h.pole]

theorem inv_le : 1 / (1 - ‖h.pole‖) ≤ (1 + α) / α := by
  have h1 := h.alpha_pos
  rw [div_le_div_iff₀ (by linarith [h.norm_lt]) h1]
  have := h.one_sub_ge
  rw [div_le_iff₀ (by linarith)] at this
  linarith

open ComplexConjugate in
theorem first_order (n : ℕ) : (e (n + 1) : ℂ) = conj h.pole * e n + h.pole ^ (n + 1) := by
  have h1 := h.alpha_pos
  have hs : h.pole + conj h.pole = ((2 * c / (1 + α) : ℝ) : ℂ) := by
    rw [Complex.add_conj]; simp only [pole]; push_cast; ring
  have hm : h.pole * conj h.pole = (((1 - α) / (1 + α) : ℝ) : ℂ) := by
    rw [Complex.mul_conj, Complex.normSq_eq_norm_sq, h.norm_sq]
  have d0 := h.solves 0
  have d1 := h.solves 1
  have d2 := fun n => h.solves (n + 2)
  simp [lag, unitImpulse] at d0 d1 d2
  induction n with
  | zero =>
    rw [d1, d0]
    simp only [pow_one, Complex.ofReal_one, mul_one, zero_add]
    rw [add_comm (conj h.pole), hs]; push_cast; ring
  | succ n ih =>
    rw [show n + 1 + 1 = n + 2 from rfl, d2 n]
    rw [pow_succ]
    have e2 : (h.pole ^ (n + 1) : ℂ) = e (n + 1) - conj h.pole * e n := by rw [ih]; ring
    rw [e2]
    have h3 : ((-(-(2 * c) / (1 + α) * e (n + 1)) - (1 - α) / (1 + α) * e n : ℝ) : ℂ)
      = (h.pole + conj h.pole) * e (n + 1) - h.pole * conj h.pole * e n := by rw [hs, hm]; push_cast; ring
    rw [h3]
    ring

open ComplexConjugate in
theorem closed_form (n : ℕ) : (e n : ℂ) * (h.pole - conj h.pole) = h.pole ^ (n + 1) - conj h.pole ^ (n + 1) := by
  induction n with
  | zero =>
    have d0 := h.solves 0
    simp [lag, unitImpulse] at d0
    rw [d0]; simp
  | succ n ih =>
    rw [h.first_order n]
    linear_combination conj h.pole * ih

theorem zero : e 0 = 1 := by
  have d0 := h.solves 0
  simpa [lag, unitImpulse] using d0

/-- A wide pair of poles. -/
theorem im_ge (hQ : 1 ≤ 2 * Q ^ 2) : 7 / 10 * s / (1 + α) ≤ h.pole.im := by
  have h1 := h.alpha_pos
  have h2 := h.pos
  refine div_le_div_of_nonneg_right (Real.le_sqrt_of_sq_le ?_) (by linarith)
  have h3 := h.two_Q
  have h4 : 4 * Q ^ 2 * α ^ 2 = s ^ 2 := by rw [← h3]; ring
  nlinarith [sq_nonneg α]

open ComplexConjugate in
theorem sub_conj_norm (hQ : 1 ≤ 2 * Q ^ 2) : ‖h.pole - conj h.pole‖ = 2 * h.pole.im := by
  have h1 := h.im_ge hQ
  have h2 : 0 ≤ 7 / 10 * s / (1 + α) := by have := h.pos; have := h.alpha_pos; positivity
  rw [Complex.sub_conj]
  simp only [norm_mul, Complex.norm_I, Complex.norm_real, Real.norm_eq_abs, mul_one]
  simp [abs_of_nonneg (h2.trans h1)]

open ComplexConjugate in
/-- From a closed form to a sum. -/
theorem sum_of_closed (hQ : 1 ≤ 2 * Q ^ 2) {g : ℕ → ℝ} (w : ℂ) (hg : ∀ n, (g n : ℂ) * (h.pole - conj h.pole) = h.pole ^ n * w - conj (h.pole ^ n * w)) :
    SumBelow g (‖w‖ * (1 + α) ^ 2 / (7 / 10 * s * α)) := by
  have h1 := h.alpha_pos
  have h2 := h.pos
  have h3 := h.im_ge hQ
  have h4 : 0 < 7 / 10 * s / (1 + α) := by positivity
  have h5 : 0 < h.pole.im := h4.trans_le h3
  have key : ∀ n, |g n| ≤ ‖w‖ / h.pole.im * ‖h.pole‖ ^ n := by
    intro n
    have e1 := congrArg norm (hg n)
    rw [norm_mul, h.sub_conj_norm hQ, Complex.norm_real, Real.norm_eq_abs] at e1
    have e2 := norm_sub_le (h.pole ^ n * w) (conj (h.pole ^ n * w))
    rw [Complex.norm_conj, norm_mul, norm_pow] at e2
    rw [div_mul_eq_mul_div, le_div_iff₀ h5]
    linarith
  refine (SumBelow.geom (norm_nonneg _) h.norm_lt (by positivity) key).mono ?_
  have e3 : ‖w‖ / h.pole.im ≤ ‖w‖ / (7 / 10 * s / (1 + α)) := div_le_div_of_nonneg_left (norm_nonneg _) h4 h3
  rw [div_eq_mul_one_div]
  refine (mul_le_mul e3 h.inv_le (by have := h.norm_lt; have : 0 < 1 - ‖h.pole‖ := by linarith
                                     positivity) (by positivity)).trans (le_of_eq ?_)
  field_simp

open ComplexConjugate in
theorem sum_le : SumBelow e (3 * Q * (1 + α) ^ 2 / s ^ 2) := by
  have h1 := h.alpha_pos
  have h2 := h.pos
  have hq := h.half
  have h3 := h.two_Q
  have hr : ‖h.pole‖ < 1 := h.norm_lt
  by_cases hQ : 1 ≤ 2 * Q ^ 2
  · refine (h.sum_of_closed hQ h.pole (g := e) fun n => ?_).mono ?_
    · rw [h.closed_form n, map_mul, map_pow]; ring
    · rw [div_le_div_iff₀ (by positivity) (by positivity)]
      have : ‖h.pole‖ * s ^ 2 ≤ 3 * Q * (7 / 10 * s * α) := by nlinarith [norm_nonneg h.pole]
      nlinarith [sq_nonneg (1 + α)]
  · push Not at hQ
    have hQ' : Q ≤ 3 / 4 := by nlinarith
    refine (SumBelow.recur (C := ‖h.pole‖) (norm_nonneg _) hr (norm_nonneg _) (by rw [h.zero]; simp) fun n => ?_).mono ?_
    · have e1 := congrArg norm (h.first_order n)
      rw [Complex.norm_real, Real.norm_eq_abs] at e1
      rw [e1]
      refine (norm_add_le _ _).trans (le_of_eq ?_)
      rw [norm_mul, Complex.norm_conj, Complex.norm_real, Real.norm_eq_abs, norm_pow, pow_succ]; ring
    · have hp : 0 < 1 - ‖h.pole‖ := by linarith
      have e1 : (1 + ‖h.pole‖ / (1 - ‖h.pole‖)) / (1 - ‖h.pole‖) = (1 / (1 - ‖h.pole‖)) ^ 2 := by field_simp; ring
      rw [e1]
      refine (pow_le_pow_left₀ (by positivity) h.inv_le 2).trans ?_
      rw [div_pow, div_le_div_iff₀ (by positivity) (by positivity), ← h3]
      have : (2 * Q * α) ^ 2 ≤ 3 * Q * α ^ 2 := by
        have : 0 ≤ Q * α ^ 2 * (3 - 4 * Q) := mul_nonneg (by positivity) (by linarith)
        nlinarith
      nlinarith [sq_nonneg (1 + α)]

theorem zero_dist {σ : ℝ} (hσ : σ ^ 2 = 1) (hc : 0 ≤ σ * c) : ‖h.pole - σ‖ * (1 + α) ≤ 2 * s := by
  have h1 := h.alpha_pos
  have h2 := h.pos
  have h3 := h.alpha_le
  have h4 := h.s_le
  have hc1 : σ * c ≤ 1 := by nlinarith [h.circle, sq_nonneg s, mul_pow σ c 2]
  have e1 : ‖h.pole - σ‖ ^ 2 * (1 + α) = 2 * (1 - σ * c) := by
    rw [← Complex.normSq_eq_norm_sq, Complex.normSq_apply]
    simp only [pole, Complex.sub_re, Complex.sub_im, Complex.ofReal_re, Complex.ofReal_im, sub_zero]
    have := h.im_sq
    field_simp
    linear_combination this + h.circle + (1 + α) ^ 2 * hσ
  have e2 : 1 - σ * c ≤ s ^ 2 := by nlinarith [h.circle, mul_pow σ c 2]
  refine abs_le_of_sq_le_sq' (?_ : (‖h.pole - σ‖ * (1 + α)) ^ 2 ≤ (2 * s) ^ 2) (by positivity) |>.2
  have : (‖h.pole - σ‖ * (1 + α)) ^ 2 = 2 * (1 - σ * c) * (1 + α) := by rw [← e1]; ring
  rw [this]
  nlinarith

open ComplexConjugate in
theorem diff_sum_le {σ : ℝ} (hσ : σ ^ 2 = 1) (hc : 0 ≤ σ * c) : SumBelow (fun n => e n - σ * lag e 1 n) (4 * (1 + α) / α) := by
  have h1 := h.alpha_pos
  have h2 := h.pos
  have hq := h.half
  have h3 := h.two_Q
  have hr : ‖h.pole‖ < 1 := h.norm_lt
  have hz := h.zero_dist hσ hc
  by_cases hQ : 1 ≤ 2 * Q ^ 2
  · refine (h.sum_of_closed hQ (h.pole - σ) fun n => ?_).mono ?_
    · have e1 : ((lag e 1 n : ℝ) : ℂ) * (h.pole - conj h.pole) = h.pole ^ n - conj h.pole ^ n := by
        cases n with
        | zero => simp [lag]
        | succ n => exact h.closed_form n
      have e2 := h.closed_form n
      push_cast
      rw [map_mul, map_pow, map_sub, Complex.conj_ofReal]
      linear_combination e2 - σ * e1
    · rw [div_le_div_iff₀ (by positivity) h1]
      have : ‖h.pole - σ‖ * (1 + α) * ((1 + α) * α) ≤ 2 * s * ((1 + α) * α) := mul_le_mul_of_nonneg_right hz (by positivity)
      have : 0 ≤ s * ((1 + α) * α) := by positivity
      nlinarith
  · push Not at hQ
    have hQ' : Q ≤ 3 / 4 := by nlinarith
    refine (SumBelow.recur (C := ‖h.pole - σ‖) (norm_nonneg _) hr (norm_nonneg _) (by rw [h.zero]; simp [lag]) fun n => ?_).mono ?_
    · have e0 : (e n : ℂ) = conj h.pole * ((lag e 1 n : ℝ) : ℂ) + h.pole ^ n := by
        cases n with
        | zero => simp [lag, h.zero]
        | succ n => exact h.first_order n
      have e1 : ((e (n + 1) - σ * e n : ℝ) : ℂ) = conj h.pole * ((e n - σ * lag e 1 n : ℝ) : ℂ) + (h.pole - σ) * h.pole ^ n := by
        push_cast
        rw [h.first_order n]
        linear_combination -σ * e0
      have e2 := congrArg norm e1
      rw [Complex.norm_real, Real.norm_eq_abs] at e2
      show |e (n + 1) - σ * e n| ≤ _
      rw [e2]
      refine (norm_add_le _ _).trans (le_of_eq ?_)
      rw [norm_mul, norm_mul, Complex.norm_conj, Complex.norm_real, Real.norm_eq_abs, norm_pow]
    · have hp : 0 < 1 - ‖h.pole‖ := by linarith
      have e1 : ‖h.pole - σ‖ / (1 - ‖h.pole‖) ≤ 4 * Q := by
        rw [div_eq_mul_one_div]
        refine (mul_le_mul_of_nonneg_left h.inv_le (norm_nonneg _)).trans ?_
        rw [← mul_div_assoc, div_le_iff₀ h1]
        linarith
      rw [div_eq_mul_one_div]
      refine (mul_le_mul (by linarith : _ ≤ (4 : ℝ)) h.inv_le (by positivity) (by norm_num)).trans (le_of_eq ?_)
      ring

omit h in
theorem _root_.Rasp.lag_lag (e : ℕ → ℝ) (n : ℕ) : lag (lag e 1) 1 n = lag e 2 n := by
  match n with
  | 0 => rfl
  | 1 => simp [lag]
  | n + 2 => simp [lag]

theorem delta : SumBelow (fun n => e n + -2 * c / (1 + α) * lag e 1 n + (1 - α) / (1 + α) * lag e 2 n) 1 := by
  have : (fun n => e n + -2 * c / (1 + α) * lag e 1 n + (1 - α) / (1 + α) * lag e 2 n) = unitImpulse := by
    funext n
    rw [h.solves n]; ring
  rw [this]
  intro n
  cases n with
  | zero => simp
  | succ n => rw [Finset.sum_range_succ']; simp [unitImpulse]

theorem bandPass : SumBelow (fun n => α / (1 + α) * e n + -α / (1 + α) * lag e 2 n) 8 := by
  have h1 := h.alpha_pos
  obtain ⟨σ, hσ, hc⟩ : ∃ σ : ℝ, σ ^ 2 = 1 ∧ 0 ≤ σ * c := by
    rcases le_total 0 c with h | h
    · exact ⟨1, by norm_num, by linarith⟩
    · exact ⟨-1, by norm_num, by linarith⟩
  have hg := h.diff_sum_le hσ hc
  have hs : |σ| = 1 := by rwa [← sq_eq_sq₀ (abs_nonneg _) zero_le_one, sq_abs, one_pow]
  have key := (hg.add (hg.lag.smul σ)).smul (α / (1 + α))
  rw [hs, abs_of_pos (by positivity), show α / (1 + α) * (4 * (1 + α) / α + 1 * (4 * (1 + α) / α)) = 8 by field_simp; norm_num] at key
  convert key using 2 with n
  have e1 : lag (fun n => e n - σ * lag e 1 n) 1 n = lag e 1 n - σ * lag e 2 n := by
    rw [← lag_lag]
    cases n with
    | zero => simp [lag]
    | succ n => rfl
  rw [e1]
  linear_combination α / (1 + α) * lag e 2 n * hσ

theorem square_sum {σ : ℝ} (hσ : σ ^ 2 = 1) (hc : 0 ≤ σ * c) :
    SumBelow (fun n => (1 - σ * c) / 2 / (1 + α) * e n + σ * (1 - σ * c) / (1 + α) * lag e 1 n + (1 - σ * c) / 2 / (1 + α) * lag e 2 n) (12 * Q) := by
  have h1 := h.alpha_pos
  have h2 := h.pos
  have h3 := h.alpha_le
  have h4 := h.s_le
  have hq := h.half
  have hs : |σ| = 1 := by rwa [← sq_eq_sq₀ (abs_nonneg _) zero_le_one, sq_abs, one_pow]
  have hc1 : σ * c ≤ 1 := by nlinarith [h.circle, sq_nonneg s, mul_pow σ c 2]
  have e2 : 1 - σ * c ≤ s ^ 2 := by nlinarith [h.circle, mul_pow σ c 2]
  have k := h.sum_le
  have k2 : SumBelow (lag e 2) (3 * Q * (1 + α) ^ 2 / s ^ 2) := by
    have := k.lag.lag
    rwa [show lag (lag e 1) 1 = lag e 2 from funext (lag_lag e)] at this
  have key := ((k.smul ((1 - σ * c) / 2 / (1 + α))).add (k.lag.smul (σ * (1 - σ * c) / (1 + α)))).add (k2.smul ((1 - σ * c) / 2 / (1 + α)))
  refine key.mono ?_
  have hp : 0 ≤ 1 - σ * c := by linarith
  rw [abs_div, abs_div, abs_div, abs_mul, hs, abs_of_nonneg hp, abs_of_pos (by positivity : (0 : ℝ) < 1 + α), abs_two, one_mul,
    show (1 - σ * c) / 2 / (1 + α) * (3 * Q * (1 + α) ^ 2 / s ^ 2) + (1 - σ * c) / (1 + α) * (3 * Q * (1 + α) ^ 2 / s ^ 2) +
      (1 - σ * c) / 2 / (1 + α) * (3 * Q * (1 + α) ^ 2 / s ^ 2) = 6 * Q * (1 + α) * (1 - σ * c) / s ^ 2 by field_simp; ring,
    div_le_iff₀ (by positivity)]
  have : (1 + α) * (1 - σ * c) ≤ 2 * s ^ 2 := mul_le_mul (by linarith) e2 hp (by norm_num)
  nlinarith

theorem lowPass_low (hc : 0 ≤ c) :
    SumBelow (fun n => (1 - c) / 2 / (1 + α) * e n + (1 - c) / (1 + α) * lag e 1 n + (1 - c) / 2 / (1 + α) * lag e 2 n) (12 * Q) := by
  simpa using h.square_sum (σ := 1) (by norm_num) (by linarith)

theorem highPass_high (hc : c ≤ 0) :
    SumBelow (fun n => (1 + c) / 2 / (1 + α) * e n + (-1 - c) / (1 + α) * lag e 1 n + (1 + c) / 2 / (1 + α) * lag e 2 n) (12 * Q) := by
  have := h.square_sum (σ := -1) (by norm_num) (by linarith)
  convert this using 2 with n
  ring

theorem highPass : SumBelow (fun n => (1 + c) / 2 / (1 + α) * e n + (-1 - c) / (1 + α) * lag e 1 n + (1 + c) / 2 / (1 + α) * lag e 2 n) (12 * Q + 9) := by
  have h1 := h.alpha_pos
  rcases le_total 0 c with hc | hc
  · have key := (h.delta.add ((h.lowPass_low hc).smul (-1))).add (h.bandPass.smul (-1))
    rw [abs_neg, abs_one] at key
    convert key.mono (by linarith : _ ≤ 12 * Q + 9) using 2 with n
    field_simp
    ring
  · exact (h.highPass_high hc).mono (by linarith)

theorem lowPass : SumBelow (fun n => (1 - c) / 2 / (1 + α) * e n + (1 - c) / (1 + α) * lag e 1 n + (1 - c) / 2 / (1 + α) * lag e 2 n) (12 * Q + 9) := by
  have h1 := h.alpha_pos
  rcases le_total 0 c with hc | hc
  · exact (h.lowPass_low hc).mono (by linarith)
  · have key := (h.delta.add ((h.highPass_high hc).smul (-1))).add (h.bandPass.smul (-1))
    rw [abs_neg, abs_one] at key
    convert key.mono (by linarith : _ ≤ 12 * Q + 9) using 2 with n
    field_simp
    ring

/-- All three together. -/
theorem shelf {A B C : ℝ} (hA : 0 ≤ A) (hB : 0 ≤ B) (hC : 0 ≤ C) : SumBelow (fun n =>
    A * ((1 + c) / 2 / (1 + α) * e n + (-1 - c) / (1 + α) * lag e 1 n + (1 + c) / 2 / (1 + α) * lag e 2 n) +
    B * (α / (1 + α) * e n + -α / (1 + α) * lag e 2 n) +
    C * ((1 - c) / 2 / (1 + α) * e n + (1 - c) / (1 + α) * lag e 1 n + (1 - c) / 2 / (1 + α) * lag e 2 n))
    ((12 * Q + 9) * (A + C) + 8 * B) := by
  have key := ((h.highPass.smul A).add (h.bandPass.smul B)).add (h.lowPass.smul C)
  rw [abs_of_nonneg hA, abs_of_nonneg hB, abs_of_nonneg hC] at key
  exact key.mono (le_of_eq (by ring))

end Kernel
end Rasp
