import Verif.Spec.Diff
import Mathlib.Analysis.Complex.Norm
import Mathlib.Analysis.SpecificLimits.Normed
import Mathlib.Tactic.LinearCombination

/-!
# Linear recurrences of order one and two
-/

namespace Rasp
open Filter Topology

/-! ## Order one, in norm -/

theorem first_order_bound {e : ℕ → ℂ} {p : ℂ} {w : ℕ → ℂ} {W : ℝ} (hp : ‖p‖ < 1) (he : ∀ n, e (n + 1) = p * e n + w n)
    (hw : ∀ n, ‖w n‖ ≤ W) (n : ℕ) : ‖e n‖ ≤ ‖e 0‖ + W / (1 - ‖p‖) := by
  have hW : 0 ≤ W := (norm_nonneg _).trans (hw 0)
  have h1 : 0 < 1 - ‖p‖ := by linarith
  have hq : 0 ≤ W / (1 - ‖p‖) := div_nonneg hW h1.le
  induction n with
  | zero => linarith
  | succ n ih =>
    rw [he n]
    have a1 : ‖p * e n + w n‖ ≤ ‖p‖ * ‖e n‖ + ‖w n‖ := by
      refine (norm_add_le _ _).trans ?_
      rw [norm_mul]
    have a2 : ‖p‖ * ‖e n‖ ≤ ‖p‖ * (‖e 0‖ + W / (1 - ‖p‖)) := mul_le_mul_of_nonneg_left ih (norm_nonneg _)
    have a3 : ‖p‖ * ‖e 0‖ ≤ ‖e 0‖ := by
      have := norm_nonneg (e 0); nlinarith
    have a4 : ‖p‖ * (W / (1 - ‖p‖)) + W = W / (1 - ‖p‖) := by field_simp; ring
    have a5 := hw n
    linarith

theorem first_order_tendsto {e : ℕ → ℂ} {p : ℂ} {w : ℕ → ℂ} (hp : ‖p‖ < 1) (he : ∀ n, e (n + 1) = p * e n + w n)
    (hw : Tendsto w atTop (𝓝 0)) : Tendsto e atTop (𝓝 0) := by
  have h1 : 0 < 1 - ‖p‖ := by linarith
  rw [Metric.tendsto_atTop] at hw ⊢
  intro ε hε
  obtain ⟨N, hN⟩ := hw (ε / 2 * (1 - ‖p‖)) (by positivity)
  have key : ∀ m, ‖e (N + m)‖ ≤ ‖p‖ ^ m * ‖e N‖ + ε / 2 := by
    intro m
    induction m with
    | zero => simp; linarith
    | succ m ih =>
      rw [← add_assoc, he]
      have a1 : ‖p * e (N + m) + w (N + m)‖ ≤ ‖p‖ * ‖e (N + m)‖ + ‖w (N + m)‖ := by
        refine (norm_add_le _ _).trans ?_
        rw [norm_mul]
      have a2 := hN (N + m) (by omega)
      rw [dist_zero_right] at a2
      have a3 : ‖p‖ * ‖e (N + m)‖ ≤ ‖p‖ * (‖p‖ ^ m * ‖e N‖ + ε / 2) := mul_le_mul_of_nonneg_left ih (norm_nonneg _)
      rw [pow_succ]
      nlinarith
  have hgeo : Tendsto (fun m => ‖p‖ ^ m * ‖e N‖) atTop (𝓝 0) := by
    simpa using (tendsto_pow_atTop_nhds_zero_of_lt_one (norm_nonneg p) hp).mul_const ‖e N‖
  rw [Metric.tendsto_atTop] at hgeo
  obtain ⟨M, hM⟩ := hgeo (ε / 2) (by positivity)
  refine ⟨N + M, fun n hn => ?_⟩
  obtain ⟨m, rfl⟩ : ∃ m, n = N + m := ⟨n - N, by omega⟩
  have b1 := hM m (by omega)
  rw [Real.dist_eq, sub_zero, abs_of_nonneg (by positivity)] at b1
  rw [dist_zero_right]
  have := key m
  linarith

/-! ## Roots of a stable polynomial -/

/-- A stable pair factors with both roots inside the unit circle. -/
theorem StablePair.roots {a1 a2 : ℝ} (h : StablePair a1 a2) :
    ∃ p q : ℂ, p + q = -a1 ∧ p * q = a2 ∧ ‖p‖ < 1 ∧ ‖q‖ < 1 := by
  obtain ⟨h2, h1⟩ := h
  rw [abs_lt] at h2
  by_cases hD : 0 ≤ a1 ^ 2 - 4 * a2
  · -- real roots
    set D := Real.sqrt (a1 ^ 2 - 4 * a2) with hDdef
    have hDsq : D ^ 2 = a1 ^ 2 - 4 * a2 := Real.sq_sqrt hD
    have hD0 : 0 ≤ D := Real.sqrt_nonneg _
    have hDlt : D < 2 - |a1| := by
      have h3 : 0 < 2 - |a1| := by linarith
      have h4 : D ^ 2 < (2 - |a1|) ^ 2 := by
        rw [hDsq]
        have := sq_abs a1
        nlinarith
      exact lt_of_pow_lt_pow_left₀ 2 h3.le h4
    have ha := abs_le.mp (le_refl |a1|)
    refine ⟨(((-a1 + D) / 2 : ℝ) : ℂ), (((-a1 - D) / 2 : ℝ) : ℂ), ?_, ?_, ?_, ?_⟩
    · push_cast; ring
    · rw [← Complex.ofReal_mul]
      congr 1
      linear_combination (-1 / 4 : ℝ) * hDsq
    · rw [Complex.norm_real, Real.norm_eq_abs, abs_lt]; constructor <;> linarith
    · rw [Complex.norm_real, Real.norm_eq_abs, abs_lt]; constructor <;> linarith
  · -- complex conjugate roots
    push Not at hD
    set D := Real.sqrt (4 * a2 - a1 ^ 2) with hDdef
    have hDsq : D ^ 2 = 4 * a2 - a1 ^ 2 := Real.sq_sqrt (by linarith)
    have hnorm : ∀ s : ℝ, s ^ 2 = 1 → ‖(⟨-a1 / 2, s * D / 2⟩ : ℂ)‖ < 1 := by
      intro s hs
      have : Complex.normSq (⟨-a1 / 2, s * D / 2⟩ : ℂ) < 1 := by
        rw [Complex.normSq_mk]
        nlinarith
      rw [← Complex.sq_norm] at this
      have h0 := norm_nonneg (⟨-a1 / 2, s * D / 2⟩ : ℂ)
      nlinarith
    refine ⟨⟨-a1 / 2, 1 * D / 2⟩, ⟨-a1 / 2, (-1) * D / 2⟩, ?_, ?_, hnorm 1 (by norm_num), hnorm (-1) (by norm_num)⟩
    · apply Complex.ext
      · simp
      · simp; ring
    · apply Complex.ext
      · simp; nlinarith
      · simp; ring

/-! ## Order two -/

/-- Bound for a driven second-order recurrence. -/
theorem second_order_bound {a1 a2 : ℝ} (h : StablePair a1 a2) :
    ∃ K, 0 ≤ K ∧ ∀ (v w : ℕ → ℝ) (W : ℝ), (∀ n, v (n + 2) = -a1 * v (n + 1) - a2 * v n + w n) → (∀ n, |w n| ≤ W) →
      ∀ n, |v n| ≤ K * (|v 0| + |v 1| + W) := by
  obtain ⟨p, q, hs, hm, hp, hq⟩ := h.roots
  have h1 : 0 < 1 - ‖p‖ := by linarith
  have h2 : 0 < 1 - ‖q‖ := by linarith
  refine ⟨1 + (2 + 1 / (1 - ‖q‖)) / (1 - ‖p‖), by positivity, ?_⟩
  intro v w W hv hw n
  have hW : 0 ≤ W := (abs_nonneg _).trans (hw 0)
  -- u n = v (n+1) - p v n
  have hu : ∀ n, ((v (n + 2) : ℂ) - p * v (n + 1)) = q * (v (n + 1) - p * v n) + w n := by
    intro n
    rw [hv n]
    push_cast
    linear_combination (-(v (n + 1) : ℂ)) * hs + (v n : ℂ) * hm
  have hub := fun n => first_order_bound (e := fun n => (v (n + 1) : ℂ) - p * v n) (w := fun n => (w n : ℂ)) (W := W) hq hu
    (fun n => by rw [Complex.norm_real]; exact hw n) n
  have hvb := first_order_bound (e := fun n => (v n : ℂ)) (w := fun n => (v (n + 1) : ℂ) - p * v n) hp
    (fun n => by ring) hub n
  simp only [Complex.norm_real, Real.norm_eq_abs, zero_add] at hvb
  have hu0 : ‖(v 1 : ℂ) - p * v 0‖ ≤ |v 1| + |v 0| := by
    refine (norm_sub_le _ _).trans ?_
    rw [norm_mul, Complex.norm_real, Complex.norm_real, Real.norm_eq_abs, Real.norm_eq_abs]
    have := abs_nonneg (v 0); nlinarith
  refine hvb.trans ?_
  have h0 := abs_nonneg (v 0)
  have h0' := abs_nonneg (v 1)
  have e1 : (‖(v 1 : ℂ) - p * v 0‖ + W / (1 - ‖q‖)) / (1 - ‖p‖) ≤
      ((2 + 1 / (1 - ‖q‖)) * (|v 0| + |v 1| + W)) / (1 - ‖p‖) := by
    apply div_le_div_of_nonneg_right _ h1.le
    have : W / (1 - ‖q‖) = 1 / (1 - ‖q‖) * W := by ring
    rw [this]
    have h3 : 0 ≤ 1 / (1 - ‖q‖) := by positivity
    nlinarith [mul_nonneg h3 h0, mul_nonneg h3 h0']
  have e2 : ((2 + 1 / (1 - ‖q‖)) * (|v 0| + |v 1| + W)) / (1 - ‖p‖) =
      (2 + 1 / (1 - ‖q‖)) / (1 - ‖p‖) * (|v 0| + |v 1| + W) := by ring
  linarith

/-- A stable second-order recurrence whose drive dies away dies away. -/
theorem second_order_tendsto {a1 a2 : ℝ} (h : StablePair a1 a2) {v w : ℕ → ℝ}
    (hv : ∀ n, v (n + 2) = -a1 * v (n + 1) - a2 * v n + w n) (hw : Tendsto w atTop (𝓝 0)) : Tendsto v atTop (𝓝 0) := by
  obtain ⟨p, q, hs, hm, hp, hq⟩ := h.roots
  have hu : ∀ n, ((v (n + 2) : ℂ) - p * v (n + 1)) = q * (v (n + 1) - p * v n) + w n := by
    intro n
    rw [hv n]
    push_cast
    linear_combination (-(v (n + 1) : ℂ)) * hs + (v n : ℂ) * hm
  have hwc : Tendsto (fun n => (w n : ℂ)) atTop (𝓝 0) := by
    have := (Complex.continuous_ofReal.tendsto 0).comp hw
    simpa [Function.comp_def] using this
  have h1 := first_order_tendsto (e := fun n => (v (n + 1) : ℂ) - p * v n) hq hu hwc
  have h2 := first_order_tendsto (e := fun n => (v n : ℂ)) (w := fun n => (v (n + 1) : ℂ) - p * v n) hp
    (fun n => by ring) h1
  have h3 := (Complex.continuous_re.tendsto 0).comp h2
  simpa [Function.comp_def] using h3

end Rasp
