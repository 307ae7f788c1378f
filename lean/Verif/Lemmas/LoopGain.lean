import Verif.Props.Convolution
import Mathlib.RingTheory.PowerSeries.Inverse
import Mathlib.Analysis.InnerProductSpace.PiL2
import Mathlib.Analysis.SpecificLimits.Basic

/-!
# Loops whose energy gain is below one

A loop feeds back what a kernel `k` makes of it: `u = x + k * u`. When `k` decays exponentially and multiplies energy by less than one,
the loop's own impulse response decays exponentially.
-/

namespace Rasp
open Finset Filter

/-! ## The norm of the first samples -/

/-- The root of the energy of the first `N` samples. -/
noncomputable def rootEnergy (N : ℕ) (x : ℕ → ℝ) : ℝ := √(∑ n ∈ range N, x n ^ 2)

/-- The first `N` samples as a vector. -/
def firstSamples (N : ℕ) (x : ℕ → ℝ) : EuclideanSpace ℝ (Fin N) := WithLp.toLp 2 fun i => x i

theorem rootEnergy_eq_norm (N : ℕ) (x : ℕ → ℝ) : rootEnergy N x = ‖firstSamples N x‖ := by
  rw [EuclideanSpace.norm_eq, rootEnergy, ← Fin.sum_univ_eq_sum_range (fun n => x n ^ 2)]
  simp [firstSamples]

theorem rootEnergy_nonneg (N : ℕ) (x : ℕ → ℝ) : 0 ≤ rootEnergy N x := Real.sqrt_nonneg _

theorem rootEnergy_sq (N : ℕ) (x : ℕ → ℝ) : rootEnergy N x ^ 2 = ∑ n ∈ range N, x n ^ 2 :=
  Real.sq_sqrt (sum_nonneg fun _ _ => sq_nonneg _)

theorem rootEnergy_congr {N : ℕ} {x y : ℕ → ℝ} (h : ∀ n < N, x n = y n) : rootEnergy N x = rootEnergy N y := by
  unfold rootEnergy
  rw [sum_congr rfl fun n hn => by rw [h n (mem_range.mp hn)]]

theorem rootEnergy_add (N : ℕ) (x y : ℕ → ℝ) : rootEnergy N (fun n => x n + y n) ≤ rootEnergy N x + rootEnergy N y := by
  simp only [rootEnergy_eq_norm]
  exact norm_add_le (firstSamples N x) (firstSamples N y)

theorem rootEnergy_mul (N : ℕ) (g : ℝ) (x : ℕ → ℝ) : rootEnergy N (fun n => g * x n) = |g| * rootEnergy N x := by
  unfold rootEnergy
  simp only [mul_pow]
  rw [← mul_sum, Real.sqrt_mul (sq_nonneg g), Real.sqrt_sq_eq_abs]

theorem abs_le_rootEnergy {N n : ℕ} (h : n < N) (x : ℕ → ℝ) : |x n| ≤ rootEnergy N x := by
  rw [← Real.sqrt_sq_eq_abs]
  exact Real.sqrt_le_sqrt (single_le_sum (f := fun n => x n ^ 2) (fun _ _ => sq_nonneg _) (mem_range.mpr h))

theorem energy_lag (x : ℕ → ℝ) (j N : ℕ) : ∑ n ∈ range N, lag x j n ^ 2 = ∑ n ∈ range (N - j), x n ^ 2 := by
  induction N with
  | zero => simp
  | succ N ih =>
    rw [sum_range_succ, ih]
    unfold lag
    split_ifs with h
    · rw [show N + 1 - j = N - j + 1 by omega, sum_range_succ]
    · rw [show N + 1 - j = 0 by omega, show N - j = 0 by omega]; simp

theorem rootEnergy_lag (N : ℕ) (x : ℕ → ℝ) (j : ℕ) : rootEnergy N (lag x j) ≤ rootEnergy N x := by
  unfold rootEnergy
  rw [energy_lag]
  exact Real.sqrt_le_sqrt (sum_le_sum_of_subset_of_nonneg (range_subset_range.mpr (Nat.sub_le _ _)) fun _ _ _ => sq_nonneg _)

theorem convolve_eq_sum_lag (k x : ℕ → ℝ) {n N : ℕ} (h : n < N) : convolve k x n = ∑ j ∈ range N, k j * lag x j n := by
  unfold convolve
  rw [← sum_subset (range_subset_range.mpr (by omega : n + 1 ≤ N)) (f := fun j => k j * lag x j n)]
  · refine sum_congr rfl fun j hj => ?_
    rw [mem_range] at hj
    rw [lag, if_pos (by omega)]
  · intro j _ hj
    rw [mem_range] at hj
    rw [lag, if_neg (by omega)]
    exact mul_zero _

theorem rootEnergy_sum (N : ℕ) {ι : Type} (s : Finset ι) (f : ι → ℕ → ℝ) :
    rootEnergy N (fun n => ∑ j ∈ s, f j n) ≤ ∑ j ∈ s, rootEnergy N (f j) := by
  classical
  induction s using Finset.induction_on with
  | empty => simp [rootEnergy]
  | insert a s ha ih =>
    simp only [sum_insert ha]
    exact (rootEnergy_add N _ _).trans (by linarith)

/-- Young's inequality: a kernel multiplies the norm by at most the sum of its magnitudes. -/
theorem rootEnergy_convolve (N : ℕ) (k x : ℕ → ℝ) : rootEnergy N (convolve k x) ≤ (∑ j ∈ range N, |k j|) * rootEnergy N x := by
  rw [rootEnergy_congr fun n hn => convolve_eq_sum_lag k x hn, sum_mul]
  refine (rootEnergy_sum N _ fun j n => k j * lag x j n).trans (sum_le_sum fun j _ => ?_)
  rw [rootEnergy_mul N (k j) (lag x j)]
  exact mul_le_mul_of_nonneg_left (rootEnergy_lag N x j) (abs_nonneg _)

/-! ## The response of a loop -/

/-- The impulse response of the loop `u = x + k * u`. -/
noncomputable def loopKernel (k : ℕ → ℝ) (n : ℕ) : ℝ := PowerSeries.coeff n (1 - PowerSeries.mk k)⁻¹

theorem mk_loopKernel (k : ℕ → ℝ) : PowerSeries.mk (loopKernel k) = (1 - PowerSeries.mk k)⁻¹ := by
  ext n; rw [PowerSeries.coeff_mk]; rfl

theorem mk_injective {x y : ℕ → ℝ} (h : PowerSeries.mk x = PowerSeries.mk y) : x = y := by
  funext n
  simpa using congrArg (PowerSeries.coeff n) h

theorem loopKernel_iff {k : ℕ → ℝ} (h0 : k 0 = 0) (x u : ℕ → ℝ) : (∀ n, u n = x n + convolve k u n) ↔ u = convolve (loopKernel k) x := by
  have hc : PowerSeries.constantCoeff (1 - PowerSeries.mk k) ≠ 0 := by
    rw [← PowerSeries.coeff_zero_eq_constantCoeff_apply]; simp [h0]
  have e : (∀ n, u n = x n + convolve k u n) ↔ PowerSeries.mk u = PowerSeries.mk x + PowerSeries.mk k * PowerSeries.mk u := by
    rw [← mk_convolve]
    constructor
    · intro h; ext n; simpa using h n
    · intro h n; simpa using congrArg (PowerSeries.coeff n) h
  rw [e]
  constructor
  · intro h
    apply mk_injective
    rw [mk_convolve, mk_loopKernel, show PowerSeries.mk x = (1 - PowerSeries.mk k) * PowerSeries.mk u by linear_combination -h, ← mul_assoc,
      PowerSeries.inv_mul_cancel _ hc, one_mul]
  · intro h
    have h1 : PowerSeries.mk u = (1 - PowerSeries.mk k)⁻¹ * PowerSeries.mk x := by rw [h, mk_convolve, mk_loopKernel]
    have h2 := PowerSeries.mul_inv_cancel _ hc
    linear_combination (1 - PowerSeries.mk k) * h1 + PowerSeries.mk x * h2

theorem loopKernel_eq {k : ℕ → ℝ} (h0 : k 0 = 0) (n : ℕ) : loopKernel k n = unitImpulse n + convolve k (loopKernel k) n :=
  (loopKernel_iff h0 unitImpulse (loopKernel k)).mpr (convolve_impulse _).symm n

theorem convolve_weighted (k x : ℕ → ℝ) (s : ℝ) (n : ℕ) :
    s ^ n * convolve k x n = convolve (fun j => s ^ j * k j) (fun j => s ^ j * x j) n := by
  unfold convolve
  rw [mul_sum]
  refine sum_congr rfl fun j hj => ?_
  rw [mem_range] at hj
  rw [show s ^ n = s ^ j * s ^ (n - j) by rw [← pow_add]; congr 1; omega]
  ring

/-- When the kernel decays exponentially and multiplies energy by less than one, the loop's impulse response decays exponentially. -/
theorem loopKernel_decays {k : ℕ → ℝ} {C r m : ℝ} (h0 : k 0 = 0) (hr0 : 0 ≤ r) (hr : r < 1) (hk : ∀ n, |k n| ≤ C * r ^ n) (hm : m < 1)
    (hE : ∀ x N, rootEnergy N (convolve k x) ≤ m * rootEnergy N x) :
    ∃ D t : ℝ, 0 ≤ D ∧ 0 ≤ t ∧ t < 1 ∧ ∀ n, |loopKernel k n| ≤ D * t ^ n := by
  have hC : 0 ≤ C := by simpa using (abs_nonneg _).trans (hk 0)
  have hcont : ContinuousAt (fun s : ℝ => C * ((1 - r * s)⁻¹ - (1 - r)⁻¹)) 1 := by
    refine ContinuousAt.mul continuousAt_const ((ContinuousAt.inv₀ (by fun_prop) ?_).sub continuousAt_const)
    linarith
  have hev : ∀ᶠ s : ℝ in nhds 1, C * ((1 - r * s)⁻¹ - (1 - r)⁻¹) < 1 - m ∧ r * s < 1 := by
    refine (hcont.eventually_lt continuousAt_const ?_).and ((by fun_prop : ContinuousAt (fun s : ℝ => r * s) 1).eventually_lt continuousAt_const ?_)
    · rw [mul_one, sub_self, mul_zero]; linarith
    · linarith
  obtain ⟨s, ⟨hs1, hrs⟩, hs⟩ := ((hev.filter_mono nhdsWithin_le_nhds).and (self_mem_nhdsWithin (a := (1 : ℝ)) (s := Set.Ioi 1))).exists
  have hs0 : 0 < s := by linarith
  set δ := C * ((1 - r * s)⁻¹ - (1 - r)⁻¹) with hδ
  have hsum : ∀ N, ∑ j ∈ range N, |(s ^ j - 1) * k j| ≤ δ := by
    intro N
    have hg : HasSum (fun j => C * ((r * s) ^ j - r ^ j)) δ :=
      ((hasSum_geometric_of_lt_one (by positivity) hrs).sub (hasSum_geometric_of_lt_one hr0 hr)).mul_left C
    have h1 : ∀ j, 1 ≤ s ^ j := fun j => one_le_pow₀ hs.le
    refine (sum_le_sum fun j _ => ?_).trans (sum_le_hasSum (range N) (fun j _ => ?_) hg)
    · rw [abs_mul, abs_of_nonneg (by linarith [h1 j])]
      refine (mul_le_mul_of_nonneg_left (hk j) (by linarith [h1 j])).trans (le_of_eq ?_)
      rw [mul_pow]; ring
    · rw [mul_pow]
      have : 0 ≤ r ^ j := by positivity
      refine mul_nonneg hC ?_
      nlinarith [h1 j]
  set e := loopKernel k with he
  have hle : ∀ N, rootEnergy N (fun n => s ^ n * e n) ≤ 1 / (1 - m - δ) := by
    intro N
    set E := rootEnergy N (fun n => s ^ n * e n) with hEd
    have q1 : ∀ n, s ^ n * e n = unitImpulse n + (convolve k (fun j => s ^ j * e j) n + convolve (fun j => (s ^ j - 1) * k j) (fun j => s ^ j * e j) n) := by
      intro n
      have h2 : s ^ n * unitImpulse n = unitImpulse n := by
        unfold unitImpulse; split_ifs with h
        · rw [h]; norm_num
        · rw [mul_zero]
      rw [he, loopKernel_eq h0 n, mul_add, h2, ← he, convolve_weighted]
      congr 1
      unfold convolve
      rw [← sum_add_distrib]
      exact sum_congr rfl fun j _ => by ring
    have q2 : E ≤ rootEnergy N unitImpulse + (m * E + δ * E) := by
      refine (le_of_eq (rootEnergy_congr fun n _ => q1 n)).trans ?_
      refine (rootEnergy_add N _ _).trans (add_le_add le_rfl ((rootEnergy_add N _ _).trans (add_le_add (hE _ _) ?_)))
      exact (rootEnergy_convolve N _ _).trans (mul_le_mul_of_nonneg_right (hsum N) (rootEnergy_nonneg _ _))
    have q3 : rootEnergy N unitImpulse ≤ 1 := by
      unfold rootEnergy
      rw [Real.sqrt_le_one]
      refine (sum_le_sum (g := fun n => if n = 0 then (1 : ℝ) else 0) fun n _ => ?_).trans ?_
      · unfold unitImpulse; split_ifs <;> norm_num
      · rw [sum_ite_eq' (range N) 0 fun _ => (1 : ℝ)]; split_ifs <;> norm_num
    rw [le_div_iff₀ (by linarith)]
    linarith
  refine ⟨1 / (1 - m - δ), s⁻¹, one_div_nonneg.mpr (by linarith), by positivity, inv_lt_one_of_one_lt₀ hs, fun n => ?_⟩
  have h3 := (abs_le_rootEnergy (Nat.lt_succ_self n) fun n => s ^ n * e n).trans (hle _)
  rw [abs_mul, abs_of_pos (by positivity)] at h3
  rw [inv_pow, ← div_eq_mul_inv, le_div_iff₀ (by positivity), mul_comm]
  exact h3

/-! ## Impulse responses of difference equations -/

theorem StablePair.stretch {a1 a2 : ℝ} (h : StablePair a1 a2) : ∃ s : ℝ, 1 < s ∧ StablePair (s * a1) (s ^ 2 * a2) := by
  have hev : ∀ᶠ s : ℝ in nhds 1, |s ^ 2 * a2| < 1 ∧ |s * a1| < 1 + s ^ 2 * a2 := by
    refine (ContinuousAt.eventually_lt (by fun_prop) continuousAt_const ?_).and (ContinuousAt.eventually_lt (by fun_prop) (by fun_prop) ?_)
    · simpa using h.1
    · simpa using h.2
  obtain ⟨s, hs, h1⟩ := ((hev.filter_mono nhdsWithin_le_nhds).and (self_mem_nhdsWithin (a := (1 : ℝ)) (s := Set.Ioi 1))).exists
  exact ⟨s, h1, hs⟩

theorem lag_weighted (x : ℕ → ℝ) (s : ℝ) (j n : ℕ) : lag (fun i => s ^ i * x i) j n * s ^ j = s ^ n * lag x j n := by
  unfold lag
  split_ifs with h
  · rw [show s ^ n = s ^ (n - j) * s ^ j by rw [← pow_add]; congr 1; omega]; ring
  · simp

/-- The impulse response of a stable difference equation decays exponentially. -/
theorem SolvesDiff.decays {b0 b1 b2 a1 a2 : ℝ} (hs : StablePair a1 a2) {h : ℕ → ℝ} (hh : SolvesDiff b0 b1 b2 a1 a2 unitImpulse h) :
    ∃ C t : ℝ, 0 ≤ C ∧ 0 < t ∧ t < 1 ∧ ∀ n, |h n| ≤ C * t ^ n := by
  obtain ⟨s, h1, hst⟩ := hs.stretch
  have h0 : 0 < s := by linarith
  obtain ⟨K, hK, hb⟩ := SolvesDiffFrom.bound (b0 := b0) (b1 := s * b1) (b2 := s ^ 2 * b2) hst
  have hi : ∀ n, s ^ n * unitImpulse n = unitImpulse n := by
    intro n
    unfold unitImpulse; split_ifs with h
    · rw [h]; norm_num
    · rw [mul_zero]
  have hi' : (fun n => s ^ n * unitImpulse n) = unitImpulse := funext hi
  have hy : SolvesDiffFrom 0 0 b0 (s * b1) (s ^ 2 * b2) (s * a1) (s ^ 2 * a2) unitImpulse (fun n => s ^ n * h n) := by
    intro n
    have e1 := lag_weighted unitImpulse s 1 n
    have e2 := lag_weighted unitImpulse s 2 n
    rw [hi'] at e1 e2
    have e3 := lag_weighted h s 1 n
    have e4 := lag_weighted h s 2 n
    have e5 := hh n
    have e6 := hi n
    simp only [ite_self, add_zero]
    linear_combination s ^ n * e5 + b0 * e6 - b1 * e1 - b2 * e2 + a1 * e3 + a2 * e4
  have hx : ∀ n, |unitImpulse n| ≤ 1 := by intro n; unfold unitImpulse; split_ifs <;> norm_num
  refine ⟨K, s⁻¹, hK, by positivity, inv_lt_one_of_one_lt₀ h1, fun n => ?_⟩
  have := hb 0 0 _ _ 1 hy hx n
  rw [abs_zero, add_zero, zero_add, mul_one, abs_mul, abs_of_pos (by positivity)] at this
  rw [inv_pow, ← div_eq_mul_inv, le_div_iff₀ (by positivity), mul_comm]
  exact this

end Rasp
