import Verif.Lemmas.Response
import Mathlib.Analysis.Fourier.AddCircle

/-!
# Energy of a filter's output, by Parseval's theorem
-/

namespace Rasp
open Filter Topology Finset

/-! ## Summable responses -/

theorem first_order_summable {e : ℕ → ℂ} {p : ℂ} {w : ℕ → ℂ} (hp : ‖p‖ < 1) (he : ∀ n, e (n + 1) = p * e n + w n)
    (hw : Summable fun n => ‖w n‖) : Summable fun n => ‖e n‖ := by
  have h1 : 0 < 1 - ‖p‖ := by linarith
  refine summable_of_sum_range_le (c := (‖e 0‖ + ∑' n, ‖w n‖) / (1 - ‖p‖)) (fun _ => norm_nonneg _) fun n => ?_
  rw [le_div_iff₀ h1]
  have h2 : ∑ i ∈ range (n + 1), ‖e i‖ ≤ ‖p‖ * ∑ i ∈ range n, ‖e i‖ + ∑' n, ‖w n‖ + ‖e 0‖ := by
    rw [sum_range_succ']
    have h3 : ∑ i ∈ range n, ‖e (i + 1)‖ ≤ ∑ i ∈ range n, (‖p‖ * ‖e i‖ + ‖w i‖) := by
      apply sum_le_sum
      intro i _
      rw [he, ← norm_mul]
      exact norm_add_le _ _
    rw [sum_add_distrib, ← mul_sum] at h3
    have h4 := hw.sum_le_tsum (range n) (fun _ _ => norm_nonneg _)
    linarith
  have h3 : ∑ i ∈ range n, ‖e i‖ ≤ ∑ i ∈ range (n + 1), ‖e i‖ := by
    rw [sum_range_succ]
    linarith [norm_nonneg (e n)]
  linarith

theorem second_order_summable {a1 a2 : ℝ} (h : StablePair a1 a2) {v w : ℕ → ℝ}
    (hv : ∀ n, v (n + 2) = -a1 * v (n + 1) - a2 * v n + w n) (hw : Summable fun n => |w n|) : Summable fun n => |v n| := by
  obtain ⟨p, q, hs, hm, hp, hq⟩ := h.roots
  have hu : ∀ n, ((v (n + 2) : ℂ) - p * v (n + 1)) = q * (v (n + 1) - p * v n) + w n := by
    intro n
    rw [hv n]
    push_cast
    linear_combination (-(v (n + 1) : ℂ)) * hs + (v n : ℂ) * hm
  have h1 := first_order_summable (e := fun n => (v (n + 1) : ℂ) - p * v n) (w := fun n => (w n : ℂ)) hq hu
    (by simpa [Complex.norm_real] using hw)
  have h2 := first_order_summable (e := fun n => (v n : ℂ)) (w := fun n => (v (n + 1) : ℂ) - p * v n) hp
    (fun n => by ring) h1
  simpa [Complex.norm_real] using h2

theorem SolvesDiff.summable {b0 b1 b2 a1 a2 : ℝ} {x y : ℕ → ℝ} (hs : StablePair a1 a2) (h : SolvesDiff b0 b1 b2 a1 a2 x y)
    (hx : Summable fun n => |x n|) : Summable fun n => |y n| := by
  rw [← solvesDiffFrom_zero] at h
  refine second_order_summable hs (w := fun n => b0 * x (n + 2) + b1 * x (n + 1) + b2 * x n) (fun n => ?_) ?_
  · rw [h.tail]; ring
  · have hx' : Summable x := hx.of_abs
    apply Summable.abs
    exact (((summable_nat_add_iff 2).mpr hx').mul_left b0 |>.add (((summable_nat_add_iff 1).mpr hx').mul_left b1)).add
      (hx'.mul_left b2)

/-! ## The spectrum of a summable stream -/

local instance : Fact (0 < 2 * Real.pi) := ⟨Real.two_pi_pos⟩

/-- `∑ y n e^(-i n t)`. -/
noncomputable def spectrum (y : ℕ → ℝ) : C(AddCircle (2 * Real.pi), ℂ) := ∑' n : ℕ, (y n : ℂ) • fourier (-(n : ℤ))

variable {x y : ℕ → ℝ}

theorem spectrum_hasSum (h : Summable fun n => |y n|) :
    HasSum (fun n : ℕ => (y n : ℂ) • fourier (T := 2 * Real.pi) (-(n : ℤ))) (spectrum y) := by
  apply Summable.hasSum
  apply Summable.of_norm
  refine h.congr fun n => ?_
  rw [norm_smul, fourier_norm, mul_one, Complex.norm_real, Real.norm_eq_abs]

theorem fourier_neg_nat (n : ℕ) (w : ℝ) :
    fourier (T := 2 * Real.pi) (-(n : ℤ)) (w : AddCircle (2 * Real.pi)) = Complex.exp (-(w * Complex.I)) ^ n := by
  rw [fourier_coe_apply, ← Complex.exp_nat_mul]
  congr 1
  have : (Real.pi : ℂ) ≠ 0 := by exact_mod_cast Real.pi_ne_zero
  push_cast
  field_simp

theorem spectrum_apply (h : Summable fun n => |y n|) (w : ℝ) :
    HasSum (fun n : ℕ => (y n : ℂ) * Complex.exp (-(w * Complex.I)) ^ n) (spectrum y (w : AddCircle (2 * Real.pi))) := by
  have := ContinuousMap.hasSum_apply (spectrum_hasSum h) (w : AddCircle (2 * Real.pi))
  simpa only [ContinuousMap.smul_apply, fourier_neg_nat, smul_eq_mul] using this

/-- Parseval. -/
theorem spectrum_norm (h : Summable fun n => |y n|) :
    HasSum (fun n => y n ^ 2) (‖ContinuousMap.toLp (E := ℂ) 2 (AddCircle.haarAddCircle (T := 2 * Real.pi)) ℂ (spectrum y)‖ ^ 2) := by
  set μ := AddCircle.haarAddCircle (T := 2 * Real.pi)
  have h1 : HasSum (fun n : ℕ => (y n : ℂ) • fourierLp (T := 2 * Real.pi) 2 (-(n : ℤ)))
      (ContinuousMap.toLp (E := ℂ) 2 μ ℂ (spectrum y)) := by
    have := (spectrum_hasSum h).mapL (ContinuousMap.toLp (E := ℂ) 2 μ ℂ)
    simpa only [map_smul] using this
  have ho : Orthonormal ℂ fun n : ℕ => fourierLp (T := 2 * Real.pi) 2 (-(n : ℤ)) :=
    orthonormal_fourier.comp _ (fun a b hab => by simpa using hab)
  have hfin : ∀ s : Finset ℕ, ‖∑ n ∈ s, (y n : ℂ) • fourierLp (T := 2 * Real.pi) 2 (-(n : ℤ))‖ ^ 2 = ∑ n ∈ s, y n ^ 2 := by
    intro s
    have := ho.inner_sum (fun n => (y n : ℂ)) (fun n => (y n : ℂ)) s
    rw [inner_self_eq_norm_sq_to_K] at this
    have h2 : ((∑ n ∈ s, y n ^ 2 : ℝ) : ℂ) = ∑ n ∈ s, (starRingEnd ℂ) (y n : ℂ) * (y n : ℂ) := by
      push_cast
      refine sum_congr rfl fun n _ => ?_
      rw [Complex.conj_ofReal]; ring
    rw [← h2] at this
    have h3 := congrArg Complex.re this
    rw [Complex.ofReal_re, ← RCLike.ofReal_pow] at h3
    exact h3
  unfold HasSum at h1 ⊢
  have := (h1.norm).pow 2
  exact this.congr fun s => hfin s

/-- The spectrum of the output is the spectrum of the input times the frequency response. -/
theorem SolvesDiff.spectrum_mul {b0 b1 b2 a1 a2 : ℝ} (hs : StablePair a1 a2) (h : SolvesDiff b0 b1 b2 a1 a2 x y)
    (hx : Summable fun n => |x n|) (w : ℝ) :
    spectrum y (w : AddCircle (2 * Real.pi)) = freqResponse b0 b1 b2 a1 a2 w * spectrum x (w : AddCircle (2 * Real.pi)) := by
  have hy := h.summable hs hx
  have hX := spectrum_apply hx w
  have hY := spectrum_apply hy w
  rw [freqResponse_eq, div_mul_eq_mul_div, eq_div_iff (hs.poly_ne_zero w)]
  rw [poly_eq, poly_eq, Complex.ofReal_one]
  set z := Complex.exp (-(w * Complex.I)) with hz
  have shift : ∀ {u : ℕ → ℝ} {S : ℂ}, HasSum (fun n : ℕ => (u n : ℂ) * z ^ n) S → ∀ k,
      HasSum (fun n : ℕ => ((lag u k n : ℝ) : ℂ) * z ^ n) (z ^ k * S) := by
    intro u S hu k
    rw [← hasSum_nat_add_iff' k, sum_eq_zero, sub_zero]
    · refine (hu.mul_left (z ^ k)).congr_fun fun n => ?_
      rw [show lag u k (n + k) = u n by simp [lag], pow_add]
      ring
    · intro n hn
      have := mem_range.mp hn
      simp [lag, show ¬ k ≤ n by omega]
  have hd : ∀ n, ((y n : ℝ) : ℂ) * z ^ n = b0 * (x n * z ^ n) + b1 * (((lag x 1 n : ℝ) : ℂ) * z ^ n) +
      b2 * (((lag x 2 n : ℝ) : ℂ) * z ^ n) - a1 * (((lag y 1 n : ℝ) : ℂ) * z ^ n) - a2 * (((lag y 2 n : ℝ) : ℂ) * z ^ n) := by
    intro n
    rw [h n]
    push_cast
    ring
  have key := ((((hX.mul_left (b0 : ℂ)).add ((shift hX 1).mul_left (b1 : ℂ))).add ((shift hX 2).mul_left (b2 : ℂ))).sub
    ((shift hY 1).mul_left (a1 : ℂ))).sub ((shift hY 2).mul_left (a2 : ℂ))
  have := hY.unique (key.congr_fun hd)
  linear_combination this

section
variable {b0 b1 b2 a1 a2 lo hi : ℝ}

/-- Energy of the response to a summable stream. -/
theorem SolvesDiff.energy_summable (hs : StablePair a1 a2) (h : SolvesDiff b0 b1 b2 a1 a2 x y)
    (hx : Summable fun n => |x n|) (h0 : 0 ≤ lo) (hH : ∀ w, lo ≤ ‖freqResponse b0 b1 b2 a1 a2 w‖ ∧ ‖freqResponse b0 b1 b2 a1 a2 w‖ ≤ hi) :
    ∃ X Y, HasSum (fun n => x n ^ 2) X ∧ HasSum (fun n => y n ^ 2) Y ∧ lo ^ 2 * X ≤ Y ∧ Y ≤ hi ^ 2 * X := by
  refine ⟨_, _, spectrum_norm hx, spectrum_norm (h.summable hs hx), ?_, ?_⟩
  all_goals rw [← mul_pow]
  · refine pow_le_pow_left₀ (mul_nonneg h0 (norm_nonneg _)) ?_ 2
    rcases h0.eq_or_lt with rfl | hpos
    · rw [zero_mul]; exact norm_nonneg _
    rw [← le_div_iff₀' hpos, div_eq_inv_mul]
    refine MeasureTheory.Lp.norm_le_mul_norm_of_ae_le_mul ?_
    filter_upwards [ContinuousMap.coeFn_toLp (p := 2) (𝕜 := ℂ) AddCircle.haarAddCircle (spectrum x),
      ContinuousMap.coeFn_toLp (p := 2) (𝕜 := ℂ) AddCircle.haarAddCircle (spectrum y)] with t e1 e2
    rw [e1, e2]
    obtain ⟨w, rfl⟩ := QuotientAddGroup.mk_surjective t
    rw [← div_eq_inv_mul, le_div_iff₀' hpos]
    have := h.spectrum_mul hs hx w
    show lo * ‖spectrum x (w : AddCircle (2 * Real.pi))‖ ≤ ‖spectrum y (w : AddCircle (2 * Real.pi))‖
    rw [this, norm_mul]
    exact mul_le_mul_of_nonneg_right (hH w).1 (norm_nonneg _)
  · refine pow_le_pow_left₀ (norm_nonneg _) ?_ 2
    refine MeasureTheory.Lp.norm_le_mul_norm_of_ae_le_mul ?_
    filter_upwards [ContinuousMap.coeFn_toLp (p := 2) (𝕜 := ℂ) AddCircle.haarAddCircle (spectrum x),
      ContinuousMap.coeFn_toLp (p := 2) (𝕜 := ℂ) AddCircle.haarAddCircle (spectrum y)] with t e1 e2
    rw [e1, e2]
    obtain ⟨w, rfl⟩ := QuotientAddGroup.mk_surjective t
    have := h.spectrum_mul hs hx w
    show ‖spectrum y (w : AddCircle (2 * Real.pi))‖ ≤ hi * ‖spectrum x (w : AddCircle (2 * Real.pi))‖
    rw [this, norm_mul]
    exact mul_le_mul_of_nonneg_right (hH w).2 (norm_nonneg _)

/-- The first samples of a stream, then silence. -/
def cut (n : ℕ) (x : ℕ → ℝ) (k : ℕ) : ℝ := if k < n then x k else 0

theorem cut_summable (n : ℕ) (x : ℕ → ℝ) : Summable fun k => |cut n x k| :=
  summable_of_hasFiniteSupport ((finite_toSet (range n)).subset fun k hk => by
    by_contra hn
    have : ¬ k < n := fun h => hn (by simpa using h)
    exact hk (by simp [cut, this]))

theorem cut_sq_hasSum (n : ℕ) (x : ℕ → ℝ) : HasSum (fun k => cut n x k ^ 2) (∑ k ∈ range n, x k ^ 2) := by
  have : HasSum (fun k => cut n x k ^ 2) (∑ k ∈ range n, cut n x k ^ 2) :=
    hasSum_sum_of_ne_finset_zero (fun k hk => by simp [cut, show ¬ k < n by simpa using hk])
  rwa [sum_congr rfl fun k hk => by rw [cut, if_pos (mem_range.mp hk)]] at this

/-- Later samples have no influence on earlier ones. -/
theorem SolvesDiff.causal {u v : ℕ → ℝ} (h : SolvesDiff b0 b1 b2 a1 a2 x y) (h' : SolvesDiff b0 b1 b2 a1 a2 u v) (n : ℕ)
    (hx : ∀ k < n, x k = u k) : ∀ k < n, y k = v k := by
  have hl : ∀ (p q : ℕ → ℝ) (j k : ℕ), (∀ i ≤ k - j, p i = q i) → lag p j k = lag q j k := by
    intro p q j k hpq
    unfold lag
    split
    · exact hpq _ le_rfl
    · rfl
  intro k
  induction k using Nat.strong_induction_on with
  | _ k ih =>
    intro hk
    rw [h k, h' k, hx k hk, hl x u 1 k (fun i hi => hx i (by omega)), hl x u 2 k (fun i hi => hx i (by omega))]
    rcases Nat.eq_zero_or_pos k with rfl | hpos
    · simp [lag]
    · rw [hl y v 1 k (fun i hi => ih i (by omega) (by omega))]
      rcases Nat.lt_or_ge k 2 with h2 | h2
      · simp [lag, show ¬ 2 ≤ k by omega]
      · rw [hl y v 2 k (fun i hi => ih i (by omega) (by omega))]

/-- Up to every moment, the output has at most `hi ^ 2` times the energy of the input. -/
theorem SolvesDiff.energy_prefix (hs : StablePair a1 a2) (h : SolvesDiff b0 b1 b2 a1 a2 x y)
    (hH : ∀ w, ‖freqResponse b0 b1 b2 a1 a2 w‖ ≤ hi) (n : ℕ) :
    ∑ k ∈ range n, y k ^ 2 ≤ hi ^ 2 * ∑ k ∈ range n, x k ^ 2 := by
  have hv := solvesDiffFrom_zero.mp (solveDiff_solves 0 0 b0 b1 b2 a1 a2 (cut n x))
  set v := solveDiff 0 0 b0 b1 b2 a1 a2 (cut n x)
  obtain ⟨X, Y, hX, hY, -, hle⟩ := hv.energy_summable hs (cut_summable n x) (lo := 0) le_rfl (fun w => ⟨norm_nonneg _, hH w⟩)
  rw [hX.unique (cut_sq_hasSum n x)] at hle
  refine le_trans ?_ hle
  have heq : ∑ k ∈ range n, y k ^ 2 = ∑ k ∈ range n, v k ^ 2 := sum_congr rfl fun k hk => by
    rw [h.causal hv n (fun j hj => by simp [cut, hj]) k (by simpa using hk)]
  rw [heq]
  exact sum_le_hasSum _ (fun _ _ => sq_nonneg _) hY

/-- Energy of the response to a stream of finite energy. -/
theorem SolvesDiff.energy (hs : StablePair a1 a2) (h : SolvesDiff b0 b1 b2 a1 a2 x y)
    (h0 : 0 ≤ lo) (hH : ∀ w, lo ≤ ‖freqResponse b0 b1 b2 a1 a2 w‖ ∧ ‖freqResponse b0 b1 b2 a1 a2 w‖ ≤ hi) {X : ℝ}
    (hx : HasSum (fun n => x n ^ 2) X) : ∃ Y, HasSum (fun n => y n ^ 2) Y ∧ lo ^ 2 * X ≤ Y ∧ Y ≤ hi ^ 2 * X := by
  have hi0 : 0 ≤ hi := (norm_nonneg _).trans (hH 0).2
  have hup : ∀ n, ∑ k ∈ range n, y k ^ 2 ≤ hi ^ 2 * X := fun n =>
    (h.energy_prefix hs (fun w => (hH w).2) n).trans
      (mul_le_mul_of_nonneg_left (sum_le_hasSum _ (fun _ _ => sq_nonneg _) hx) (by positivity))
  have hsum : Summable fun n => y n ^ 2 := summable_of_sum_range_le (fun _ => sq_nonneg _) hup
  refine ⟨∑' n, y n ^ 2, hsum.hasSum, ?_, hsum.tsum_le_of_sum_range_le hup⟩
  set Y := ∑' n, y n ^ 2
  -- compare with the response to the first `n` samples
  have main : ∀ ε : ℝ, 0 < ε → lo ^ 2 * X ≤ (1 + ε) * Y := by
    intro ε hε
    have step : ∀ n, lo ^ 2 * ∑ k ∈ range n, x k ^ 2 ≤ (1 + ε) * Y + (1 + ε⁻¹) * (hi ^ 2 * (X - ∑ k ∈ range n, x k ^ 2)) := by
      intro n
      have hv := solvesDiffFrom_zero.mp (solveDiff_solves 0 0 b0 b1 b2 a1 a2 (cut n x))
      set v := solveDiff 0 0 b0 b1 b2 a1 a2 (cut n x)
      obtain ⟨X', V, hX', hV, hle, -⟩ := hv.energy_summable hs (cut_summable n x) h0 hH
      rw [hX'.unique (cut_sq_hasSum n x)] at hle
      have hd : SolvesDiff b0 b1 b2 a1 a2 (fun k => 1 * x k + (-1) * cut n x k) (fun k => 1 * y k + (-1) * v k) := h.linear hv 1 (-1)
      have hdx : HasSum (fun k => (1 * x k + (-1) * cut n x k) ^ 2) (X - ∑ k ∈ range n, x k ^ 2) := by
        refine (hx.sub (cut_sq_hasSum n x)).congr_fun fun k => ?_
        unfold cut
        split <;> ring
      have hD : ∀ m, ∑ k ∈ range m, (1 * y k + (-1) * v k) ^ 2 ≤ hi ^ 2 * (X - ∑ k ∈ range n, x k ^ 2) := fun m =>
        (hd.energy_prefix hs (fun w => (hH w).2) m).trans
          (mul_le_mul_of_nonneg_left (sum_le_hasSum _ (fun _ _ => sq_nonneg _) hdx) (by positivity))
      refine hle.trans ?_
      rw [← hV.tsum_eq]
      refine hV.summable.tsum_le_of_sum_range_le fun m => ?_
      have hpt : ∀ k, v k ^ 2 ≤ (1 + ε) * y k ^ 2 + (1 + ε⁻¹) * (1 * y k + (-1) * v k) ^ 2 := by
        intro k
        have h1 : (1 + ε) * y k ^ 2 + (1 + ε⁻¹) * (1 * y k + (-1) * v k) ^ 2 - v k ^ 2 =
            ε⁻¹ * (ε * y k + (y k - v k)) ^ 2 := by
          field_simp
          ring
        have h2 : 0 ≤ ε⁻¹ * (ε * y k + (y k - v k)) ^ 2 := by positivity
        linarith
      refine (sum_le_sum fun k _ => hpt k).trans ?_
      rw [sum_add_distrib, ← mul_sum, ← mul_sum]
      have e1 : ∑ k ∈ range m, y k ^ 2 ≤ Y := hsum.sum_le_tsum _ (fun _ _ => sq_nonneg _)
      exact add_le_add (mul_le_mul_of_nonneg_left e1 (by positivity)) (mul_le_mul_of_nonneg_left (hD m) (by positivity))
    have t1 : Tendsto (fun n => ∑ k ∈ range n, x k ^ 2) atTop (𝓝 X) := hx.tendsto_sum_nat
    have t2 : Tendsto (fun n => lo ^ 2 * ∑ k ∈ range n, x k ^ 2) atTop (𝓝 (lo ^ 2 * X)) := t1.const_mul _
    have t3 : Tendsto (fun n => (1 + ε) * Y + (1 + ε⁻¹) * (hi ^ 2 * (X - ∑ k ∈ range n, x k ^ 2))) atTop
        (𝓝 ((1 + ε) * Y + (1 + ε⁻¹) * (hi ^ 2 * (X - X)))) :=
      (((t1.const_sub X).const_mul _).const_mul _).const_add _
    have := le_of_tendsto_of_tendsto' t2 t3 step
    simpa using this
  have t4 : Tendsto (fun ε : ℝ => (1 + ε) * Y) (𝓝[>] 0) (𝓝 ((1 + 0) * Y)) :=
    (((continuous_const.add continuous_id).mul continuous_const).tendsto 0).mono_left nhdsWithin_le_nhds
  have := ge_of_tendsto t4 (eventually_nhdsWithin_of_forall fun ε hε => main ε hε)
  simpa using this

end

end Rasp
