import Verif.Props.Cosines
import Verif.Props.WindowSums
import Verif.Spec.Sidelobes
import Mathlib.Analysis.Real.Pi.Bounds

/-!
# Ratios between side lobes and main lobes (for C130)
-/

namespace Rasp
open Complex
variable {b : Build} {o : ℕ → Option ℝ}

/-! ## Symmetries of a spectrum -/

theorem dtft_shift (n : ℕ) (v : ℕ → ℝ) (θ : ℝ) (m : ℤ) : dtft n v (θ - 2 * Real.pi * m) = dtft n v θ := by
  unfold dtft
  refine Finset.sum_congr rfl fun i _ => ?_
  congr 1
  rw [show -(((θ - 2 * Real.pi * m : ℝ) : ℂ) * i * I) = -(θ * i * I) + ((m * i : ℤ) : ℂ) * (2 * Real.pi * I) by push_cast; ring,
    Complex.exp_add, Complex.exp_int_mul_two_pi_mul_I, mul_one]

theorem norm_dtft_neg (n : ℕ) (v : ℕ → ℝ) (θ : ℝ) : ‖dtft n v (-θ)‖ = ‖dtft n v θ‖ := by
  have : dtft n v (-θ) = (starRingEnd ℂ) (dtft n v θ) := by
    unfold dtft
    rw [map_sum]
    refine Finset.sum_congr rfl fun i _ => ?_
    rw [map_mul, Complex.conj_ofReal, ← Complex.exp_conj]
    congr 2
    simp
  rw [this, Complex.norm_conj]

/-- It is enough to look at `2c` radians per sample from the edge of the main lobe to half the sample rate. -/
theorem sidelobesBelow {n : ℕ} {v : ℕ → ℝ} {c₀ ρ : ℝ}
    (h : ∀ c, c₀ ≤ c → c ≤ Real.pi / 2 → ‖dtft n v (2 * c)‖ ≤ ρ * ∑ i ∈ Finset.range n, v i) : SidelobesBelow n v (2 * c₀) ρ := by
  intro θ hθ
  have hpi := Real.pi_pos
  have h1 := abs_sub_round (θ / (2 * Real.pi))
  have h2 : |θ - 2 * Real.pi * round (θ / (2 * Real.pi))| ≤ Real.pi := by
    rw [show θ - 2 * Real.pi * round (θ / (2 * Real.pi)) = 2 * Real.pi * (θ / (2 * Real.pi) - round (θ / (2 * Real.pi))) by field_simp,
      abs_mul, abs_of_pos (by positivity)]
    nlinarith
  have h3 := h (|θ - 2 * Real.pi * round (θ / (2 * Real.pi))| / 2) (by linarith [hθ (round (θ / (2 * Real.pi)))]) (by linarith)
  rw [← dtft_shift n v θ (round (θ / (2 * Real.pi)))]
  refine le_trans (le_of_eq ?_) h3
  rw [mul_div_cancel₀ _ (two_ne_zero)]
  rcases abs_choice (θ - 2 * Real.pi * round (θ / (2 * Real.pi))) with e | e <;> rw [e]
  rw [norm_dtft_neg]

/-! ## One step -/

/-- One bin, `d = π/N`, from 64 steps on. -/
theorem bin_facts {N : ℕ} (hN : 64 ≤ N) : 0 < Real.pi / N ∧ Real.pi / N ≤ 0.0491 ∧ 0 < Real.sin (Real.pi / N) ∧
    Real.sin (Real.pi / N) ≤ Real.pi / N ∧ 0.9995 * (Real.pi / N) ≤ Real.sin (Real.pi / N) ∧ Real.sin (Real.pi / N) ^ 2 ≤ 1 / 400 := by
  have hN' : (64 : ℝ) ≤ N := by exact_mod_cast hN
  have hpi := Real.pi_pos
  have h4 := Real.pi_lt_d4
  have hd : 0 < Real.pi / N := by positivity
  have hd1 : Real.pi / N ≤ 0.0491 := by
    rw [div_le_iff₀ (by linarith)]; linarith
  have h1 := Real.sin_ge_sub_cube hd.le
  have h2 := (Real.sin_lt hd).le
  generalize Real.pi / N = d at *
  have h3 : d ^ 2 ≤ 0.0491 ^ 2 := pow_le_pow_left₀ hd.le hd1 2
  have h5 : 0.9995 * d ≤ Real.sin d := by nlinarith
  refine ⟨hd, hd1, by linarith, h2, h5, ?_⟩
  have := pow_le_pow_left₀ (by linarith) h2 2
  linarith

/-- `sin c` from the edge of a lobe of `K ≤ 4` bins on. -/
theorem sin_edge {N K : ℕ} (hN : 64 ≤ N) (hK : K ≤ 4) {c : ℝ} (h1 : K * (Real.pi / N) ≤ c) (h2 : c ≤ Real.pi / 2) :
    (1 - 0.00042 * K ^ 2) * (K * (Real.pi / N)) ≤ Real.sin c ∧ Real.sin (K * (Real.pi / N)) ^ 2 ≤ Real.sin c ^ 2 := by
  obtain ⟨hd, hd1, -⟩ := bin_facts hN
  have hpi := Real.pi_gt_three
  have hK' : (K : ℝ) ≤ 4 := by exact_mod_cast hK
  have hK0 : (0 : ℝ) ≤ K := K.cast_nonneg
  have h0 : 0 ≤ K * (Real.pi / N) := by positivity
  have h3 := Real.sin_le_sin_of_le_of_le_pi_div_two (by linarith) h2 h1
  have h4 := Real.sin_ge_sub_cube h0
  have h5 := Real.sin_nonneg_of_nonneg_of_le_pi h0 (by linarith [Real.pi_pos])
  refine ⟨?_, pow_le_pow_left₀ h5 h3 2⟩
  refine le_trans ?_ h3
  refine le_trans ?_ h4
  generalize Real.pi / N = d at *
  have h6 : d ^ 2 ≤ 0.0491 ^ 2 := pow_le_pow_left₀ hd.le hd1 2
  have h7 : 0 ≤ (K : ℝ) ^ 3 * d := by positivity
  nlinarith

/-! ## Blackman and Blackman-Harris -/

theorem blackman_ratio {σ R : ℝ} (h0 : 0 ≤ σ) (h1 : σ ≤ 1 / 400) (hR : (3 - 4 * σ) ^ 2 ≤ R) :
    |0.42 * (4 * (1 - σ)) - (0.18 + 0.32 * σ) * R| ≤ 0.0069 * ((R - 1) * (R - 4 * (1 - σ))) := by
  have hR' : 8.94 ≤ R := by nlinarith
  rw [abs_le]
  constructor
  · nlinarith [sq_nonneg (R - 15.6), mul_nonneg h0 (show 0 ≤ R - 8.94 by linarith), mul_nonneg (show 0 ≤ 1 / 400 - σ by linarith) (show 0 ≤ R - 8.94 by linarith)]
  · nlinarith [mul_nonneg (show 0 ≤ R - 8.94 by linarith) (show 0 ≤ R - 8.94 by linarith), mul_nonneg h0 (show 0 ≤ R - 8.94 by linarith)]

theorem harris_ratio {σ R : ℝ} (h0 : 0 ≤ σ) (h1 : σ ≤ 1 / 400) (hR : 16 * (1 - σ) * (1 - 2 * σ) ^ 2 ≤ R) :
    |0.35875 * ((R - 1) * (R - 4 * (1 - σ)) * (R - (3 - 4 * σ) ^ 2)) - 0.48829 * (R * (R - 4 * (1 - σ)) * (R - (3 - 4 * σ) ^ 2)) +
      0.14128 * (R * (R - 1) * (R - (3 - 4 * σ) ^ 2)) - 0.01168 * (R * (R - 1) * (R - 4 * (1 - σ)))| ≤
    0.00043 * ((R - 1) * (R - 4 * (1 - σ)) * (R - (3 - 4 * σ) ^ 2)) := by
  obtain ⟨Y, hY⟩ : ∃ Y, Y = R - 16 * (1 - σ) * (1 - 2 * σ) ^ 2 := ⟨_, rfl⟩
  have hY0 : 0 ≤ Y := by linarith
  obtain ⟨p, hp⟩ : ∃ p, p = 16 * (1 - σ) * (1 - 2 * σ) ^ 2 := ⟨_, rfl⟩
  obtain ⟨g1, hg1⟩ : ∃ g, g = p - 1 := ⟨_, rfl⟩
  obtain ⟨g2, hg2⟩ : ∃ g, g = p - 4 * (1 - σ) := ⟨_, rfl⟩
  obtain ⟨g3, hg3⟩ : ∃ g, g = p - (3 - 4 * σ) ^ 2 := ⟨_, rfl⟩
  have s2 : 0 ≤ σ ^ 2 ∧ σ ^ 2 ≤ σ * (1 / 400) := ⟨by positivity, by nlinarith⟩
  have hs : ∀ k : ℕ, 0 ≤ σ ^ (k + 2) ∧ σ ^ (k + 2) ≤ σ * (1 / 400) ^ (k + 1) := fun k =>
    ⟨by positivity, by rw [pow_succ' σ]; exact mul_le_mul_of_nonneg_left (pow_le_pow_left₀ h0 h1 _) h0⟩
  have a2 := hs 0
  have a3 := hs 1
  have a4 := hs 2
  have a5 := hs 3
  have a6 := hs 4
  have a7 := hs 5
  have a8 := hs 6
  have a9 := hs 7
  norm_num at a2 a3 a4 a5 a6 a7 a8 a9
  have c0 : |0.35875 * (g1 * g2 * g3) + p * (-0.48829 * (g2 * g3) + 0.14128 * (g1 * g3) - 0.01168 * (g1 * g2))| ≤ 0.00043 * (g1 * g2 * g3) := by
    rw [hg1, hg2, hg3, hp, abs_le]
    constructor <;> linarith
  have c0' : 0.35875 * (g1 * g2 * g3) + p * (-0.48829 * (g2 * g3) + 0.14128 * (g1 * g3) - 0.01168 * (g1 * g2)) ≤ 0.00043 * (g1 * g2 * g3) - 1 := by
    rw [hg1, hg2, hg3, hp]
    linarith
  have c1 : -(0.00043 * (g1 * g2 + g1 * g3 + g2 * g3)) + 0.48 ≤ 0.35875 * (g1 * g2 + g1 * g3 + g2 * g3) +
      (-0.48829 * (g2 * g3) + 0.14128 * (g1 * g3) - 0.01168 * (g1 * g2)) +
      p * (-0.48829 * (g2 + g3) + 0.14128 * (g1 + g3) - 0.01168 * (g1 + g2)) ∧ 0.35875 * (g1 * g2 + g1 * g3 + g2 * g3) +
      (-0.48829 * (g2 * g3) + 0.14128 * (g1 * g3) - 0.01168 * (g1 * g2)) +
      p * (-0.48829 * (g2 + g3) + 0.14128 * (g1 + g3) - 0.01168 * (g1 + g2)) ≤ 0.00043 * (g1 * g2 + g1 * g3 + g2 * g3) + 0.184 := by
    rw [hg1, hg2, hg3, hp]
    constructor <;> linarith
  have c2 : -(0.00043 * (g1 + g2 + g3)) - 0.0128 ≤ 0.35875 * (g1 + g2 + g3) +
      (-0.48829 * (g2 + g3) + 0.14128 * (g1 + g3) - 0.01168 * (g1 + g2)) - 0.35869 * p ∧ 0.35875 * (g1 + g2 + g3) +
      (-0.48829 * (g2 + g3) + 0.14128 * (g1 + g3) - 0.01168 * (g1 + g2)) - 0.35869 * p ≤ 0.00043 * (g1 + g2 + g3) - 0.04 := by
    rw [hg1, hg2, hg3, hp]
    constructor <;> linarith
  have e1 : R - 1 = g1 + Y := by rw [hg1, hY, hp]; ring
  have e2 : R - 4 * (1 - σ) = g2 + Y := by rw [hg2, hY, hp]; ring
  have e3 : R - (3 - 4 * σ) ^ 2 = g3 + Y := by rw [hg3, hY, hp]; ring
  have e4 : R = p + Y := by rw [hY, hp]; ring
  rw [e1, e2, e3, e4]
  clear hg1 hg2 hg3 hp hY e1 e2 e3 e4 a2 a3 a4 a5 a6 a7 a8 a9 hs s2
  have hY2 : 0 ≤ Y ^ 2 := sq_nonneg _
  have hY3 : 0 ≤ Y ^ 3 := by positivity
  have f1 := mul_le_mul_of_nonneg_right c1.1 hY0
  have f2 := mul_le_mul_of_nonneg_right c1.2 hY0
  have f3 := mul_le_mul_of_nonneg_right c2.1 hY2
  have f4 := mul_le_mul_of_nonneg_right c2.2 hY2
  have k1 : 0 ≤ 0.48 * Y - 0.0128 * Y ^ 2 + 0.00049 * Y ^ 3 := by
    have : 0 ≤ 0.48 - 0.0128 * Y + 0.00049 * Y ^ 2 := by nlinarith [sq_nonneg (Y - 13)]
    nlinarith
  have k2 : 0 ≤ 1 - 0.184 * Y + 0.04 * Y ^ 2 := by nlinarith [sq_nonneg (Y - 2.3)]
  obtain ⟨f5, -⟩ := abs_le.mp c0
  rw [abs_le]
  constructor <;> linarith

end Rasp
