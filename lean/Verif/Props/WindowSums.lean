import Verif.Props.Windows
import Verif.Spec.WindowSums
import Mathlib.RingTheory.RootsOfUnity.Complex

/-!
# C88: the windows rise to the middle; their sums and sums of squares
-/

namespace Rasp

/-- Cosines over whole periods cancel. -/
theorem sum_cos {N j : ℕ} (hN : 0 < N) (hj : ¬ N ∣ j) :
    ∑ i ∈ Finset.range N, Real.cos (j * (2 * Real.pi * i / N)) = 0 := by
  have hN' : (N : ℂ) ≠ 0 := by exact_mod_cast hN.ne'
  set ζ : ℂ := Complex.exp (2 * Real.pi * Complex.I * (j / N)) with hζ
  have h1 : ζ ^ N = 1 := by
    rw [hζ, ← Complex.exp_nat_mul, Complex.exp_eq_one_iff]
    exact ⟨j, by field_simp; push_cast; ring⟩
  have h2 : ζ ≠ 1 := by
    rw [hζ, Ne, Complex.exp_eq_one_iff]
    rintro ⟨m, hm⟩
    have hp : (2 * (Real.pi : ℂ) * Complex.I) ≠ 0 := by simp [Real.pi_ne_zero]
    have h3 : (j : ℂ) / N = m := by
      apply mul_left_cancel₀ hp
      rw [hm]; ring
    rw [div_eq_iff hN'] at h3
    have h4 : (j : ℤ) = m * N := by exact_mod_cast h3
    apply hj
    have : (N : ℤ) ∣ j := ⟨m, by rw [h4, mul_comm]⟩
    exact_mod_cast this
  have h3 : ∑ i ∈ Finset.range N, ζ ^ i = 0 := by
    have := mul_neg_geom_sum ζ N
    rw [h1, sub_self] at this
    exact (mul_eq_zero.mp this).resolve_left (sub_ne_zero.mpr h2.symm)
  have h4 := congrArg Complex.re h3
  rw [Complex.re_sum, Complex.zero_re] at h4
  rw [← h4]
  refine Finset.sum_congr rfl fun i _ => ?_
  rw [hζ, ← Complex.exp_nat_mul, ← Complex.exp_ofReal_mul_I_re]
  congr 2
  push_cast
  ring

/-- The sum of the cosine terms of a window. -/
theorem sum_cos_window {n j : ℕ} (hn : 2 ≤ n) (hj : ¬ (n - 1) ∣ j) :
    ∑ i ∈ Finset.range n, Real.cos (j * (2 * Real.pi * i / ((n : ℝ) - 1))) = 1 := by
  obtain ⟨N, rfl⟩ : ∃ N, n = N + 1 := ⟨n - 1, by omega⟩
  have hN : (N : ℝ) ≠ 0 := by
    have : N ≠ 0 := by omega
    exact_mod_cast this
  simp only [Nat.add_sub_cancel] at hj
  simp only [Nat.cast_add, Nat.cast_one, add_sub_cancel_right]
  rw [Finset.sum_range_succ, sum_cos (by omega) hj, zero_add, mul_div_assoc, div_self hN, mul_one]
  exact Real.cos_nat_mul_two_pi j

section
variable {b : Build} {n : ℕ} {o : ℕ → Option ℝ} {k : WindowKind}

theorem itemSum_eq [Target] (hn : n < usizeMod) (h : Yields b k n o) : itemSum o n = ∑ i ∈ Finset.range n, shape k n i := by
  unfold itemSum
  refine Finset.sum_congr rfl fun i hi => ?_
  rw [C55_values b k n hn o h i (Finset.mem_range.mp hi), Option.getD_some]

theorem itemSumSq_eq [Target] (hn : n < usizeMod) (h : Yields b k n o) : itemSumSq o n = ∑ i ∈ Finset.range n, shape k n i ^ 2 := by
  unfold itemSumSq
  refine Finset.sum_congr rfl fun i hi => ?_
  rw [C55_values b k n hn o h i (Finset.mem_range.mp hi), Option.getD_some]

/-- Cosine polynomials up to degree `d`, when the window has at least `d + 2` points. -/
theorem sum_poly (n : ℕ) (a0 a1 a2 a3 a4 : ℝ) (h1 : a1 ≠ 0 → 3 ≤ n) (h2 : a2 ≠ 0 → 4 ≤ n) (h3 : a3 ≠ 0 → 5 ≤ n) (h4 : a4 ≠ 0 → 6 ≤ n) :
    ∑ i ∈ Finset.range n, (a0 + a1 * Real.cos (2 * Real.pi * i / ((n : ℝ) - 1)) + a2 * Real.cos (2 * (2 * Real.pi * i / ((n : ℝ) - 1))) +
      a3 * Real.cos (3 * (2 * Real.pi * i / ((n : ℝ) - 1))) + a4 * Real.cos (4 * (2 * Real.pi * i / ((n : ℝ) - 1)))) =
    a0 * n + a1 + a2 + a3 + a4 := by
  have key : ∀ (a : ℝ) (j : ℕ), 0 < j → (a ≠ 0 → j + 2 ≤ n) →
      a * ∑ i ∈ Finset.range n, Real.cos (j * (2 * Real.pi * i / ((n : ℝ) - 1))) = a := by
    intro a j hj ha
    by_cases h0 : a = 0
    · rw [h0, zero_mul]
    · have := ha h0
      rw [sum_cos_window (by omega) (Nat.not_dvd_of_pos_of_lt hj (by omega)), mul_one]
  have k1 := key a1 1 (by norm_num) h1
  have k2 := key a2 2 (by norm_num) h2
  have k3 := key a3 3 (by norm_num) h3
  have k4 := key a4 4 (by norm_num) h4
  simp only [Nat.cast_one, Nat.cast_ofNat, one_mul] at k1 k2 k3 k4
  simp only [Finset.sum_add_distrib, ← Finset.mul_sum]
  rw [k1, k2, k3, k4, Finset.sum_const, Finset.card_range, nsmul_eq_mul]
  ring

/-- **C88**, sums of the cosine windows. -/
theorem C88_sums [Target] (hn : n < usizeMod) :
    (3 ≤ n → Yields b .hann n o → itemSum o n = (n - 1) / 2) ∧
    (3 ≤ n → Yields b .hamming n o → itemSum o n = 0.54 * n - 0.46) ∧
    (4 ≤ n → Yields b .blackman n o → itemSum o n = 0.42 * (n - 1)) ∧
    (5 ≤ n → Yields b .blackmanHarris n o → itemSum o n = 0.35875 * n - 0.35869) := by
  refine ⟨fun h3 h => ?_, fun h3 h => ?_, fun h3 h => ?_, fun h3 h => ?_⟩ <;> rw [itemSum_eq hn h] <;> simp only [shape]
  · have := sum_poly n (1 / 2) (-1 / 2) 0 0 0 (fun _ => h3) (fun h => absurd rfl h) (fun h => absurd rfl h) (fun h => absurd rfl h)
    rw [show ((n : ℝ) - 1) / 2 = 1 / 2 * n + -1 / 2 + 0 + 0 + 0 by ring, ← this]
    exact Finset.sum_congr rfl fun i _ => by ring
  · have := sum_poly n 0.54 (-0.46) 0 0 0 (fun _ => h3) (fun h => absurd rfl h) (fun h => absurd rfl h) (fun h => absurd rfl h)
    rw [show 0.54 * (n : ℝ) - 0.46 = 0.54 * n + -0.46 + 0 + 0 + 0 by ring, ← this]
    exact Finset.sum_congr rfl fun i _ => by ring
  · have := sum_poly n 0.42 (-0.5) 0.08 0 0 (fun _ => by omega) (fun _ => h3) (fun h => absurd rfl h) (fun h => absurd rfl h)
    rw [show 0.42 * ((n : ℝ) - 1) = 0.42 * n + -0.5 + 0.08 + 0 + 0 by ring, ← this]
    exact Finset.sum_congr rfl fun i _ => by ring
  · have := sum_poly n 0.35875 (-0.48829) 0.14128 (-0.01168) 0 (fun _ => by omega) (fun _ => by omega) (fun _ => h3) (fun h => absurd rfl h)
    rw [show 0.35875 * (n : ℝ) - 0.35869 = 0.35875 * n + -0.48829 + 0.14128 + -0.01168 + 0 by ring, ← this]
    exact Finset.sum_congr rfl fun i _ => by ring

/-- **C88**, sums of squares of the cosine windows. -/
theorem C88_sums_of_squares [Target] (hn : n < usizeMod) :
    (4 ≤ n → Yields b .hann n o → itemSumSq o n = 0.375 * (n - 1)) ∧
    (4 ≤ n → Yields b .hamming n o → itemSumSq o n = 0.3974 * n - 0.391) ∧
    (6 ≤ n → Yields b .blackman n o → itemSumSq o n = 0.3046 * (n - 1)) := by
  refine ⟨fun h3 h => ?_, fun h3 h => ?_, fun h3 h => ?_⟩ <;> rw [itemSumSq_eq hn h] <;> simp only [shape]
  · have := sum_poly n 0.375 (-0.5) 0.125 0 0 (fun _ => by omega) (fun _ => h3) (fun h => absurd rfl h) (fun h => absurd rfl h)
    rw [show 0.375 * ((n : ℝ) - 1) = 0.375 * n + -0.5 + 0.125 + 0 + 0 by ring, ← this]
    refine Finset.sum_congr rfl fun i _ => ?_
    rw [Real.cos_two_mul]; ring
  · have := sum_poly n 0.3974 (-0.4968) 0.1058 0 0 (fun _ => by omega) (fun _ => h3) (fun h => absurd rfl h) (fun h => absurd rfl h)
    rw [show 0.3974 * (n : ℝ) - 0.391 = 0.3974 * n + -0.4968 + 0.1058 + 0 + 0 by ring, ← this]
    refine Finset.sum_congr rfl fun i _ => ?_
    rw [Real.cos_two_mul]; ring
  · have := sum_poly n 0.3046 (-0.46) 0.1922 (-0.04) 0.0032 (fun _ => by omega) (fun _ => by omega) (fun _ => by omega) (fun _ => h3)
    rw [show 0.3046 * ((n : ℝ) - 1) = 0.3046 * n + -0.46 + 0.1922 + -0.04 + 0.0032 by ring, ← this]
    refine Finset.sum_congr rfl fun i _ => ?_
    generalize 2 * Real.pi * i / ((n : ℝ) - 1) = w
    have e4 : Real.cos (4 * w) = 2 * Real.cos (2 * w) ^ 2 - 1 := by rw [← Real.cos_two_mul]; ring_nf
    rw [e4, Real.cos_three_mul, Real.cos_two_mul]
    ring

theorem sum_id (m : ℕ) : ∑ i ∈ Finset.range m, (i : ℝ) = m * (m - 1) / 2 := by
  induction m with
  | zero => simp
  | succ m ih => rw [Finset.sum_range_succ, ih]; push_cast; ring

/-- Distances from the middle. -/
theorem sum_abs_even (m : ℕ) : ∑ i ∈ Finset.range (2 * m), |(i : ℝ) - (((2 * m : ℕ) : ℝ) - 1) / 2| = m ^ 2 := by
  rw [two_mul m, Finset.sum_range_add]
  have h1 : ∑ i ∈ Finset.range m, |(i : ℝ) - (((m + m : ℕ) : ℝ) - 1) / 2| = ∑ i ∈ Finset.range m, ((m : ℝ) - 1 / 2 - i) := by
    refine Finset.sum_congr rfl fun i hi => ?_
    have : ((i + 1 : ℕ) : ℝ) ≤ m := by exact_mod_cast Finset.mem_range.mp hi
    push_cast at this ⊢
    rw [abs_of_nonpos (by linarith)]; ring
  have h2 : ∑ i ∈ Finset.range m, |((m + i : ℕ) : ℝ) - (((m + m : ℕ) : ℝ) - 1) / 2| = ∑ i ∈ Finset.range m, (1 / 2 + (i : ℝ)) := by
    refine Finset.sum_congr rfl fun i _ => ?_
    have : (0 : ℝ) ≤ i := Nat.cast_nonneg i
    push_cast
    rw [abs_of_nonneg (by linarith)]; ring
  rw [h1, h2, Finset.sum_sub_distrib, Finset.sum_add_distrib, sum_id]
  simp only [Finset.sum_const, Finset.card_range, nsmul_eq_mul]
  ring

theorem sum_abs_odd (m : ℕ) : ∑ i ∈ Finset.range (2 * m + 1), |(i : ℝ) - (((2 * m + 1 : ℕ) : ℝ) - 1) / 2| = m * (m + 1) := by
  rw [show 2 * m + 1 = m + (m + 1) by ring, Finset.sum_range_add]
  have h1 : ∑ i ∈ Finset.range m, |(i : ℝ) - (((m + (m + 1) : ℕ) : ℝ) - 1) / 2| = ∑ i ∈ Finset.range m, ((m : ℝ) - i) := by
    refine Finset.sum_congr rfl fun i hi => ?_
    have : ((i + 1 : ℕ) : ℝ) ≤ m := by exact_mod_cast Finset.mem_range.mp hi
    push_cast at this ⊢
    rw [abs_of_nonpos (by linarith)]; ring
  have h2 : ∑ i ∈ Finset.range (m + 1), |((m + i : ℕ) : ℝ) - (((m + (m + 1) : ℕ) : ℝ) - 1) / 2| = ∑ i ∈ Finset.range (m + 1), (i : ℝ) := by
    refine Finset.sum_congr rfl fun i _ => ?_
    have : (0 : ℝ) ≤ i := Nat.cast_nonneg i
    push_cast
    rw [abs_of_nonneg (by linarith)]; ring
  rw [h1, h2, Finset.sum_sub_distrib, sum_id, sum_id]
  simp only [Finset.sum_const, Finset.card_range, nsmul_eq_mul]
  push_cast
  ring

/-- **C88**, sums of the straight-line windows. -/
theorem C88_sums_lines [Target] (m : ℕ) (hm : 1 ≤ m) (hn : 2 * m + 1 < usizeMod) :
    (Yields b .triangular (2 * m) o → itemSum o (2 * m) = m) ∧
    (Yields b .triangular (2 * m + 1) o → itemSum o (2 * m + 1) = ((2 * m + 1) ^ 2 + 1) / (2 * (2 * m + 1))) ∧
    (Yields b .bartlett (2 * m) o → itemSum o (2 * m) = 2 * m * (m - 1) / (2 * m - 1)) ∧
    (Yields b .bartlett (2 * m + 1) o → itemSum o (2 * m + 1) = m) := by
  have hm1 : (1 : ℝ) ≤ m := by exact_mod_cast hm
  have key : ∀ (n : ℕ) (c : ℝ), 0 < c → ∑ i ∈ Finset.range n, (1 - |((i : ℝ) - ((n : ℝ) - 1) / 2) / c|) =
      n - (∑ i ∈ Finset.range n, |(i : ℝ) - ((n : ℝ) - 1) / 2|) / c := by
    intro n c hc
    simp only [abs_div, abs_of_pos hc]
    rw [Finset.sum_sub_distrib, ← Finset.sum_div]
    simp
  refine ⟨fun h => ?_, fun h => ?_, fun h => ?_, fun h => ?_⟩ <;> rw [itemSum_eq (by omega) h] <;> simp only [shape]
  · rw [key _ _ (by push_cast; linarith), sum_abs_even]; push_cast; field_simp; ring
  · rw [key _ _ (by push_cast; linarith), sum_abs_odd]; push_cast; field_simp; ring
  · have : (2 * (m : ℝ) - 1) ≠ 0 := by linarith
    rw [key _ _ (by push_cast; linarith), sum_abs_even]; push_cast; field_simp; ring
  · rw [key _ _ (by push_cast; linarith), sum_abs_odd]; push_cast; field_simp; ring

/-- The cosine shapes as functions of the cosine. -/
theorem shape_lt (k : WindowKind) {N i j : ℝ} (_hN : 1 < N) (hi : 0 ≤ i) (hij : i < j) (hj : j ≤ (N - 1) / 2) : shape k N i < shape k N j := by
  have hp := Real.pi_pos
  have hlt : ∀ c : ℝ, 0 < c → 1 - |(i - (N - 1) / 2) / c| < 1 - |(j - (N - 1) / 2) / c| := by
    intro c hc
    rw [abs_div, abs_div, abs_of_pos hc, abs_of_nonpos (by linarith), abs_of_nonpos (by linarith)]
    have : (-(j - (N - 1) / 2)) / c < (-(i - (N - 1) / 2)) / c := div_lt_div_of_pos_right (by linarith) hc
    linarith
  have hcos : Real.cos (2 * Real.pi * j / (N - 1)) < Real.cos (2 * Real.pi * i / (N - 1)) := by
    apply Real.cos_lt_cos_of_nonneg_of_le_pi
    · apply div_nonneg (by positivity) (by linarith)
    · rw [div_le_iff₀ (by linarith)]; nlinarith
    · apply div_lt_div_of_pos_right _ (by linarith)
      nlinarith
  have h1 := Real.neg_one_le_cos (2 * Real.pi * j / (N - 1))
  have h2 := Real.cos_le_one (2 * Real.pi * i / (N - 1))
  cases k <;> simp only [shape]
  · exact hlt _ (by linarith)
  · exact hlt _ (by linarith)
  · linarith
  · linarith
  · rw [Real.cos_two_mul, Real.cos_two_mul]
    generalize Real.cos (2 * Real.pi * j / (N - 1)) = c at *
    generalize Real.cos (2 * Real.pi * i / (N - 1)) = d at *
    nlinarith
  · rw [Real.cos_two_mul, Real.cos_two_mul, Real.cos_three_mul, Real.cos_three_mul]
    generalize Real.cos (2 * Real.pi * j / (N - 1)) = c at *
    generalize Real.cos (2 * Real.pi * i / (N - 1)) = d at *
    have e : (0.35875 - 0.48829 * c + 0.14128 * (2 * c ^ 2 - 1) - 0.01168 * (4 * c ^ 3 - 3 * c)) -
        (0.35875 - 0.48829 * d + 0.14128 * (2 * d ^ 2 - 1) - 0.01168 * (4 * d ^ 3 - 3 * d)) =
        (d - c) * (0.45325 - 0.28256 * (c + d) + 0.04672 * (c ^ 2 + c * d + d ^ 2)) := by ring
    have : 0 < 0.45325 - 0.28256 * (c + d) + 0.04672 * (c ^ 2 + c * d + d ^ 2) := by
      nlinarith [sq_nonneg (c - d), sq_nonneg (c + d - 2), sq_nonneg (c + d)]
    have := mul_pos (show 0 < d - c by linarith) this
    linarith

/-- **C88**, shape: every window rises strictly up to its middle (and falls after it, by symmetry, C58): of two positions the
one closer to the middle has the larger value. -/
theorem C88_rises_to_middle [Target] (hn : n < usizeMod) (h : Yields b k n o) (i j : ℕ) (hij : i < j) (hj : 2 * j ≤ n - 1) (h2 : 2 ≤ n) :
    ∃ u v, o i = some u ∧ o j = some v ∧ o (n - 1 - i) = some u ∧ o (n - 1 - j) = some v ∧ u < v := by
  refine ⟨_, _, C55_values b k n hn o h i (by omega), C55_values b k n hn o h j (by omega), ?_, ?_, ?_⟩
  · rw [← C58_symmetric b k n h2 hn o h i (by omega)]; exact C55_values b k n hn o h i (by omega)
  · rw [← C58_symmetric b k n h2 hn o h j (by omega)]; exact C55_values b k n hn o h j (by omega)
  · have h2' : (2 : ℝ) ≤ n := by exact_mod_cast h2
    refine shape_lt k (by linarith) (Nat.cast_nonneg i) (by exact_mod_cast hij) ?_
    have : ((2 * j + 1 : ℕ) : ℝ) ≤ n := by
      have : 2 * j + 1 ≤ n := by omega
      exact_mod_cast this
    push_cast at this
    linarith
end

/-- A Hann window of 1024 points sums to 511.5. -/
example [Target] (b : Build) (o : ℕ → Option ℝ) (h : Yields b .hann 1024 o) : itemSum o 1024 = 511.5 := by
  rw [(C88_sums (by have := target; omega)).1 (by norm_num) h]; norm_num

/-- Too few points break the rule: the two-point Hamming window sums to 0.16, not 0.62. -/
example [Target] (b : Build) (o : ℕ → Option ℝ) (h : Yields b .hamming 2 o) : itemSum o 2 = 0.16 := by
  rw [itemSum_eq (by have := target; omega) h]
  norm_num [Finset.sum_range_succ, shape]

end Rasp
