import Verif.Props.Lobes

/-!
# C130: side lobe levels of the windows
-/

namespace Rasp
variable {b : Build} {o : ℕ → Option ℝ}

/-! ## Blackman and Blackman-Harris -/

theorem poles_harris {N : ℕ} {c σ R : ℝ} (hσ : σ = Real.sin (Real.pi / N) ^ 2) (hσ0 : σ ≠ 0) (hR : Real.sin c ^ 2 = σ * R)
    (h0 : R ≠ 0) (h1 : R - 1 ≠ 0) (h2 : R - 4 * (1 - σ) ≠ 0) (h3 : R - (3 - 4 * σ) ^ 2 ≠ 0) :
    Real.sin c ^ 2 * poles (cosineCoefs .blackmanHarris) N c =
      (0.35875 * ((R - 1) * (R - 4 * (1 - σ)) * (R - (3 - 4 * σ) ^ 2)) - 0.48829 * (R * (R - 4 * (1 - σ)) * (R - (3 - 4 * σ) ^ 2)) +
      0.14128 * (R * (R - 1) * (R - (3 - 4 * σ) ^ 2)) - 0.01168 * (R * (R - 1) * (R - 4 * (1 - σ)))) /
      ((R - 1) * (R - 4 * (1 - σ)) * (R - (3 - 4 * σ) ^ 2)) := by
  have s2 := sin_two_sq (Real.pi / N)
  have s3 := sin_three_sq (Real.pi / N)
  rw [← hσ] at s2 s3
  simp only [poles, cosineCoefs, Finset.sum_range_succ, Finset.sum_range_zero, List.length_cons, List.length_nil]
  norm_num only [Nat.cast_zero, Nat.cast_one, Nat.cast_ofNat, zero_mul, one_mul, Real.sin_zero, List.getD_cons_zero, List.getD_cons_succ]
  rw [← hσ, s2, s3, hR]
  rw [show σ * R - σ = σ * (R - 1) by ring, show σ * R - 4 * σ * (1 - σ) = σ * (R - 4 * (1 - σ)) by ring,
    show σ * R - σ * (3 - 4 * σ) ^ 2 = σ * (R - (3 - 4 * σ) ^ 2) by ring]
  generalize R - 1 = g1 at *
  generalize R - 4 * (1 - σ) = g2 at *
  generalize R - (3 - 4 * σ) ^ 2 = g3 at *
  field_simp
  ring

/-- A bound on `|sin c|` times the leakage, and the value at 0: the level of the side lobes. -/
theorem level_of_edge {N K n : ℕ} {v : ℕ → ℝ} (hN : 64 ≤ N) (hK : K ≤ 4) (hK1 : 1 ≤ K) {M a ρ : ℝ}
    (h : ∀ c, K * (Real.pi / N) ≤ c → c ≤ Real.pi / 2 → |Real.sin c| * ‖dtft n v (2 * c)‖ ≤ M)
    (hv : a * N ≤ ∑ i ∈ Finset.range n, v i) (hρ0 : 0 ≤ ρ) (hρ : M ≤ ρ * a * ((1 - 0.00042 * K ^ 2) * (K * Real.pi))) :
    SidelobesBelow n v (2 * (K * (Real.pi / N))) ρ := by
  refine sidelobesBelow fun c h1 h2 => ?_
  obtain ⟨e1, -⟩ := sin_edge hN hK h1 h2
  have h3 := h c h1 h2
  have hN' : (0 : ℝ) < N := by exact_mod_cast (by omega : 0 < N)
  have hpi := Real.pi_pos
  have hK' : (K : ℝ) ≤ 4 := by exact_mod_cast hK
  have hK1' : (1 : ℝ) ≤ K := by exact_mod_cast hK1
  obtain ⟨q, hq⟩ : ∃ q, q = (1 - 0.00042 * (K : ℝ) ^ 2) * (K * (Real.pi / N)) := ⟨_, rfl⟩
  rw [← hq] at e1
  have hq0 : 0 < q := by
    rw [hq]
    have : 0 < 1 - 0.00042 * (K : ℝ) ^ 2 := by nlinarith
    positivity
  rw [abs_of_pos (by linarith)] at h3
  refine le_trans ?_ (mul_le_mul_of_nonneg_left hv hρ0)
  have h4 : q * ‖dtft n v (2 * c)‖ ≤ M := (mul_le_mul_of_nonneg_right e1 (norm_nonneg _)).trans h3
  have h5 : M ≤ q * (ρ * (a * N)) := by
    refine hρ.trans (le_of_eq ?_)
    rw [hq]; field_simp
  exact le_of_mul_le_mul_left (h4.trans h5) hq0

/-- **C130**, Blackman: outside three bins at most 1/500 (54 dB down). -/
theorem C130_blackman [Target] {N : ℕ} (hN : 64 ≤ N) (hn : N + 1 < usizeMod) (h : Yields b .blackman (N + 1) o) :
    SidelobesBelow (N + 1) (items o) (3 * (2 * Real.pi / N)) (1 / 500) := by
  have hpi := Real.pi_gt_three
  obtain ⟨hd, hd1, hs0, -, -, hs⟩ := bin_facts hN
  rw [show 3 * (2 * Real.pi / N) = 2 * ((3 : ℕ) * (Real.pi / N)) by push_cast; ring]
  refine level_of_edge hN (M := 0.0069) (a := 0.42) (by norm_num) (by norm_num) (fun c h1 h2 => ?_) ?_ (by norm_num) ?_
  · have h3 := (sin_edge hN (by norm_num) h1 h2).2
    push_cast at h1 h3
    have hoff : OffLines (cosineCoefs .blackman) N c := offLines (by norm_num [cosineCoefs]; linarith) (by linarith) h2
    refine C129_leaks (by simp [cosineCoefs]) (by omega) hn h hoff (by rw [(C129_ends hn).2.2.1 h]; norm_num) ?_
    rw [poles_blackman hoff, sin_two_sq]
    rw [sin_three_sq] at h3
    obtain ⟨σ, hσ⟩ : ∃ σ, σ = Real.sin (Real.pi / N) ^ 2 := ⟨_, rfl⟩
    have hσ0 : 0 < σ := by rw [hσ]; positivity
    rw [← hσ] at hs h3 ⊢
    obtain ⟨R, hR⟩ : ∃ R, R = Real.sin c ^ 2 / σ := ⟨_, rfl⟩
    have e : Real.sin c ^ 2 = σ * R := by rw [hR]; field_simp
    rw [e] at h3 ⊢
    have hR' := le_of_mul_le_mul_left h3 hσ0
    have key := blackman_ratio hσ0.le hs hR'
    have hR8 : 8.94 ≤ R := by nlinarith
    rw [show σ * (0.42 * (4 * σ * (1 - σ)) - (0.18 + 0.32 * σ) * (σ * R)) / ((σ * R - σ) * (σ * R - 4 * σ * (1 - σ))) =
      (0.42 * (4 * (1 - σ)) - (0.18 + 0.32 * σ) * R) / ((R - 1) * (R - 4 * (1 - σ))) by
        rw [show σ * R - σ = σ * (R - 1) by ring, show σ * R - 4 * σ * (1 - σ) = σ * (R - 4 * (1 - σ)) by ring,
          show σ * (0.42 * (4 * σ * (1 - σ)) - (0.18 + 0.32 * σ) * (σ * R)) = (σ * σ) * (0.42 * (4 * (1 - σ)) - (0.18 + 0.32 * σ) * R) by ring,
          show σ * (R - 1) * (σ * (R - 4 * (1 - σ))) = (σ * σ) * ((R - 1) * (R - 4 * (1 - σ))) by ring, mul_div_mul_left _ _ (by positivity)]]
    have hpos : 0 < (R - 1) * (R - 4 * (1 - σ)) := mul_pos (by linarith) (by linarith)
    rw [abs_div, abs_of_pos hpos, div_le_iff₀ hpos]
    exact key
  · have := (C88_sums hn).2.2.1 (by omega) h
    unfold itemSum at this
    unfold items
    rw [this]
    push_cast
    linarith
  · norm_num
    linarith

/-- **C130**, Blackman-Harris: outside four bins at most 1/10000 (80 dB down). -/
theorem C130_blackman_harris [Target] {N : ℕ} (hN : 64 ≤ N) (hn : N + 1 < usizeMod) (h : Yields b .blackmanHarris (N + 1) o) :
    SidelobesBelow (N + 1) (items o) (4 * (2 * Real.pi / N)) (1 / 10000) := by
  have hpi := Real.pi_gt_d2
  obtain ⟨hd, hd1, hs0, -, -, hs⟩ := bin_facts hN
  rw [show 4 * (2 * Real.pi / N) = 2 * ((4 : ℕ) * (Real.pi / N)) by push_cast; ring]
  refine level_of_edge hN (M := 0.00043) (a := 0.35875) (by norm_num) (by norm_num) (fun c h1 h2 => ?_) ?_ (by norm_num) ?_
  · have h3 := (sin_edge hN (by norm_num) h1 h2).2
    push_cast at h1 h3
    have hoff : OffLines (cosineCoefs .blackmanHarris) N c := offLines (by norm_num [cosineCoefs]; linarith) (by linarith) h2
    refine C129_leaks (by simp [cosineCoefs]) (by omega) hn h hoff (by rw [(C129_ends hn).2.2.2 h]; norm_num [abs_of_pos]) ?_
    rw [show (4 : ℝ) * (Real.pi / N) = 2 * (2 * (Real.pi / N)) by ring, sin_two_sq, sin_two_sq] at h3
    obtain ⟨σ, hσ⟩ : ∃ σ, σ = Real.sin (Real.pi / N) ^ 2 := ⟨_, rfl⟩
    have hσ0 : 0 < σ := by rw [hσ]; positivity
    rw [← hσ] at hs h3
    obtain ⟨R, hR⟩ : ∃ R, R = Real.sin c ^ 2 / σ := ⟨_, rfl⟩
    have e : Real.sin c ^ 2 = σ * R := by rw [hR]; field_simp
    rw [e] at h3
    have hR' : 16 * (1 - σ) * (1 - 2 * σ) ^ 2 ≤ R := by
      refine le_of_mul_le_mul_left (le_trans (le_of_eq ?_) h3) hσ0
      ring
    have key := harris_ratio hσ0.le hs hR'
    have hR8 : 15.8 ≤ R := by nlinarith
    have h9 : 0 < R - (3 - 4 * σ) ^ 2 := by nlinarith
    have hpos : 0 < (R - 1) * (R - 4 * (1 - σ)) * (R - (3 - 4 * σ) ^ 2) := mul_pos (mul_pos (by linarith) (by linarith)) h9
    rw [poles_harris hσ hσ0.ne' e (by linarith) (by linarith) (by linarith) h9.ne', abs_div, abs_of_pos hpos, div_le_iff₀ hpos]
    exact key
  · have := (C88_sums hn).2.2.2 (by omega) h
    unfold itemSum at this
    unfold items
    rw [this]
    push_cast
    linarith
  · norm_num
    linarith

/-! ## Hann and Hamming: two bins -/

/-- The sine of `Nc` just after two bins. -/
theorem near_edge {N : ℕ} (hN : 64 ≤ N) {c r : ℝ} (h1 : 2 * (Real.pi / N) ≤ c) (h2 : c ≤ Real.pi / 2) (hr : Real.sin c = r * Real.sin (Real.pi / N)) :
    1.997 ≤ r ∧ |Real.sin (N * c)| ≤ 1 ∧ (r ≤ 2.29 → |Real.sin (N * c)| ≤ 3.1486 * r - 6.283) := by
  obtain ⟨hd, hd1, hs0, hsd, -, hs⟩ := bin_facts hN
  have hN' : (0 : ℝ) < N := by exact_mod_cast (by omega : 0 < N)
  have hpi := Real.pi_gt_d4
  have hpi' := Real.pi_lt_d4
  have hc0 : 0 < c := by linarith
  have hsc : 0 < Real.sin c := Real.sin_pos_of_pos_of_lt_pi hc0 (by linarith)
  have hr0 : 0 < r := by
    by_contra hneg
    have : r * Real.sin (Real.pi / N) ≤ 0 := mul_nonpos_of_nonpos_of_nonneg (not_lt.mp hneg) hs0.le
    linarith
  refine ⟨?_, Real.abs_sin_le_one _, fun hr2 => ?_⟩
  · have h3 := (sin_edge (K := 2) hN (by norm_num) (by exact_mod_cast h1) h2).2
    push_cast at h3
    rw [sin_two_sq, hr, mul_pow] at h3
    have : 4 * (1 - Real.sin (Real.pi / N) ^ 2) ≤ r ^ 2 := by
      refine le_of_mul_le_mul_left (le_trans (le_of_eq ?_) h3 |>.trans (le_of_eq (mul_comm _ _))) (show 0 < Real.sin (Real.pi / N) ^ 2 by positivity)
      ring
    nlinarith
  · have h3 : Real.sin c ≤ r * (Real.pi / N) := by rw [hr]; exact mul_le_mul_of_nonneg_left hsd hr0.le
    have hNc : (N : ℝ) * (Real.pi / N) = Real.pi := by field_simp
    generalize Real.pi / N = d at *
    have hrd : r * d ≤ 2.29 * 0.0491 := mul_le_mul hr2 hd1 hd.le (by norm_num)
    have h4 := Real.mul_le_sin hc0.le h2
    have h5 : c ≤ 0.1768 := by
      have : 2 / Real.pi * c * Real.pi = 2 * c := by field_simp
      have h6 : 2 / Real.pi * c * Real.pi ≤ 2.29 * 0.0491 * 3.1416 := mul_le_mul (h4.trans (h3.trans hrd)) hpi'.le (by linarith) (by norm_num)
      rw [this] at h6
      linarith
    have h6 := Real.sin_ge_sub_cube hc0.le
    have h7 : c ≤ 0.1131 := by
      have : c ^ 2 ≤ 0.1768 ^ 2 := pow_le_pow_left₀ hc0.le h5 2
      nlinarith
    have h8 : c ≤ 1.0022 * (r * d) := by
      have : c ^ 2 ≤ 0.1131 ^ 2 := pow_le_pow_left₀ hc0.le h7 2
      nlinarith
    have h9 : N * c ≤ 1.0022 * r * Real.pi := by
      rw [← hNc]
      have := mul_le_mul_of_nonneg_left h8 hN'.le
      linarith
    have h10 : 2 * Real.pi ≤ N * c := by
      rw [← hNc]
      have := mul_le_mul_of_nonneg_left h1 hN'.le
      linarith
    rw [← Real.sin_sub_two_pi]
    refine (Real.abs_sin_le_abs).trans ?_
    rw [abs_of_nonneg (by linarith)]
    nlinarith

theorem hann_shape {r s : ℝ} (h0 : 1.997 ≤ r) (h1 : s ≤ 1) (h2 : r ≤ 2.29 → s ≤ 3.1486 * r - 6.283) : s ≤ 0.1046 * (r * (r ^ 2 - 1)) := by
  rcases le_total r 2.29 with h | h
  · refine (h2 h).trans ?_
    nlinarith [mul_nonneg (show 0 ≤ r - 1.997 by linarith) (show 0 ≤ 2.29 - r by linarith), sq_nonneg (r - 2.29), mul_nonneg (show 0 ≤ r by linarith) (sq_nonneg (r - 2.29))]
  · refine h1.trans ?_
    nlinarith [mul_nonneg (show 0 ≤ r - 2.29 by linarith) (show 0 ≤ r - 2.29 by linarith), mul_nonneg (show 0 ≤ r by linarith) (sq_nonneg (r - 2.29))]

theorem hamming_shape {r s : ℝ} (h0 : 1.997 ≤ r) (h1 : s ≤ 1) (h2 : r ≤ 2.29 → s ≤ 3.1486 * r - 6.283) :
    s * |0.08 * r ^ 2 - 0.54| ≤ 0.013 * (r * (r ^ 2 - 1)) := by
  rcases le_total r 2.29 with h | h
  · have hneg : 0.08 * r ^ 2 - 0.54 ≤ 0 := by nlinarith
    rw [abs_of_nonpos hneg]
    refine (mul_le_mul_of_nonneg_right (h2 h) (by linarith)).trans ?_
    obtain ⟨y, rfl⟩ : ∃ y, r = 1.997 + y := ⟨r - 1.997, by ring⟩
    nlinarith [mul_nonneg (show 0 ≤ y by linarith) (sq_nonneg (y - 0.2)), mul_nonneg (show 0 ≤ y by linarith) (show 0 ≤ 0.293 - y by linarith), sq_nonneg (y - 0.2)]
  · rcases le_total 0 (0.08 * r ^ 2 - 0.54) with hp | hp
    · rw [abs_of_nonneg hp]
      refine (mul_le_of_le_one_left hp h1).trans ?_
      nlinarith [mul_nonneg (show 0 ≤ r by linarith) (sq_nonneg (r - 4.17)), sq_nonneg (r - 4.17)]
    · rw [abs_of_nonpos hp]
      refine (mul_le_of_le_one_left (by linarith) h1).trans ?_
      nlinarith [mul_nonneg (show 0 ≤ r by linarith) (sq_nonneg (r - 2.29)), sq_nonneg (r - 2.29)]

theorem exists_ratio {N : ℕ} (hN : 64 ≤ N) (c : ℝ) : ∃ r, Real.sin c = r * Real.sin (Real.pi / N) :=
  ⟨Real.sin c / Real.sin (Real.pi / N), by have := (bin_facts hN).2.2.1; field_simp⟩

/-- `N` times the sine of one bin. -/
theorem mul_sin_bin {N : ℕ} (hN : 64 ≤ N) : 3.1399 ≤ N * Real.sin (Real.pi / N) := by
  have h := (bin_facts hN).2.2.2.2.1
  have hN' : (0 : ℝ) < N := by exact_mod_cast (by omega : 0 < N)
  have hpi := Real.pi_gt_d4
  have e : (N : ℝ) * (0.9995 * (Real.pi / N)) = 0.9995 * Real.pi := by field_simp
  have := mul_le_mul_of_nonneg_left h hN'.le
  linarith

/-- **C130**, Hann: outside two bins at most 1/30 (29.5 dB down). -/
theorem C130_hann [Target] {N : ℕ} (hN : 64 ≤ N) (hn : N + 1 < usizeMod) (h : Yields b .hann (N + 1) o) :
    SidelobesBelow (N + 1) (items o) (2 * (2 * Real.pi / N)) (1 / 30) := by
  have hs0 := (bin_facts hN).2.2.1
  have hNs := mul_sin_bin hN
  rw [show 2 * (2 * Real.pi / N) = 2 * (2 * (Real.pi / N)) by ring]
  refine sidelobesBelow fun c h1 h2 => ?_
  have hsum : ∑ i ∈ Finset.range (N + 1), items o i = N / 2 := by
    have := (C88_sums hn).1 (by omega) h
    unfold itemSum at this
    simp only [items]
    rw [this]; push_cast; ring
  rw [hsum]
  obtain ⟨r, hr⟩ := exists_ratio hN c
  obtain ⟨hr0, e1, e2⟩ := near_edge hN h1 h2 hr
  have h3 := hann_shape hr0 e1 e2
  have key := congrArg norm (C127_hann (by omega) hn h c)
  rw [show (2 * Real.sin c * (Real.sin (Real.pi / N) ^ 2 - Real.sin c ^ 2) : ℂ) =
      ((2 * Real.sin c * (Real.sin (Real.pi / N) ^ 2 - Real.sin c ^ 2) : ℝ) : ℂ) by push_cast; ring, norm_scaled, norm_centred,
    show (Real.sin (N * c) * Real.cos c * Real.sin (Real.pi / N) ^ 2 : ℂ) = ((Real.sin (N * c) * Real.cos c * Real.sin (Real.pi / N) ^ 2 : ℝ) : ℂ) by
      push_cast; ring, Complex.norm_real, Real.norm_eq_abs, abs_mul (Real.sin (N * c) * _), abs_mul (Real.sin (N * c))] at key
  have hc := Real.abs_cos_le_one c
  rw [hr] at key
  generalize ‖dtft (N + 1) (items o) (2 * c)‖ = D at *
  generalize Real.sin (Real.pi / N) = s at *
  have hg' := abs_nonneg (Real.sin (N * c))
  generalize |Real.sin (N * c)| = g at *
  have hg : r * (r ^ 2 - 1) > 0 := mul_pos (by linarith) (by nlinarith)
  rw [show 2 * (r * s) * (s ^ 2 - (r * s) ^ 2) = -(2 * (r * (r ^ 2 - 1)) * s * s ^ 2) by ring, abs_neg,
    abs_of_pos (by positivity), abs_of_pos (show 0 < s ^ 2 by positivity)] at key
  have key' : 2 * (r * (r ^ 2 - 1)) * s * D = g * |Real.cos c| :=
    mul_right_cancel₀ (show s ^ 2 ≠ 0 by positivity) (by linarith)
  have k1 : g * |Real.cos c| ≤ g := mul_le_of_le_one_right hg' hc
  have k2 : r * (r ^ 2 - 1) * (2 * s * D) ≤ r * (r ^ 2 - 1) * 0.1046 := by linarith
  have k3 := le_of_mul_le_mul_left k2 hg
  have k4 : s * D ≤ s * (1 / 30 * (N / 2)) := by linarith
  exact le_of_mul_le_mul_left k4 hs0

/-- **C130**, Hamming: outside two bins at most 1/100 (40 dB down). -/
theorem C130_hamming [Target] {N : ℕ} (hN : 64 ≤ N) (hn : N + 1 < usizeMod) (h : Yields b .hamming (N + 1) o) :
    SidelobesBelow (N + 1) (items o) (2 * (2 * Real.pi / N)) (1 / 100) := by
  obtain ⟨hd, -, hs0, -⟩ := bin_facts hN
  have hNs := mul_sin_bin hN
  have hN' : (64 : ℝ) ≤ N := by exact_mod_cast hN
  rw [show 2 * (2 * Real.pi / N) = 2 * (2 * (Real.pi / N)) by ring]
  refine sidelobesBelow fun c h1 h2 => ?_
  have hsum : ∑ i ∈ Finset.range (N + 1), items o i = 0.54 * N + 0.08 := by
    have := (C88_sums hn).2.1 (by omega) h
    unfold itemSum at this
    simp only [items]
    rw [this]; push_cast; ring
  rw [hsum]
  obtain ⟨r, hr⟩ := exists_ratio hN c
  obtain ⟨hr0, e1, e2⟩ := near_edge hN h1 h2 hr
  have h3 := hamming_shape hr0 e1 e2
  have hoff : OffLines (cosineCoefs .hamming) N c := offLines (by norm_num [cosineCoefs]; linarith) (by linarith) h2
  have hp := poles_hamming hoff
  have hc := Real.abs_cos_le_one c
  have hcN := Real.abs_cos_le_one (N * c)
  rw [← norm_centred, C129_spectrum (by simp [cosineCoefs]) (by omega) hn h hoff, Complex.norm_real, Real.norm_eq_abs, (C129_ends hn).2.1 h,
    Real.sin_two_mul]
  have hsc : 0 < Real.sin c := by rw [hr]; exact mul_pos (by linarith) hs0
  have hg : r * (r ^ 2 - 1) > 0 := mul_pos (by linarith) (by nlinarith)
  have hr1 : r ^ 2 - 1 ≠ 0 := by nlinarith
  generalize poles (cosineCoefs .hamming) N c = P at *
  have hP : Real.sin c * P * (r * (r ^ 2 - 1)) * Real.sin (Real.pi / N) = 0.08 * r ^ 2 - 0.54 := by
    have : Real.sin c * P * (r * (r ^ 2 - 1)) * Real.sin (Real.pi / N) = Real.sin c ^ 2 * P * (r ^ 2 - 1) := by
      rw [hr]; ring
    rw [this, hp, hr]
    rw [show (r * Real.sin (Real.pi / N)) ^ 2 - Real.sin (Real.pi / N) ^ 2 = (r ^ 2 - 1) * Real.sin (Real.pi / N) ^ 2 by ring]
    field_simp
  refine (abs_add_le _ _).trans ?_
  have t1 : |0.08 * Real.cos (N * c)| ≤ 0.08 := by
    rw [abs_mul, abs_of_pos (by norm_num)]; linarith
  have t2 : |Real.sin (N * c) * (2 * Real.sin c * Real.cos c) / 2 * P| ≤ |Real.sin (N * c)| * |Real.sin c * P| := by
    rw [show Real.sin (N * c) * (2 * Real.sin c * Real.cos c) / 2 * P = Real.sin (N * c) * (Real.sin c * P) * Real.cos c by ring, abs_mul, abs_mul]
    exact mul_le_of_le_one_right (by positivity) hc
  have t3 : |Real.sin (N * c)| * |Real.sin c * P| * Real.sin (Real.pi / N) ≤ 0.013 := by
    rw [← hP, abs_mul, abs_mul (Real.sin c * P), abs_of_pos hg, abs_of_pos hs0] at h3
    exact le_of_mul_le_mul_left (by linarith) hg
  have t4 : |Real.sin (N * c)| * |Real.sin c * P| ≤ 0.013 / 3.1399 * N := by
    refine le_of_mul_le_mul_right (t3.trans ?_) hs0
    linarith
  have t5 : (0.013 / 3.1399 : ℝ) ≤ 0.00415 := by norm_num
  have t6 := mul_le_mul_of_nonneg_right t5 (show (0 : ℝ) ≤ N by linarith)
  linarith

/-! ## The straight windows -/

/-- From the edge on, the squared sines of the closed forms against the squared sine of `c`. -/
theorem line_level {M : ℕ} (hM : 64 ≤ M) {c : ℝ} (h1 : 2 * (Real.pi / M) ≤ c) (h2 : c ≤ Real.pi / 2) :
    Real.sin (M * c / 2) ^ 2 + Real.sin (c / 2) ^ 2 ≤ Real.sin c ^ 2 * (M ^ 2 - 1) / 64 := by
  have hM' : (64 : ℝ) ≤ M := by exact_mod_cast hM
  have hpi := Real.pi_gt_d4
  have hpi' := Real.pi_lt_d4
  have hd : 0 < Real.pi / M := by positivity
  have hc0 : 0 < c := by linarith
  have hsc : 0 < Real.sin c := Real.sin_pos_of_pos_of_lt_pi hc0 (by linarith)
  have hp : Real.sin (c / 2) ^ 2 ≤ Real.sin c ^ 2 / 2 := by
    have e1 : Real.sin c ^ 2 = 4 * Real.sin (c / 2) ^ 2 * (1 - Real.sin (c / 2) ^ 2) := by
      rw [← sin_two_sq, mul_div_cancel₀ _ two_ne_zero]
    have e2 : Real.sin (c / 2) ^ 2 ≤ 1 / 2 := by
      rw [Real.sin_sq_eq_half_sub, mul_div_cancel₀ _ two_ne_zero]
      have := Real.cos_nonneg_of_neg_pi_div_two_le_of_le (show -(Real.pi / 2) ≤ c by linarith) h2
      linarith
    nlinarith [sq_nonneg (Real.sin (c / 2))]
  have hMs : 0 ≤ M * Real.sin c := by positivity
  have hS : Real.sin c ^ 2 * 33 ≤ 0.0081 * (M * Real.sin c) ^ 2 := by
    have : (64 : ℝ) ^ 2 ≤ M ^ 2 := pow_le_pow_left₀ (by norm_num) hM' 2
    have := mul_le_mul_of_nonneg_right this (sq_nonneg (Real.sin c))
    nlinarith
  suffices hq : Real.sin (M * c / 2) ^ 2 ≤ 0.0154 * (M * Real.sin c) ^ 2 by nlinarith
  rcases le_total 8.06 (M * Real.sin c) with hA | hB
  · have := Real.sin_sq_le_one (M * c / 2)
    nlinarith
  · have b1 : Real.sin c ≤ 0.126 := by nlinarith
    have h4 := Real.mul_le_sin hc0.le h2
    have h5 : c ≤ 0.199 := by
      have : 2 / Real.pi * c * Real.pi = 2 * c := by field_simp
      have h6 : 2 / Real.pi * c * Real.pi ≤ 0.126 * 3.1416 := mul_le_mul (h4.trans b1) hpi'.le (by linarith) (by norm_num)
      rw [this] at h6
      linarith
    have h6 := Real.sin_ge_sub_cube hc0.le
    have h7 : c ≤ 0.127 := by
      have : c ^ 2 ≤ 0.199 ^ 2 := pow_le_pow_left₀ hc0.le h5 2
      nlinarith
    have h8 : 0.9973 * c ≤ Real.sin c := by
      have : c ^ 2 ≤ 0.127 ^ 2 := pow_le_pow_left₀ hc0.le h7 2
      nlinarith
    have h9 : 0.9973 * (M * c) ≤ M * Real.sin c := by
      have := mul_le_mul_of_nonneg_left h8 (show (0 : ℝ) ≤ M by linarith)
      linarith
    have h10 : 2 * Real.pi ≤ M * c := by
      have := mul_le_mul_of_nonneg_left h1 (show (0 : ℝ) ≤ M by linarith)
      rw [show (M : ℝ) * (2 * (Real.pi / M)) = 2 * Real.pi by field_simp] at this
      exact this
    have h11 : |Real.sin (M * c / 2)| ≤ 0.124 * (M * Real.sin c) := by
      rw [← abs_neg, ← Real.sin_sub_pi]
      refine Real.abs_sin_le_abs.trans ?_
      rw [abs_of_nonneg (by linarith)]
      linarith
    rw [← sq_abs]
    have := pow_le_pow_left₀ (abs_nonneg _) h11 2
    nlinarith [sq_nonneg (M * Real.sin c)]

/-- From a bound on the closed form to the level of the side lobes. -/
theorem lines_below {M n : ℕ} (hM : 64 ≤ M) {v : ℕ → ℝ} (hv : ((M : ℝ) ^ 2 - 1) / (2 * M) ≤ ∑ i ∈ Finset.range n, v i)
    (h : ∀ c : ℝ, Real.sin c ^ 2 * ‖dtft n v (2 * c)‖ ≤ 2 / M * (Real.sin (M * c / 2) ^ 2 + Real.sin (c / 2) ^ 2)) :
    SidelobesBelow n v (2 * (2 * Real.pi / M)) (1 / 16) := by
  have hM' : (64 : ℝ) ≤ M := by exact_mod_cast hM
  have hpi := Real.pi_gt_three
  rw [show 2 * (2 * Real.pi / M) = 2 * (2 * (Real.pi / M)) by ring]
  refine sidelobesBelow fun c h1 h2 => ?_
  have hd : 0 < Real.pi / M := by positivity
  have hsc : 0 < Real.sin c := Real.sin_pos_of_pos_of_lt_pi (by linarith) (by linarith)
  have h3 := mul_le_mul_of_nonneg_left (line_level hM h1 h2) (show (0 : ℝ) ≤ 2 / M by positivity)
  refine le_trans ?_ (mul_le_mul_of_nonneg_left hv (by norm_num))
  refine le_of_mul_le_mul_left ((h c).trans (h3.trans (le_of_eq ?_))) (show 0 < Real.sin c ^ 2 by positivity)
  field_simp
  ring

theorem sin_mul_sin (x y : ℝ) : Real.sin x * Real.sin y = Real.sin ((x + y) / 2) ^ 2 - Real.sin ((x - y) / 2) ^ 2 := by
  rw [Real.sin_sq_eq_half_sub, Real.sin_sq_eq_half_sub, mul_div_cancel₀ _ two_ne_zero, mul_div_cancel₀ _ two_ne_zero, Real.cos_add, Real.cos_sub]
  ring

theorem usizeMod_even [Target] : 2 ∣ usizeMod := by unfold usizeMod usizeBits; split <;> norm_num

/-- **C130**, Bartlett with `M` steps: outside `4π/M` at most 1/16 (24 dB down). -/
theorem C130_bartlett [Target] {M : ℕ} (hM : 64 ≤ M) (hn : M + 1 < usizeMod) (h : Yields b .bartlett (M + 1) o) :
    SidelobesBelow (M + 1) (items o) (2 * (2 * Real.pi / M)) (1 / 16) := by
  have hM' : (64 : ℝ) ≤ M := by exact_mod_cast hM
  refine lines_below hM ?_ fun c => ?_
  · simp only [items]
    rcases Nat.even_or_odd' M with ⟨m, rfl | rfl⟩
    · have := (C88_sums_lines m (by omega) hn).2.2.2 h
      unfold itemSum at this
      rw [this, div_le_iff₀ (by linarith)]
      push_cast
      linarith
    · have := (C88_sums_lines (m + 1) (by omega) (by have := usizeMod_even; omega)).2.2.1 h
      unfold itemSum at this
      rw [show 2 * m + 1 + 1 = 2 * (m + 1) by ring, this]
      push_cast
      refine le_of_eq ?_
      rw [show 2 * ((m : ℝ) + 1) - 1 = 2 * m + 1 by ring]
      field_simp
      ring
  · obtain ⟨a, d, rfl, had⟩ : ∃ a d, M = a + d ∧ (a = d ∨ a = d + 1) := ⟨M - M / 2, M / 2, by omega, by omega⟩
    have key := congrArg norm (C127_bartlett had (by omega) hn h c)
    rw [show (Real.sin c : ℂ) ^ 2 = ((Real.sin c ^ 2 : ℝ) : ℂ) by push_cast; ring, norm_scaled, norm_centred, abs_of_nonneg (sq_nonneg _),
      show (2 / ((a : ℂ) + d) * (Real.sin (a * c) * Real.sin (d * c))) = ((2 / ((a : ℝ) + d) : ℝ) : ℂ) * ((Real.sin (a * c) * Real.sin (d * c) : ℝ) : ℂ) by
        push_cast; ring, norm_scaled, Complex.norm_real, Real.norm_eq_abs] at key
    rw [key]
    push_cast at hM' ⊢
    rw [abs_of_pos (by positivity)]
    refine mul_le_mul_of_nonneg_left ?_ (by positivity)
    rw [sin_mul_sin, ← add_mul]
    have h0 := sq_nonneg (Real.sin ((a + d) * c / 2))
    have h1 := sq_nonneg (Real.sin (c / 2))
    rcases had with rfl | rfl
    · rw [sub_self, zero_div, Real.sin_zero, abs_le]
      constructor <;> linarith
    · push_cast at h0 ⊢
      rw [show ((d : ℝ) + 1) * c - d * c = c by ring, abs_le]
      constructor <;> linarith

/-- **C130**, Triangular with `M` points: outside `4π/M` at most 1/16 (24 dB down). -/
theorem C130_triangular [Target] {M : ℕ} (hM : 64 ≤ M) (hn : M < usizeMod) (h : Yields b .triangular M o) :
    SidelobesBelow M (items o) (2 * (2 * Real.pi / M)) (1 / 16) := by
  have hM' : (64 : ℝ) ≤ M := by exact_mod_cast hM
  rcases Nat.even_or_odd' M with ⟨m, rfl | rfl⟩
  · refine lines_below hM ?_ fun c => ?_
    · have := (C88_sums_lines m (by omega) (by have := usizeMod_even; omega)).1 h
      unfold itemSum at this
      simp only [items]
      rw [this, div_le_iff₀ (by linarith)]
      push_cast
      linarith
    · obtain ⟨m, rfl⟩ := Nat.exists_eq_add_of_le' (show 1 ≤ m by omega)
      have key := congrArg norm (C127_triangular_even (m := m) (by omega) (by rwa [show 2 * (m + 1) = 2 * m + 2 by ring] at h) c)
      rw [show 2 * (m + 1) = 2 * m + 2 by ring]
      rw [show (Real.sin c : ℂ) ^ 2 = ((Real.sin c ^ 2 : ℝ) : ℂ) by push_cast; ring, norm_scaled, norm_centred, abs_of_nonneg (sq_nonneg _),
        show (2 / (2 * (m : ℂ) + 2) * (Real.cos c * Real.sin ((m + 1) * c) ^ 2)) =
          ((2 / (2 * (m : ℝ) + 2) : ℝ) : ℂ) * ((Real.cos c * Real.sin ((m + 1) * c) ^ 2 : ℝ) : ℂ) by
        push_cast; ring, norm_scaled, Complex.norm_real, Real.norm_eq_abs, abs_mul] at key
      rw [key]
      push_cast
      rw [abs_of_pos (by positivity), show (2 * (m : ℝ) + 2) * c / 2 = (m + 1) * c by ring]
      refine mul_le_mul_of_nonneg_left ?_ (by positivity)
      rw [abs_of_nonneg (sq_nonneg (Real.sin _))]
      have := mul_le_of_le_one_left (sq_nonneg (Real.sin ((m + 1) * c))) (Real.abs_cos_le_one c)
      have := sq_nonneg (Real.sin (c / 2))
      linarith
  · refine lines_below hM ?_ fun c => ?_
    · have := (C88_sums_lines m (by omega) (by omega)).2.1 h
      unfold itemSum at this
      simp only [items]
      rw [this]
      push_cast
      gcongr
      linarith
    · have key := congrArg norm (C127_triangular_odd (m := m) (by omega) h c)
      rw [show (Real.sin c : ℂ) ^ 2 = ((Real.sin c ^ 2 : ℝ) : ℂ) by push_cast; ring, norm_scaled, norm_centred, abs_of_nonneg (sq_nonneg _),
        show (1 / (2 * (m : ℂ) + 1) * (1 - Real.cos c * Real.cos ((2 * m + 1) * c))) =
          ((1 / (2 * (m : ℝ) + 1) : ℝ) : ℂ) * ((1 - Real.cos c * Real.cos ((2 * m + 1) * c) : ℝ) : ℂ) by
        push_cast; ring, norm_scaled, Complex.norm_real, Real.norm_eq_abs] at key
      rw [key]
      push_cast
      rw [abs_of_pos (by positivity), show 2 / (2 * (m : ℝ) + 1) = 1 / (2 * m + 1) * 2 by ring, mul_assoc]
      refine mul_le_mul_of_nonneg_left ?_ (by positivity)
      have e1 : Real.cos c = 1 - 2 * Real.sin (c / 2) ^ 2 := by
        rw [Real.sin_sq_eq_half_sub, mul_div_cancel₀ _ two_ne_zero]; ring
      have e2 : Real.cos ((2 * m + 1) * c) = 1 - 2 * Real.sin ((2 * m + 1) * c / 2) ^ 2 := by
        rw [Real.sin_sq_eq_half_sub, mul_div_cancel₀ _ two_ne_zero]; ring
      rw [e1, e2]
      have p0 := sq_nonneg (Real.sin (c / 2))
      have p1 := Real.sin_sq_le_one (c / 2)
      have q0 := sq_nonneg (Real.sin ((2 * m + 1) * c / 2))
      have q1 := Real.sin_sq_le_one ((2 * m + 1) * c / 2)
      rw [abs_le]
      constructor <;> nlinarith

/-! ## A windowed sinusoid -/

/-- **C130.** A sinusoid through `apply_window`: at every frequency that is outside the main lobes around it and around its mirror image
the spectrum is at most `ρ` times the amplitude times the sum of the window. -/
theorem C130_sinusoid [Target] {w : WindowKind} {n : ℕ} (hn : n < usizeMod) (h : Yields b w n o) {θ₀ ρ : ℝ}
    (hw : SidelobesBelow n (items o) θ₀ ρ) (A φ ω : ℝ) {xs : List ℝ} (hl : xs.length = n)
    (hx : ∀ i < n, xs[i]? = some (A * Real.cos (ω * i + φ))) {θ : ℝ} (h1 : ∀ m : ℤ, θ₀ ≤ |θ - ω - 2 * Real.pi * m|)
    (h2 : ∀ m : ℤ, θ₀ ≤ |θ + ω - 2 * Real.pi * m|) :
    ∃ ys, applyWindow b xs (.shaped w) = .ok ys ∧
      ‖dtft n (fun i => ys[i]?.getD 0) θ‖ ≤ ρ * (|A| * ∑ i ∈ Finset.range n, items o i) := by
  obtain ⟨ys, e1, e2⟩ := C127_sinusoid_leaks hn h A φ ω hl hx (hw _ h1) (hw _ h2)
  exact ⟨ys, e1, e2.trans (le_of_eq (by ring))⟩

/-- A sinusoid at a quarter of the sample rate through a Blackman-Harris window of 65 points: at frequency 0, 16 bins away from it and from
its mirror image, less than a ten-thousandth of `|A|` times the sum 22.96 of the window is left. -/
example [Target] (A φ : ℝ) {xs : List ℝ} (hl : xs.length = 65)
    (hx : ∀ i : ℕ, i < 65 → xs[i]? = some (A * Real.cos (Real.pi / 2 * i + φ))) :
    ∃ ys, applyWindow b xs (.shaped .blackmanHarris) = .ok ys ∧ ‖dtft 65 (fun i => ys[i]?.getD 0) 0‖ ≤ 0.0023 * |A| := by
  have hn : 65 < usizeMod := by unfold usizeMod usizeBits; split <;> norm_num
  have hpi := Real.pi_pos
  obtain ⟨o, h⟩ := (C55_exactly_size_items (T := ℝ) b .blackmanHarris 65 hn).1
  have hfar : ∀ (s : ℝ) (m : ℤ), (s = 1 ∨ s = -1) → 4 * (2 * Real.pi / (64 : ℕ)) ≤ |0 - s * (Real.pi / 2) - 2 * Real.pi * m| := fun s m hs => by
    rw [show 0 - s * (Real.pi / 2) - 2 * Real.pi * m = Real.pi / 2 * (-s - 4 * m) by ring, abs_mul, abs_of_pos (by positivity)]
    have : 1 ≤ |-s - 4 * (m : ℝ)| := by
      rcases hs with rfl | rfl
      · rw [show -(1 : ℝ) - 4 * m = ((-1 - 4 * m : ℤ) : ℝ) by push_cast; ring, ← Int.cast_abs]
        exact_mod_cast Int.one_le_abs (by omega)
      · rw [show -(-1 : ℝ) - 4 * m = ((1 - 4 * m : ℤ) : ℝ) by push_cast; ring, ← Int.cast_abs]
        exact_mod_cast Int.one_le_abs (by omega)
    push_cast
    nlinarith
  obtain ⟨ys, h1, h2⟩ := C130_sinusoid hn h (C130_blackman_harris (N := 64) le_rfl hn h) A φ (Real.pi / 2) hl hx (θ := 0)
    (fun m => by have := hfar 1 m (Or.inl rfl); rwa [one_mul] at this)
    (fun m => by have := hfar (-1) m (Or.inr rfl); rwa [neg_one_mul, sub_neg_eq_add] at this)
  refine ⟨ys, h1, h2.trans ?_⟩
  have hs : ∑ i ∈ Finset.range 65, items o i = 0.35875 * 65 - 0.35869 := by
    have := (C88_sums hn).2.2.2 (by norm_num) h
    unfold itemSum at this
    simp only [items]
    rw [this]; norm_num
  rw [hs]
  nlinarith [abs_nonneg A]

end Rasp
