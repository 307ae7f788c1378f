import Verif.Props.Leakage
import Verif.Spec.Cosines

/-!
# C129: spectra of the cosine windows at every frequency
-/

namespace Rasp
open Complex
variable {b : Build} {o : ℕ → Option ℝ}

/-! ## One cosine -/

/-- `k` turns of a cosine over `N + 1` points: `cos(Nc) + sin(Nc) sin(2c) / (2 (sin² c - sin² kd))`, `d = π/N`. -/
theorem centred_cos {N : ℕ} (hN : 0 < N) (k : ℕ) (c : ℝ) :
    2 * ((Real.sin c ^ 2 - Real.sin (k * (Real.pi / N)) ^ 2 : ℝ) : ℂ) * centred (N + 1) (fun i => Real.cos (k * (2 * Real.pi * i / N))) (2 * c) =
      2 * ((Real.sin c ^ 2 - Real.sin (k * (Real.pi / N)) ^ 2 : ℝ) : ℂ) * Real.cos (N * c) + Real.sin (N * c) * Real.sin (2 * c) := by
  obtain ⟨d, hd⟩ : ∃ d : ℝ, d = k * (Real.pi / N) := ⟨_, rfl⟩
  obtain ⟨u, hu⟩ : ∃ u, u = exp (d * I) := ⟨_, rfl⟩
  obtain ⟨v, hv⟩ : ∃ v, v = exp (-(d * I)) := ⟨_, rfl⟩
  obtain ⟨q, hq⟩ : ∃ q, q = exp (-(c * I)) := ⟨_, rfl⟩
  rw [← hd]
  have huv : u * v = 1 := by rw [hu, hv, exp_half_mul]
  have eu : exp (((2 * d : ℝ) : ℂ) * I) = u ^ 2 := by rw [hu, ← Complex.exp_nat_mul]; congr 1; push_cast; ring
  have ev : exp (-(((2 * d : ℝ) : ℂ) * I)) = v ^ 2 := by rw [hv, exp_half_sq]
  have hval : ∀ i : ℕ, ((Real.cos (k * (2 * Real.pi * i / N)) : ℝ) : ℂ) = 1 / 2 * ((u ^ 2) ^ i + (v ^ 2) ^ i) := fun i => by
    have h2 := cos_half ((i : ℝ) * (2 * d))
    rw [(exp_half_pow (2 * d) i).1, (exp_half_pow (2 * d) i).2, eu, ev] at h2
    rw [← h2, show (k : ℝ) * (2 * Real.pi * i / N) = i * (2 * d) by rw [hd]; ring]
    ring
  have huN : (u ^ 2) ^ N = 1 := by
    rw [← pow_mul, mul_comm, hu, ← Complex.exp_nat_mul, Complex.exp_eq_one_iff]
    exact ⟨k, by
      have : (N : ℂ) ≠ 0 := by exact_mod_cast hN.ne'
      rw [hd]; push_cast; field_simp⟩
  have hvN : (v ^ 2) ^ N = 1 := by
    have : (u ^ 2) ^ N * (v ^ 2) ^ N = 1 := by rw [← mul_pow, ← mul_pow, huv, one_pow, one_pow]
    rwa [huN, one_mul] at this
  have hc := centred_eq c N fun i => Real.cos (k * (2 * Real.pi * i / N))
  generalize centred (N + 1) (fun i => Real.cos (k * (2 * Real.pi * i / N))) (2 * c) = G at hc ⊢
  have k2 := one_sub_pow c N
  have k4 := one_add_pow c N
  have k5 := one_sub_pow c 2
  have kc := cos_half (2 * c)
  have kd := cos_half (2 * d)
  have kp := exp_half_mul c
  have ec := exp_half_sq c
  have ep : exp (((2 * c : ℝ) : ℂ) * I) = exp (c * I) ^ 2 := by rw [← Complex.exp_nat_mul]; congr 1; push_cast; ring
  have hq0 := exp_half_ne c
  rw [ep, ec, ← hq] at kc
  rw [eu, ev] at kd
  rw [← hq] at hc k2 k4 k5 hq0 kp
  rw [Finset.sum_range_succ, hval N, huN, hvN, Finset.sum_congr rfl fun i _ => by rw [hval i]] at hc
  have g1 := geom_sum_mul (u ^ 2 * q ^ 2) N
  have g2 := geom_sum_mul (v ^ 2 * q ^ 2) N
  rw [mul_pow, huN, one_mul] at g1
  rw [mul_pow, hvN, one_mul] at g2
  have es : ∑ i ∈ Finset.range N, 1 / 2 * ((u ^ 2) ^ i + (v ^ 2) ^ i) * (q ^ 2) ^ i =
      1 / 2 * (∑ i ∈ Finset.range N, (u ^ 2 * q ^ 2) ^ i + ∑ i ∈ Finset.range N, (v ^ 2 * q ^ 2) ^ i) := by
    rw [← Finset.sum_add_distrib, Finset.mul_sum]
    exact Finset.sum_congr rfl fun i _ => by rw [mul_pow, mul_pow]; ring
  rw [es] at hc
  generalize ∑ i ∈ Finset.range N, (u ^ 2 * q ^ 2) ^ i = S1 at *
  generalize ∑ i ∈ Finset.range N, (v ^ 2 * q ^ 2) ^ i = S2 at *
  have hW : (q ^ 2) ^ N = q ^ N * q ^ N := by rw [← pow_mul, mul_comm, pow_mul, sq]
  have hs : 4 * ((Real.sin c ^ 2 - Real.sin d ^ 2 : ℝ) : ℂ) * q ^ 2 = -((u ^ 2 * q ^ 2 - 1) * (v ^ 2 * q ^ 2 - 1)) := by
    have h1 : Real.sin c ^ 2 - Real.sin d ^ 2 = (Real.cos (2 * d) - Real.cos (2 * c)) / 2 := by
      rw [Real.sin_sq_eq_half_sub, Real.sin_sq_eq_half_sub]; ring
    have h2 : (u * v) ^ 2 = 1 := by rw [huv, one_pow]
    have h3 : exp (c * I) ^ 2 * q ^ 2 = 1 := by rw [← mul_pow, kp, one_pow]
    rw [h1]
    push_cast at kc kd ⊢
    linear_combination (-q ^ 2) * kc + q ^ 2 * kd - h3 + q ^ 4 * h2
  generalize ((Real.sin c ^ 2 - Real.sin d ^ 2 : ℝ) : ℂ) = Δ at hs ⊢
  rw [hW] at k2 k4 g1 g2 hc
  have hz0 : q ^ N ≠ 0 := pow_ne_zero _ hq0
  have hI := Complex.I_mul_I
  have hc2 : ((Real.sin (2 * c) : ℝ) : ℂ) = (Real.sin ((2 : ℕ) * c) : ℂ) := by push_cast; rfl
  rw [hc2]
  generalize exp (c * I) = p at *
  generalize (Real.sin (N * c) : ℂ) = a at *
  generalize (Real.cos (N * c) : ℂ) = e at *
  generalize (Real.sin ((2 : ℕ) * c) : ℂ) = s at *
  generalize q ^ N = z at *
  have huv2 : u ^ 2 * v ^ 2 = 1 := by rw [← mul_pow, huv, one_pow]
  refine mul_left_cancel₀ (a := 2 * q ^ 2 * z) (by simp [hq0, hz0]) ?_
  linear_combination 4 * Δ * q ^ 2 * hc + (1 / 2 * (S1 + S2) + z ^ 2 - z * e) * hs - 1 / 2 * (v ^ 2 * q ^ 2 - 1) * g1 -
    1 / 2 * (u ^ 2 * q ^ 2 - 1) * g2 - (u ^ 2 * q ^ 2 - 1) * (v ^ 2 * q ^ 2 - 1) / 2 * k4 + 1 / 2 * (1 - z ^ 2) * q ^ 4 * huv2 +
    1 / 2 * (q ^ 4 - 1) * k2 - I * z * a * k5 - 2 * q ^ 2 * z * a * s * hI

/-! ## Sums of cosines -/

theorem centred_sum {n K : ℕ} {v : ℕ → ℝ} (a : ℕ → ℝ) (g : ℕ → ℕ → ℝ) (θ : ℝ) (hv : ∀ i < n, v i = ∑ k ∈ Finset.range K, a k * g k i) :
    centred n v θ = ∑ k ∈ Finset.range K, (a k : ℂ) * centred n (g k) θ := by
  unfold centred dtft
  rw [Finset.sum_congr rfl fun i hi => by rw [hv i (Finset.mem_range.1 hi)]]
  push_cast
  simp only [Finset.sum_mul, Finset.mul_sum]
  rw [Finset.sum_comm]
  exact Finset.sum_congr rfl fun k _ => Finset.sum_congr rfl fun i _ => by ring

theorem items_cosines [Target] {w : WindowKind} (hw : cosineCoefs w ≠ []) {N : ℕ} (hn : N + 1 < usizeMod) (h : Yields b w (N + 1) o)
    {i : ℕ} (hi : i < N + 1) :
    items o i = ∑ k ∈ Finset.range (cosineCoefs w).length, (cosineCoefs w).getD k 0 * Real.cos (k * (2 * Real.pi * i / N)) := by
  rw [items_eq hn h hi]
  cases w <;> simp [cosineCoefs] at hw <;> simp [cosineCoefs, shape, Finset.sum_range_succ] <;> ring

/-- **C129.** The cosine windows with `N + 1` points at `2c` radians per sample, counted from the middle: the first sample times `cos(Nc)`,
and `sin(Nc) sin(2c) / 2` times the sum of `a_k / (sin² c - sin² (kπ/N))`. -/
theorem C129_spectrum [Target] {w : WindowKind} (hw : cosineCoefs w ≠ []) {N : ℕ} (hN : 0 < N) (hn : N + 1 < usizeMod)
    (h : Yields b w (N + 1) o) {c : ℝ} (hc : OffLines (cosineCoefs w) N c) :
    centred (N + 1) (items o) (2 * c) =
      ((items o 0 * Real.cos (N * c) + Real.sin (N * c) * Real.sin (2 * c) / 2 * poles (cosineCoefs w) N c : ℝ) : ℂ) := by
  have h0 : items o 0 = ∑ k ∈ Finset.range (cosineCoefs w).length, (cosineCoefs w).getD k 0 := by
    rw [items_cosines hw hn h (by omega)]
    exact Finset.sum_congr rfl fun k _ => by simp
  rw [centred_sum _ _ _ fun i hi => items_cosines hw hn h hi, h0]
  unfold poles
  rw [Finset.sum_mul, Finset.mul_sum, ← Finset.sum_add_distrib]
  push_cast
  refine Finset.sum_congr rfl fun k hk => ?_
  have key := centred_cos hN k c
  have hne := sub_ne_zero.mpr (hc k (Finset.mem_range.1 hk))
  have hne' : ((Real.sin c ^ 2 - Real.sin (k * (Real.pi / N)) ^ 2 : ℝ) : ℂ) ≠ 0 := by exact_mod_cast hne
  push_cast at key hne' ⊢
  rw [eq_comm, ← sub_eq_zero]
  have : ∀ D G x y a : ℂ, D ≠ 0 → 2 * D * G = 2 * D * x + y → a * x + y / 2 * (a / D) - a * G = 0 := by
    intro D G x y a hD h
    field_simp
    linear_combination (-a) * h
  exact this _ _ _ _ _ hne' key

/-- **C129.** At whole numbers of turns that are not those of a cosine only the size of the first sample is left. -/
theorem C129_bins [Target] {w : WindowKind} (hw : cosineCoefs w ≠ []) {N : ℕ} (hN : 0 < N) (hn : N + 1 < usizeMod)
    (h : Yields b w (N + 1) o) (j : ℤ) (hc : OffLines (cosineCoefs w) N (j * (Real.pi / N))) :
    centred (N + 1) (items o) (2 * (j * (Real.pi / N))) = (((-1) ^ j * items o 0 : ℝ) : ℂ) := by
  have hN' : (N : ℝ) ≠ 0 := by exact_mod_cast hN.ne'
  rw [C129_spectrum hw hN hn h hc, show (N : ℝ) * (j * (Real.pi / N)) = j * Real.pi by field_simp, Real.sin_int_mul_pi, Real.cos_int_mul_pi]
  congr 1
  ring

/-- **C129.** The first samples: only Hamming and Blackman-Harris have any left. -/
theorem C129_ends [Target] {N : ℕ} (hn : N + 1 < usizeMod) :
    (Yields b .hann (N + 1) o → items o 0 = 0) ∧ (Yields b .hamming (N + 1) o → items o 0 = 0.08) ∧
    (Yields b .blackman (N + 1) o → items o 0 = 0) ∧ (Yields b .blackmanHarris (N + 1) o → items o 0 = 0.00006) := by
  refine ⟨fun h => ?_, fun h => ?_, fun h => ?_, fun h => ?_⟩ <;>
  · rw [items_eq hn h (by omega)]
    norm_num [shape]

/-- Beyond the main lobe no cosine is met. -/
theorem offLines {a : List ℝ} {N : ℕ} {c : ℝ} (h1 : (a.length - 1) * (Real.pi / N) < c) (h0 : 0 < c) (h2 : c ≤ Real.pi / 2) : OffLines a N c := by
  intro k hk
  have hd : 0 ≤ Real.pi / N := by positivity
  have hk' : (k : ℝ) * (Real.pi / N) < c := by
    refine lt_of_le_of_lt (mul_le_mul_of_nonneg_right ?_ hd) h1
    have : (k : ℝ) + 1 ≤ a.length := by exact_mod_cast hk
    linarith
  have hk0 : 0 ≤ (k : ℝ) * (Real.pi / N) := by positivity
  have h3 := Real.sin_lt_sin_of_lt_of_le_pi_div_two (by linarith) h2 hk'
  have h4 := Real.sin_nonneg_of_nonneg_of_le_pi hk0 (by linarith [Real.pi_pos])
  exact (pow_lt_pow_left₀ h3 h4 (by norm_num)).ne'

/-- **C129.** Where both the first sample and `sin² c` times the sum over the cosines are at most `M`, the leakage is at most `M / |sin c|`. -/
theorem C129_leaks [Target] {w : WindowKind} (hw : cosineCoefs w ≠ []) {N : ℕ} (hN : 0 < N) (hn : N + 1 < usizeMod)
    (h : Yields b w (N + 1) o) {c M : ℝ} (hc : OffLines (cosineCoefs w) N c) (h0 : |items o 0| ≤ M)
    (hM : |Real.sin c ^ 2 * poles (cosineCoefs w) N c| ≤ M) : |Real.sin c| * ‖dtft (N + 1) (items o) (2 * c)‖ ≤ M := by
  have hM0 : 0 ≤ M := (abs_nonneg _).trans h0
  rw [← norm_centred, C129_spectrum hw hN hn h hc, Complex.norm_real, Real.norm_eq_abs, ← abs_mul]
  refine abs_le_of_sq_le_sq ?_ hM0
  obtain ⟨P, hP⟩ : ∃ P, P = Real.sin c ^ 2 * poles (cosineCoefs w) N c := ⟨_, rfl⟩
  rw [← hP] at hM
  have e : Real.sin c * (items o 0 * Real.cos (N * c) + Real.sin (N * c) * Real.sin (2 * c) / 2 * poles (cosineCoefs w) N c) =
      Real.cos (N * c) * (items o 0 * Real.sin c) + Real.sin (N * c) * (P * Real.cos c) := by
    rw [hP, Real.sin_two_mul]; ring
  rw [e]
  have h1 := Real.sin_sq_add_cos_sq (N * c)
  have h2 := Real.sin_sq_add_cos_sq c
  have h3 := sq_le_sq' (abs_le.mp h0).1 (abs_le.mp h0).2
  have h4 := sq_le_sq' (abs_le.mp hM).1 (abs_le.mp hM).2
  have h5 : (items o 0 * Real.sin c) ^ 2 + (P * Real.cos c) ^ 2 ≤ M ^ 2 := by
    have := mul_le_mul_of_nonneg_right h3 (sq_nonneg (Real.sin c))
    have := mul_le_mul_of_nonneg_right h4 (sq_nonneg (Real.cos c))
    nlinarith
  have h6 : ∀ s t x y : ℝ, s ^ 2 + t ^ 2 = 1 → (t * x + s * y) ^ 2 ≤ x ^ 2 + y ^ 2 := by
    intro s t x y hst
    have : (t * x + s * y) ^ 2 = (s ^ 2 + t ^ 2) * (x ^ 2 + y ^ 2) - (s * x - t * y) ^ 2 := by ring
    rw [this, hst]
    nlinarith [sq_nonneg (s * x - t * y)]
  exact (h6 _ _ _ _ h1).trans h5

theorem poles_hamming {N : ℕ} {c : ℝ} (hc : OffLines (cosineCoefs .hamming) N c) :
    Real.sin c ^ 2 * poles (cosineCoefs .hamming) N c =
      (0.08 * Real.sin c ^ 2 - 0.54 * Real.sin (Real.pi / N) ^ 2) / (Real.sin c ^ 2 - Real.sin (Real.pi / N) ^ 2) := by
  have h0 := sub_ne_zero.mpr (hc 0 (by simp [cosineCoefs]))
  have h1 := sub_ne_zero.mpr (hc 1 (by simp [cosineCoefs]))
  simp [poles, cosineCoefs, Finset.sum_range_succ] at h0 h1 ⊢
  field_simp
  ring

theorem sin_two_sq (d : ℝ) : Real.sin (2 * d) ^ 2 = 4 * Real.sin d ^ 2 * (1 - Real.sin d ^ 2) := by
  rw [Real.sin_two_mul]
  have := Real.sin_sq_add_cos_sq d
  rw [show 1 - Real.sin d ^ 2 = Real.cos d ^ 2 by linarith]
  ring

theorem sin_three_sq (d : ℝ) : Real.sin (3 * d) ^ 2 = Real.sin d ^ 2 * (3 - 4 * Real.sin d ^ 2) ^ 2 := by
  rw [Real.sin_three_mul]; ring

theorem poles_blackman {N : ℕ} {c : ℝ} (hc : OffLines (cosineCoefs .blackman) N c) :
    Real.sin c ^ 2 * poles (cosineCoefs .blackman) N c =
      Real.sin (Real.pi / N) ^ 2 * (0.42 * Real.sin (2 * (Real.pi / N)) ^ 2 - (0.18 + 0.32 * Real.sin (Real.pi / N) ^ 2) * Real.sin c ^ 2) /
        ((Real.sin c ^ 2 - Real.sin (Real.pi / N) ^ 2) * (Real.sin c ^ 2 - Real.sin (2 * (Real.pi / N)) ^ 2)) := by
  have h0 := sub_ne_zero.mpr (hc 0 (by simp [cosineCoefs]))
  have h1 := sub_ne_zero.mpr (hc 1 (by simp [cosineCoefs]))
  have h2 := sub_ne_zero.mpr (hc 2 (by simp [cosineCoefs]))
  have hs := sin_two_sq (Real.pi / N)
  simp [poles, cosineCoefs, Finset.sum_range_succ] at h0 h1 h2 ⊢
  generalize Real.sin (2 * (Real.pi / N)) ^ 2 = s2 at *
  generalize Real.sin (Real.pi / N) ^ 2 = s1 at *
  field_simp
  linear_combination 0.08 * Real.sin c ^ 2 * hs

/-- **C129**, Hamming: from `sin² c = 31/8 sin² (π/N)` on (less than two bins) at most `0.08 / |sin c|`. -/
theorem C129_hamming [Target] {N : ℕ} (hN : 0 < N) (hn : N + 1 < usizeMod) (h : Yields b .hamming (N + 1) o) {c : ℝ}
    (hc0 : Real.sin c ≠ 0) (hc : 31 * Real.sin (Real.pi / N) ^ 2 ≤ 8 * Real.sin c ^ 2) :
    |Real.sin c| * ‖dtft (N + 1) (items o) (2 * c)‖ ≤ 0.08 := by
  have hs := sq_nonneg (Real.sin (Real.pi / N))
  have hc1 : 0 < Real.sin c ^ 2 := by positivity
  have hlt : Real.sin (Real.pi / N) ^ 2 < Real.sin c ^ 2 := by linarith
  have hoff : OffLines (cosineCoefs .hamming) N c := by
    intro k hk
    have hk : k < 2 := by simpa [cosineCoefs] using hk
    obtain rfl | rfl : k = 0 ∨ k = 1 := by omega
    · simpa using hc0
    · simpa using hlt.ne'
  refine C129_leaks (by simp [cosineCoefs]) hN hn h hoff (by rw [(C129_ends hn).2.1 h]; norm_num [abs_of_pos]) ?_
  rw [poles_hamming hoff, abs_div, abs_of_pos (show 0 < Real.sin c ^ 2 - Real.sin (Real.pi / N) ^ 2 by linarith),
    div_le_iff₀ (by linarith), abs_le]
  constructor <;> linarith

/-- **C129**, Blackman: like the third power of the distance, `sin² d ((0.18 + 0.32 sin² d) sin² c - 0.42 sin² 2d)` over
`sin c (sin² c - sin² d) (sin² c - sin² 2d)`, `d = π/N`. -/
theorem C129_blackman [Target] {N : ℕ} (hN : 0 < N) (hn : N + 1 < usizeMod) (h : Yields b .blackman (N + 1) o) {c : ℝ}
    (hc : OffLines (cosineCoefs .blackman) N c) :
    |Real.sin c| * ‖dtft (N + 1) (items o) (2 * c)‖ ≤ Real.sin (Real.pi / N) ^ 2 *
      |(0.18 + 0.32 * Real.sin (Real.pi / N) ^ 2) * Real.sin c ^ 2 - 0.42 * Real.sin (2 * (Real.pi / N)) ^ 2| /
        (|Real.sin c ^ 2 - Real.sin (Real.pi / N) ^ 2| * |Real.sin c ^ 2 - Real.sin (2 * (Real.pi / N)) ^ 2|) := by
  refine C129_leaks (by simp [cosineCoefs]) hN hn h hc (by rw [(C129_ends hn).2.2.1 h, abs_zero]; positivity) ?_
  rw [poles_blackman hc, abs_div, abs_mul, abs_mul, abs_of_nonneg (sq_nonneg (Real.sin (Real.pi / N))), abs_sub_comm (0.42 * _)]

/-! Non-vacuity. -/

/-- The Hamming window of 65 points at bin 16 (a quarter of the sample rate): the spectrum is exactly 0.08, and so it is at most that over `sin(π/4)`. -/
example [Target] : ∃ o, Yields b .hamming 65 o ∧ OffLines (cosineCoefs .hamming) 64 ((16 : ℤ) * (Real.pi / (64 : ℕ))) ∧
    centred 65 (items o) (2 * ((16 : ℤ) * (Real.pi / (64 : ℕ)))) = ((0.08 : ℝ) : ℂ) := by
  have hn : 64 + 1 < usizeMod := by unfold usizeMod usizeBits; split <;> norm_num
  obtain ⟨o, h⟩ := (C55_exactly_size_items (T := ℝ) b .hamming 65 hn).1
  have hpi := Real.pi_pos
  have hoff : OffLines (cosineCoefs .hamming) 64 ((16 : ℤ) * (Real.pi / (64 : ℕ))) :=
    offLines (by norm_num [cosineCoefs]; linarith) (by positivity) (by norm_num; linarith)
  refine ⟨o, h, hoff, ?_⟩
  rw [C129_bins (by simp [cosineCoefs]) (by norm_num) hn h 16 hoff, (C129_ends hn).2.1 h]
  norm_num

end Rasp
