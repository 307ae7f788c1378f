import Verif.Spec.Spectrum
import Verif.Props.Windows
import Mathlib.Algebra.Field.GeomSum

/-!
# C111: spectra of the windows
-/

namespace Rasp
open Complex
variable {b : Build} {o : ℕ → Option ℝ}

/-- The sum over a whole number of turns. -/
theorem sum_turns {N : ℕ} (hN : 0 < N) (k : ℤ) : ∑ i ∈ Finset.range N, exp (-(2 * Real.pi * I * k * i / N)) = N * atBin N k := by
  have hN' : (N : ℂ) ≠ 0 := by exact_mod_cast hN.ne'
  have h2 : (2 * (Real.pi : ℂ) * I) ≠ 0 := by simp [Real.pi_ne_zero]
  obtain ⟨ζ, hζ⟩ : ∃ ζ, ζ = exp (-(2 * Real.pi * I * k / N)) := ⟨_, rfl⟩
  have hp : ∀ i : ℕ, exp (-(2 * Real.pi * I * k * i / N)) = ζ ^ i := fun i => by
    rw [hζ, ← Complex.exp_nat_mul]; congr 1; ring
  simp only [hp]
  unfold atBin
  split_ifs with h
  · obtain ⟨j, rfl⟩ := h
    have : ζ = 1 := by
      rw [hζ, Complex.exp_eq_one_iff]
      exact ⟨-j, by push_cast; field_simp⟩
    simp [this]
  · have h1 : ζ ≠ 1 := by
      rw [hζ, Ne, Complex.exp_eq_one_iff]
      rintro ⟨j, hj⟩
      apply h
      refine ⟨-j, ?_⟩
      have : -((k : ℂ) / N) = j := by
        apply mul_left_cancel₀ h2
        linear_combination hj
      have h3 : (k : ℂ) = N * (-j) := by
        rw [← this]; field_simp
      exact_mod_cast h3
    have hN1 : ζ ^ N = 1 := by
      rw [hζ, ← Complex.exp_nat_mul, Complex.exp_eq_one_iff]
      exact ⟨-k, by push_cast; field_simp⟩
    rw [geom_sum_eq h1, hN1, sub_self, zero_div, mul_zero]

theorem dft_const {N : ℕ} (hN : 0 < N) (c : ℝ) (k : ℤ) : dft N (fun _ => c) k = N * (c * atBin N k) := by
  unfold dft
  rw [← Finset.mul_sum, sum_turns hN]; ring

/-- A cosine that turns `j` times in the `N` samples. -/
theorem dft_cos {N : ℕ} (hN : 0 < N) (v : ℕ → ℝ) (A φ : ℝ) (j k : ℤ) :
    dft N (fun i => v i * (A * Real.cos (2 * Real.pi * j * i / N + φ))) k =
      A / 2 * (exp (φ * I) * dft N v (k - j) + exp (-(φ * I)) * dft N v (k + j)) := by
  have hN' : (N : ℂ) ≠ 0 := by exact_mod_cast hN.ne'
  unfold dft
  rw [Finset.mul_sum, Finset.mul_sum, ← Finset.sum_add_distrib, Finset.mul_sum]
  refine Finset.sum_congr rfl fun i _ => ?_
  push_cast
  rw [Complex.cos]
  have e1 : exp ((2 * Real.pi * j * i / N + φ) * I) * exp (-(2 * Real.pi * I * k * i / N)) = exp (φ * I) * exp (-(2 * Real.pi * I * (k - j) * i / N)) := by
    rw [← Complex.exp_add, ← Complex.exp_add]; congr 1; ring
  have e2 : exp (-(2 * Real.pi * j * i / N + φ) * I) * exp (-(2 * Real.pi * I * k * i / N)) = exp (-(φ * I)) * exp (-(2 * Real.pi * I * (k + j) * i / N)) := by
    rw [← Complex.exp_add, ← Complex.exp_add]; congr 1; ring
  linear_combination (v i * A / 2 : ℂ) * e1 + (v i * A / 2 : ℂ) * e2

theorem dft_add (N : ℕ) (u v : ℕ → ℝ) (k : ℤ) : dft N (fun i => u i + v i) k = dft N u k + dft N v k := by
  unfold dft
  rw [← Finset.sum_add_distrib]
  exact Finset.sum_congr rfl fun i _ => by push_cast; ring

theorem dft_congr {N : ℕ} {u v : ℕ → ℝ} (h : ∀ i < N, u i = v i) (k : ℤ) : dft N u k = dft N v k := by
  unfold dft
  exact Finset.sum_congr rfl fun i hi => by rw [h i (Finset.mem_range.mp hi)]

private theorem dft_cosines {N : ℕ} (hN : 0 < N) (c0 c1 c2 c3 : ℝ) (k : ℤ) :
    dft N (fun i => c0 + c1 * Real.cos (2 * Real.pi * i / N) + c2 * Real.cos (2 * (2 * Real.pi * i / N)) + c3 * Real.cos (3 * (2 * Real.pi * i / N))) k =
      N * (c0 * atBin N k + c1 / 2 * (atBin N (k - 1) + atBin N (k + 1)) + c2 / 2 * (atBin N (k - 2) + atBin N (k + 2)) +
        c3 / 2 * (atBin N (k - 3) + atBin N (k + 3))) := by
  have h1 := dft_cos hN (fun _ => 1) c1 0 1 k
  have h2 := dft_cos hN (fun _ => 1) c2 0 2 k
  have h3 := dft_cos hN (fun _ => 1) c3 0 3 k
  simp only [dft_const hN] at h1 h2 h3
  have h0 := dft_const hN c0 k
  have : (fun i : ℕ => c0 + c1 * Real.cos (2 * Real.pi * i / N) + c2 * Real.cos (2 * (2 * Real.pi * i / N)) + c3 * Real.cos (3 * (2 * Real.pi * i / N))) =
      fun i : ℕ => ((c0 + 1 * (c1 * Real.cos (2 * Real.pi * (1 : ℤ) * i / N + 0))) + 1 * (c2 * Real.cos (2 * Real.pi * (2 : ℤ) * i / N + 0))) +
        1 * (c3 * Real.cos (2 * Real.pi * (3 : ℤ) * i / N + 0)) := by
    funext i
    push_cast
    rw [show 2 * (2 * Real.pi * i / N) = 2 * Real.pi * 2 * i / N + 0 by ring, show 3 * (2 * Real.pi * i / N) = 2 * Real.pi * 3 * i / N + 0 by ring,
      show 2 * Real.pi * i / N = 2 * Real.pi * 1 * i / N + 0 by ring]
    ring
  rw [this, dft_add, dft_add, dft_add, h0, h1, h2, h3]
  simp
  ring

private theorem item [Target] {k : WindowKind} {N : ℕ} (hn : N + 1 < usizeMod) (h : Yields b k (N + 1) o) {i : ℕ} (hi : i < N) :
    (o i).getD 0 = shape k ((N : ℝ) + 1) i := by
  rw [C55_values b k (N + 1) hn o h i (by omega), Option.getD_some]; push_cast; rfl

/-- **C111.** The spectra of the four cosine windows with `N + 1` points, transformed over `N` points (one turn of the cosine): nothing outside
one, one, two and three bins around zero. -/
theorem C111_spectra [Target] {N : ℕ} (hN : 0 < N) (hn : N + 1 < usizeMod) (k : ℤ) :
    (Yields b .hann (N + 1) o → dft N (fun i => (o i).getD 0) k = N * (1 / 2 * atBin N k - 1 / 4 * (atBin N (k - 1) + atBin N (k + 1)))) ∧
    (Yields b .hamming (N + 1) o → dft N (fun i => (o i).getD 0) k = N * (0.54 * atBin N k - 0.23 * (atBin N (k - 1) + atBin N (k + 1)))) ∧
    (Yields b .blackman (N + 1) o → dft N (fun i => (o i).getD 0) k = N * (0.42 * atBin N k - 0.25 * (atBin N (k - 1) + atBin N (k + 1)) +
      0.04 * (atBin N (k - 2) + atBin N (k + 2)))) ∧
    (Yields b .blackmanHarris (N + 1) o → dft N (fun i => (o i).getD 0) k = N * (0.35875 * atBin N k -
      0.244145 * (atBin N (k - 1) + atBin N (k + 1)) + 0.07064 * (atBin N (k - 2) + atBin N (k + 2)) - 0.00584 * (atBin N (k - 3) + atBin N (k + 3)))) := by
  refine ⟨fun h => ?_, fun h => ?_, fun h => ?_, fun h => ?_⟩
  · have := dft_cosines hN (1 / 2) (-1 / 2) 0 0 k
    rw [dft_congr (v := fun i => 1 / 2 + -1 / 2 * Real.cos (2 * Real.pi * i / N) + 0 * Real.cos (2 * (2 * Real.pi * i / N)) +
      0 * Real.cos (3 * (2 * Real.pi * i / N))) (fun i hi => by rw [item hn h hi]; simp only [shape, add_sub_cancel_right]; ring), this]
    push_cast; ring
  · have := dft_cosines hN 0.54 (-0.46) 0 0 k
    rw [dft_congr (v := fun i => 0.54 + -0.46 * Real.cos (2 * Real.pi * i / N) + 0 * Real.cos (2 * (2 * Real.pi * i / N)) +
      0 * Real.cos (3 * (2 * Real.pi * i / N))) (fun i hi => by rw [item hn h hi]; simp only [shape, add_sub_cancel_right]; ring), this]
    push_cast; ring
  · have := dft_cosines hN 0.42 (-0.5) 0.08 0 k
    rw [dft_congr (v := fun i => 0.42 + -0.5 * Real.cos (2 * Real.pi * i / N) + 0.08 * Real.cos (2 * (2 * Real.pi * i / N)) +
      0 * Real.cos (3 * (2 * Real.pi * i / N))) (fun i hi => by rw [item hn h hi]; simp only [shape, add_sub_cancel_right]; ring), this]
    push_cast; ring
  · have := dft_cosines hN 0.35875 (-0.48829) 0.14128 (-0.01168) k
    rw [dft_congr (v := fun i => 0.35875 + -0.48829 * Real.cos (2 * Real.pi * i / N) + 0.14128 * Real.cos (2 * (2 * Real.pi * i / N)) +
      -0.01168 * Real.cos (3 * (2 * Real.pi * i / N))) (fun i hi => by rw [item hn h hi]; simp only [shape, add_sub_cancel_right]; ring), this]
    push_cast; ring

/-- **C111.** `apply_window` on a sinusoid that turns `j` times in `N` samples, for any window: its spectrum is the window's, moved to bins `j`
and `-j`. -/
theorem C111_sinusoid [Target] {w : WindowKind} {N : ℕ} (hN : 0 < N) (hn : N + 1 < usizeMod) (h : Yields b w (N + 1) o) (A φ : ℝ) (j : ℤ)
    {xs : List ℝ} (hl : xs.length = N + 1) (hx : ∀ i < N, xs[i]? = some (A * Real.cos (2 * Real.pi * j * i / N + φ))) :
    ∃ ys, applyWindow b xs (.shaped w) = .ok ys ∧ ys.length = N + 1 ∧ ∀ k : ℤ, dft N (fun i => ys[i]?.getD 0) k =
      A / 2 * (exp (φ * I) * dft N (fun i => (o i).getD 0) (k - j) + exp (-(φ * I)) * dft N (fun i => (o i).getD 0) (k + j)) := by
  obtain ⟨ys, h1, h2, h3⟩ := C57_pointwise b w xs (by rw [hl]; exact hn) o (by rw [hl]; exact h)
  refine ⟨ys, h1, h2.trans hl, fun k => ?_⟩
  rw [← dft_cos hN]
  refine dft_congr (fun i hi => ?_) k
  obtain ⟨g, g1, g2⟩ := h3 i (by omega)
  have h4 := hx i hi
  rw [List.getElem?_eq_getElem (by omega)] at h4
  rw [g1, g2, Option.some.inj h4]
  rfl

theorem atBin_zero_of_lt {N : ℕ} {k : ℤ} (h0 : 0 < k) (h1 : k < N) : atBin N k = 0 := by
  unfold atBin
  rw [if_neg]
  intro h
  have := Int.le_of_dvd h0 h
  omega

/-- **C111.** So a sinusoid on bin `j` windowed with Hann or Hamming leaves nothing in the bins more than one away, with Blackman two and with
Blackman-Harris three. -/
theorem C111_no_leakage [Target] {w : WindowKind} {d : ℤ} (hw : (w = .hann ∧ d = 1) ∨ (w = .hamming ∧ d = 1) ∨ (w = .blackman ∧ d = 2) ∨
      (w = .blackmanHarris ∧ d = 3)) {N : ℕ} (hn : N + 1 < usizeMod) (A φ : ℝ) {j k : ℤ} (hj : 0 ≤ j) (hk : 0 ≤ k) (hjk : d < |k - j|) (hs : d < k + j)
    (hjk' : |k - j| + d < N) (hs' : k + j + d < N)
    {xs : List ℝ} (hl : xs.length = N + 1) (hx : ∀ i < N, xs[i]? = some (A * Real.cos (2 * Real.pi * j * i / N + φ))) :
    ∃ ys, applyWindow b xs (.shaped w) = .ok ys ∧ dft N (fun i => ys[i]?.getD 0) k = 0 := by
  have hd : 1 ≤ d := by omega
  have hN : 0 < N := by have := abs_nonneg (k - j); omega
  have key : ∀ q : ℤ, d < |q| → |q| + d < N → ∀ t : ℤ, |t| ≤ d → atBin N (q + t) = 0 := by
    intro q h1 h2 t ht
    rcases abs_cases q with ⟨e, _⟩ | ⟨e, _⟩
    · rw [abs_le] at ht
      exact atBin_zero_of_lt (by omega) (by omega)
    · rw [abs_le] at ht
      have : atBin N (-(q + t)) = 0 := atBin_zero_of_lt (by omega) (by omega)
      unfold atBin at this ⊢
      simpa only [dvd_neg] using this
  obtain ⟨o, ho⟩ : ∃ o : ℕ → Option ℝ, Yields b w (N + 1) o := ⟨_, (yields_iff b w hn _).mpr fun i => rfl⟩
  have zero : ∀ q : ℤ, d < |q| → |q| + d < N → dft N (fun i => (o i).getD 0) q = 0 := by
    intro q h1 h2
    have z0 := key q h1 h2 0 (by simp; omega)
    have z1 := key q h1 h2 1 (by simp; omega)
    have z2 := key q h1 h2 (-1) (by simp; omega)
    rw [add_zero] at z0
    rw [← sub_eq_add_neg] at z2
    obtain ⟨c1, c2, c3, c4⟩ := C111_spectra (b := b) (o := o) hN hn q
    rcases hw with ⟨rfl, rfl⟩ | ⟨rfl, rfl⟩ | ⟨rfl, rfl⟩ | ⟨rfl, rfl⟩
    · rw [c1 ho, z0, z1, z2]; simp
    · rw [c2 ho, z0, z1, z2]; simp
    · have z3 := key q h1 h2 2 (by norm_num)
      have z4 := key q h1 h2 (-2) (by norm_num)
      rw [← sub_eq_add_neg] at z4
      rw [c3 ho, z0, z1, z2, z3, z4]; simp
    · have z3 := key q h1 h2 2 (by norm_num)
      have z4 := key q h1 h2 (-2) (by norm_num)
      have z5 := key q h1 h2 3 (by norm_num)
      have z6 := key q h1 h2 (-3) (by norm_num)
      rw [← sub_eq_add_neg] at z4 z6
      rw [c4 ho, z0, z1, z2, z3, z4, z5, z6]; simp
  obtain ⟨ys, h1, -, h2⟩ := C111_sinusoid hN hn ho A φ j hl hx
  refine ⟨ys, h1, ?_⟩
  have hs0 : |k + j| = k + j := abs_of_nonneg (by omega)
  rw [h2, zero _ hjk hjk', zero (k + j) (by rw [hs0]; exact hs) (by rw [hs0]; exact hs')]
  simp

/-! ## All points of the window -/

/-- **C111.** Transformed over all of its `n` points the Hann window is no longer free of leakage: with `z = exp(-2πik/n)` and
`u = exp(2πi/(n-1))` bin `k` holds `(1-u)²(1+z) / (4(1-zu)(u-z))`, which is zero only half way round. -/
theorem C111_hann_full_length [Target] {n : ℕ} (h3 : 3 ≤ n) (hn : n < usizeMod) (h : Yields b .hann n o) {k : ℤ} (hk : ¬ (n : ℤ) ∣ k) :
    (∀ z u : ℂ, z = exp (-(2 * Real.pi * I * k / n)) → u = exp (2 * Real.pi * I / (n - 1)) →
      dft n (fun i => (o i).getD 0) k = (1 - u) ^ 2 * (1 + z) / (4 * ((1 - z * u) * (u - z)))) ∧
    (¬ (n : ℤ) ∣ 2 * k → dft n (fun i => (o i).getD 0) k ≠ 0) := by
  obtain ⟨N, rfl⟩ : ∃ N, n = N + 1 := ⟨n - 1, by omega⟩
  have hN : (N : ℂ) ≠ 0 := by have : N ≠ 0 := by omega
                              exact_mod_cast this
  have hn0 : ((N : ℂ) + 1) ≠ 0 := by exact_mod_cast (Nat.succ_ne_zero N)
  have h2 : (2 * (Real.pi : ℂ) * I) ≠ 0 := by simp [Real.pi_ne_zero]
  obtain ⟨z, hz⟩ : ∃ z, z = exp (-(2 * Real.pi * I * k / (N + 1 : ℕ))) := ⟨_, rfl⟩
  obtain ⟨u, hu⟩ : ∃ u, u = exp (2 * Real.pi * I / ((N + 1 : ℕ) - 1)) := ⟨_, rfl⟩
  push_cast at hz hu
  rw [add_sub_cancel_right] at hu
  have hzpow : z ^ (N + 1) = 1 := by
    rw [hz, ← Complex.exp_nat_mul, Complex.exp_eq_one_iff]
    exact ⟨-k, by push_cast; field_simp⟩
  have hupow : u ^ N = 1 := by
    rw [hu, ← Complex.exp_nat_mul, Complex.exp_eq_one_iff]
    exact ⟨1, by push_cast; field_simp⟩
  have hu0 : u ≠ 0 := by rw [hu]; exact Complex.exp_ne_zero _
  have hz0 : z ≠ 0 := by rw [hz]; exact Complex.exp_ne_zero _
  have zpow_one : ∀ j : ℤ, exp (-(2 * Real.pi * I * j / (N + 1))) = 1 → ((N + 1 : ℕ) : ℤ) ∣ j := by
    intro j hj
    rw [Complex.exp_eq_one_iff] at hj
    obtain ⟨m, hm⟩ := hj
    refine ⟨-m, ?_⟩
    have : -((j : ℂ) / (N + 1)) = m := by
      apply mul_left_cancel₀ h2
      linear_combination hm
    have h3 : (j : ℂ) = (N + 1) * (-m) := by rw [← this]; field_simp
    exact_mod_cast h3
  have hz1 : z ≠ 1 := fun e => hk (zpow_one k (by rw [← hz]; exact e))
  have hzN : ∀ v : ℂ, v ^ N = 1 → z ≠ v := by
    rintro v hv rfl
    rw [pow_succ, hv, one_mul] at hzpow
    exact hz1 hzpow
  have hzu : z * u ≠ 1 := fun e => hzN u⁻¹ (by rw [inv_pow, hupow, inv_one]) (eq_inv_of_mul_eq_one_left e)
  have hzu' : z ≠ u := hzN u hupow
  have huinv : z * u⁻¹ ≠ 1 := fun e => hzu' (by rw [← div_eq_mul_inv, div_eq_one_iff_eq hu0] at e; exact e)
  have hu1 : u ≠ 1 := by
    intro e
    rw [hu, Complex.exp_eq_one_iff] at e
    obtain ⟨m, hm⟩ := e
    have : (1 : ℂ) / N = m := by
      apply mul_left_cancel₀ h2
      linear_combination hm
    rw [div_eq_iff hN] at this
    have h4 : (1 : ℤ) = m * N := by exact_mod_cast this
    have : (N : ℤ) ∣ 1 := ⟨m, by rw [h4, mul_comm]⟩
    have := Int.le_of_dvd one_pos this
    omega
  have s1 : ∑ i ∈ Finset.range (N + 1), z ^ i = 0 := by rw [geom_sum_eq hz1, hzpow, sub_self, zero_div]
  have s2 : ∑ i ∈ Finset.range (N + 1), (z * u) ^ i = (u - 1) / (z * u - 1) := by
    rw [geom_sum_eq hzu, mul_pow, hzpow, pow_succ u, hupow]; ring
  have s3 : ∑ i ∈ Finset.range (N + 1), (z * u⁻¹) ^ i = (u⁻¹ - 1) / (z * u⁻¹ - 1) := by
    rw [geom_sum_eq huinv, mul_pow, hzpow, pow_succ u⁻¹, inv_pow, hupow]; simp
  have main : dft (N + 1) (fun i => (o i).getD 0) k = (1 - u) ^ 2 * (1 + z) / (4 * ((1 - z * u) * (u - z))) := by
    have hterm : ∀ i ∈ Finset.range (N + 1), (((o i).getD 0 : ℝ) : ℂ) * exp (-(2 * Real.pi * I * k * i / (N + 1 : ℕ))) =
        1 / 2 * z ^ i - 1 / 4 * (z * u) ^ i - 1 / 4 * (z * u⁻¹) ^ i := by
      intro i hi
      rw [C55_values b .hann (N + 1) hn o h i (Finset.mem_range.mp hi), Option.getD_some]
      have e1 : exp (-(2 * Real.pi * I * k * i / (N + 1 : ℕ))) = z ^ i := by
        rw [hz, ← Complex.exp_nat_mul]; congr 1; push_cast; ring
      have e2 : exp ((2 * Real.pi * i / N) * I) = u ^ i := by
        rw [hu, ← Complex.exp_nat_mul]; congr 1; ring
      have e3 : exp (-(2 * Real.pi * i / N) * I) = (u⁻¹) ^ i := by
        rw [inv_pow, ← e2, ← Complex.exp_neg]; congr 1; ring
      rw [e1]
      simp only [shape]
      push_cast
      rw [add_sub_cancel_right, Complex.cos, e2, e3, mul_pow, mul_pow]
      ring
    unfold dft
    rw [Finset.sum_congr rfl hterm, Finset.sum_sub_distrib, Finset.sum_sub_distrib, ← Finset.mul_sum, ← Finset.mul_sum, ← Finset.mul_sum, s1, s2, s3]
    have d1 : z * u - 1 ≠ 0 := sub_ne_zero.mpr hzu
    have d2 : 1 - z * u ≠ 0 := sub_ne_zero.mpr hzu.symm
    have d3 : u - z ≠ 0 := sub_ne_zero.mpr hzu'.symm
    have d4 : z * u⁻¹ - 1 ≠ 0 := sub_ne_zero.mpr huinv
    have e3 : (u⁻¹ - 1) / (z * u⁻¹ - 1) = (u - 1) / (u - z) := by
      rw [div_eq_div_iff d4 d3]; field_simp; ring
    rw [e3]
    have e2 : (u - 1) / (z * u - 1) = (1 - u) / (1 - z * u) := by
      rw [div_eq_div_iff d1 d2]; ring
    rw [e2, mul_zero, zero_sub, ← mul_div_assoc, ← mul_div_assoc, ← neg_div, div_sub_div _ _ d2 d3,
      div_eq_div_iff (mul_ne_zero d2 d3) (mul_ne_zero (by norm_num) (mul_ne_zero d2 d3))]
    ring
  refine ⟨fun z' u' hz' hu' => ?_, fun hk2 => ?_⟩
  · rw [hz', hu', main]
    push_cast
    rw [add_sub_cancel_right, ← hz, ← hu]
  · rw [main]
    have d2 : 1 - z * u ≠ 0 := sub_ne_zero.mpr hzu.symm
    have d3 : u - z ≠ 0 := sub_ne_zero.mpr hzu'.symm
    have d4 : (1 - u) ^ 2 ≠ 0 := pow_ne_zero _ (sub_ne_zero.mpr hu1.symm)
    have d5 : 1 + z ≠ 0 := by
      intro e
      apply hk2
      apply zpow_one
      have : exp (-(2 * Real.pi * I * ((2 * k : ℤ) : ℂ) / (N + 1))) = z ^ 2 := by
        rw [hz, ← Complex.exp_nat_mul]; congr 1; push_cast; ring
      rw [this, show z = -1 by linear_combination e]; norm_num
    exact div_ne_zero (mul_ne_zero d4 d5) (mul_ne_zero (by norm_num) (mul_ne_zero d2 d3))

/-! ## Cases -/

/-- A sinusoid on bin 10 of 64, windowed with 65 points: bin 12 is empty with Hann, bin 13 with Blackman, bin 14 with Blackman-Harris. -/
example : (1 : ℤ) < |12 - 10| ∧ |(12 : ℤ) - 10| + 1 < 64 ∧ (2 : ℤ) < |13 - 10| ∧ (3 : ℤ) < |14 - 10| ∧ (14 : ℤ) + 10 + 3 < 64 := by decide

/-- In the next bin there is something: a quarter of what is there without a window. -/
example [Target] (h : Yields b .hann 65 o) : dft 64 (fun i => (o i).getD 0) 1 = -16 := by
  rw [(C111_spectra (by norm_num) (by have := target; omega) 1).1 h]
  have h1 : atBin 64 1 = 0 := atBin_zero_of_lt (by norm_num) (by norm_num)
  have h2 : atBin 64 (1 + 1) = 0 := atBin_zero_of_lt (by norm_num) (by norm_num)
  have h3 : atBin 64 (1 - 1) = 1 := by simp [atBin]
  rw [h1, h2, h3]; norm_num

/-- Over all 64 points of a Hann window a constant leaks into bin 20. -/
example [Target] (h : Yields b .hann 64 o) : dft 64 (fun i => (o i).getD 0) 20 ≠ 0 :=
  (C111_hann_full_length (by norm_num) (by have := target; omega) h (by decide)).2 (by decide)

end Rasp
