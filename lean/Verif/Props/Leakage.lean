import Verif.Spec.Leakage
import Verif.Props.Windows
import Mathlib.Algebra.Field.GeomSum

/-!
# C127: spectra of the windows at every frequency, and how fast they leak
-/

namespace Rasp
open Complex
variable {b : Build} {o : ℕ → Option ℝ}

/-! ## Sums of powers -/

theorem sum_up (z : ℂ) (a : ℕ) : (1 - z) ^ 2 * ∑ i ∈ Finset.range a, (i : ℂ) * z ^ i = z - a * z ^ a + (a - 1) * z ^ (a + 1) := by
  induction a with
  | zero => simp
  | succ a ih => rw [Finset.sum_range_succ, mul_add, ih]; push_cast; ring

theorem sum_down (z : ℂ) (a : ℕ) : (1 - z) ^ 2 * ∑ i ∈ Finset.range (a + 1), ((a : ℂ) - i) * z ^ i = a - (a + 1) * z + z ^ (a + 1) := by
  induction a with
  | zero => simp
  | succ a ih =>
    have h : ∀ i : ℕ, (((a + 1 : ℕ) : ℂ) - i) * z ^ i = ((a : ℂ) - i) * z ^ i + z ^ i := fun i => by push_cast; ring
    have hg := geom_sum_mul z (a + 1)
    rw [Finset.sum_range_succ]
    simp only [h, Finset.sum_add_distrib, mul_add]
    rw [ih]
    push_cast
    linear_combination (z - 1) * hg

theorem sum_up_odd (z : ℂ) (a : ℕ) :
    (1 - z) ^ 2 * ∑ i ∈ Finset.range a, (2 * i + 1 : ℂ) * z ^ i = 1 + z - (2 * a + 1) * z ^ a + (2 * a - 1) * z ^ (a + 1) := by
  induction a with
  | zero => simp
  | succ a ih => rw [Finset.sum_range_succ, mul_add, ih]; push_cast; ring

theorem sum_down_odd (z : ℂ) (a : ℕ) :
    (1 - z) ^ 2 * ∑ i ∈ Finset.range a, (2 * ((a : ℂ) - 1 - i) + 1) * z ^ i = (2 * a - 1) - (2 * a + 1) * z + z ^ a + z ^ (a + 1) := by
  induction a with
  | zero => simp; ring
  | succ a ih =>
    have h : ∀ i : ℕ, (2 * (((a + 1 : ℕ) : ℂ) - 1 - i) + 1) * z ^ i = (2 * ((a : ℂ) - 1 - i) + 1) * z ^ i + 2 * z ^ i := fun i => by push_cast; ring
    have hg := geom_sum_mul z a
    rw [Finset.sum_range_succ]
    simp only [h, Finset.sum_add_distrib, mul_add, ← Finset.mul_sum]
    rw [ih]
    push_cast
    linear_combination 2 * (z - 1) * hg

/-! ## Half angles -/

theorem exp_powers (θ : ℝ) (i : ℕ) : exp (-(θ * i * I)) = exp (-(θ * I)) ^ i := by
  rw [← Complex.exp_nat_mul]; congr 1; ring

theorem dtft_eq (n : ℕ) (v : ℕ → ℝ) (θ : ℝ) : dtft n v θ = ∑ i ∈ Finset.range n, (v i : ℂ) * exp (-(θ * I)) ^ i := by
  unfold dtft; simp only [exp_powers]

/-- `z` of half angle: with `h = e^(-ic)`, `h⁻¹ = e^(ic)`. -/
theorem sin_half (c : ℝ) : 2 * I * (Real.sin c : ℂ) = exp (c * I) - exp (-(c * I)) := by
  rw [Complex.ofReal_sin, Complex.sin]
  have := Complex.I_mul_I
  rw [show -(c : ℂ) * I = -(c * I) by ring]
  linear_combination (exp (-(c * I)) - exp (c * I)) * this

theorem cos_half (c : ℝ) : 2 * (Real.cos c : ℂ) = exp (c * I) + exp (-(c * I)) := by
  rw [Complex.ofReal_cos, Complex.cos, show -(c : ℂ) * I = -(c * I) by ring]; ring

section
variable (c : ℝ)

theorem exp_half_mul : exp (c * I) * exp (-(c * I)) = 1 := by rw [← Complex.exp_add, add_neg_cancel, Complex.exp_zero]

theorem exp_half_sq : exp (-(((2 * c : ℝ) : ℂ) * I)) = exp (-(c * I)) ^ 2 := by
  rw [← Complex.exp_nat_mul]; congr 1; push_cast; ring

theorem exp_half_pow (a : ℕ) : exp (((a * c : ℝ) : ℂ) * I) = exp (c * I) ^ a ∧ exp (-(((a * c : ℝ) : ℂ) * I)) = exp (-(c * I)) ^ a := by
  rw [← Complex.exp_nat_mul, ← Complex.exp_nat_mul]
  constructor <;> congr 1 <;> push_cast <;> ring

/-- `1 - z^a` at `z = e^(-2ic)`. -/
theorem one_sub_pow (a : ℕ) : 1 - (exp (-(c * I)) ^ 2) ^ a = exp (-(c * I)) ^ a * (2 * I * Real.sin (a * c)) := by
  rw [sin_half, (exp_half_pow c a).1, (exp_half_pow c a).2, mul_sub, ← mul_pow, mul_comm (exp (-(c * I))), exp_half_mul, one_pow]
  ring

theorem one_add_pow (a : ℕ) : 1 + (exp (-(c * I)) ^ 2) ^ a = exp (-(c * I)) ^ a * (2 * Real.cos (a * c)) := by
  rw [cos_half, (exp_half_pow c a).1, (exp_half_pow c a).2, mul_add, ← mul_pow, mul_comm (exp (-(c * I))), exp_half_mul, one_pow]
  ring

theorem exp_half_ne : exp (-(c * I)) ≠ 0 := Complex.exp_ne_zero _

theorem centred_eq (n : ℕ) (v : ℕ → ℝ) : exp (-(c * I)) ^ n * centred (n + 1) v (2 * c) =
    ∑ i ∈ Finset.range (n + 1), (v i : ℂ) * (exp (-(c * I)) ^ 2) ^ i := by
  unfold centred
  have : exp (((2 * c : ℝ) : ℂ) * ((((n + 1 : ℕ) : ℂ) - 1) / 2) * I) = exp (c * I) ^ n := by
    rw [← Complex.exp_nat_mul]; congr 1; push_cast; ring
  rw [dtft_eq, exp_half_sq, this, ← mul_assoc, ← mul_pow, mul_comm (exp (-(c * I))), exp_half_mul, one_pow, one_mul]
end

theorem items_eq [Target] {k : WindowKind} {n : ℕ} (hn : n < usizeMod) (h : Yields b k n o) {i : ℕ} (hi : i < n) : items o i = shape k n i := by
  unfold items; rw [C55_values b k n hn o h i hi]; rfl

/-! ## The straight windows -/

/-- **C127**, Bartlett, `a + d + 1` points: `(2/(a+d)) sin(ac) sin(dc) / sin² c` at `θ = 2c` radians per sample. -/
theorem C127_bartlett [Target] {a d : ℕ} (ha : a = d ∨ a = d + 1) (h1 : 1 ≤ a) (hn : a + d + 1 < usizeMod) (h : Yields b .bartlett (a + d + 1) o) (c : ℝ) :
    Real.sin c ^ 2 * centred (a + d + 1) (items o) (2 * c) = 2 / (a + d) * (Real.sin (a * c) * Real.sin (d * c)) := by
  have hN : (0 : ℝ) < a + d := by have : (1 : ℝ) ≤ a := by exact_mod_cast h1
                                  have : (0 : ℝ) ≤ d := d.cast_nonneg
                                  linarith
  have hN' : ((a : ℂ) + d) ≠ 0 := by exact_mod_cast hN.ne'
  have hv1 : ∀ i ∈ Finset.range a, (items o i : ℂ) = 2 / (a + d) * i := fun i hi => by
    have hi := Finset.mem_range.1 hi
    rw [items_eq hn h (by omega)]
    have h2 : shape .bartlett ((a + d + 1 : ℕ) : ℝ) i = 2 / (a + d) * i := by
      have hia : (i : ℝ) + 1 ≤ a := by exact_mod_cast hi
      have had : (a : ℝ) ≤ d + 1 := by rcases ha with rfl | rfl <;> push_cast <;> linarith
      have e : ((a + d + 1 : ℕ) : ℝ) - 1 = a + d := by push_cast; ring
      simp only [shape, e]
      rw [abs_div, abs_of_pos (show 0 < ((a : ℝ) + d) / 2 by linarith), abs_of_nonpos (by linarith)]
      field_simp; ring
    rw [h2]; push_cast; ring
  have hv2 : ∀ i ∈ Finset.range (d + 1), (items o (a + i) : ℂ) = 2 / (a + d) * (d - i) := fun i hi => by
    have hi := Finset.mem_range.1 hi
    rw [items_eq hn h (by omega)]
    have h2 : shape .bartlett ((a + d + 1 : ℕ) : ℝ) (a + i : ℕ) = 2 / (a + d) * (d - i) := by
      have hi0 : (0 : ℝ) ≤ i := i.cast_nonneg
      have had : (d : ℝ) ≤ a := by rcases ha with rfl | rfl <;> push_cast <;> linarith
      have e : ((a + d + 1 : ℕ) : ℝ) - 1 = a + d := by push_cast; ring
      simp only [shape, e]
      rw [abs_div, abs_of_pos (show 0 < ((a : ℝ) + d) / 2 by linarith), abs_of_nonneg (by push_cast; linarith)]
      push_cast; field_simp; ring
    rw [h2]; push_cast; ring
  obtain ⟨q, hq⟩ : ∃ q, q = exp (-(c * I)) := ⟨_, rfl⟩
  have hc := centred_eq c (a + d) (items o)
  generalize centred (a + d + 1) (items o) (2 * c) = G at hc ⊢
  have k1 := one_sub_pow c 1
  have k2 := one_sub_pow c a
  have k3 := one_sub_pow c d
  have hq0 := exp_half_ne c
  rw [← hq] at hc k1 k2 k3 hq0
  rw [add_assoc, Finset.sum_range_add, Finset.sum_congr rfl fun i hi => by rw [hv1 i hi],
    Finset.sum_congr (s₁ := Finset.range (d + 1)) rfl fun i hi => by rw [hv2 i hi]] at hc
  simp only [pow_add _ a, mul_assoc, ← Finset.mul_sum] at hc
  have e2 : ∑ i ∈ Finset.range (d + 1), ((d : ℂ) - i) * ((q ^ 2) ^ a * (q ^ 2) ^ i) = (q ^ 2) ^ a * ∑ i ∈ Finset.range (d + 1), ((d : ℂ) - i) * (q ^ 2) ^ i := by
    rw [Finset.mul_sum]; exact Finset.sum_congr rfl fun i _ => by ring
  rw [e2] at hc
  have s1 := sum_up (q ^ 2) a
  have s2 := sum_down (q ^ 2) d
  simp only [pow_one, Nat.cast_one, one_mul] at k1
  have key : (1 - q ^ 2) ^ 2 * (q ^ a * (q ^ d * G)) = 2 / (a + d) * (q ^ 2 * ((1 - (q ^ 2) ^ a) * (1 - (q ^ 2) ^ d))) := by
    rw [hc]
    rcases ha with rfl | rfl
    · linear_combination (2 / ((a : ℂ) + a)) * s1 + (2 / ((a : ℂ) + a)) * (q ^ 2) ^ a * s2
    · push_cast at s1 ⊢
      linear_combination (2 / ((d : ℂ) + 1 + d)) * s1 + (2 / ((d : ℂ) + 1 + d)) * (q ^ 2) ^ (d + 1) * s2
  rw [k1, k2, k3] at key
  have hI := Complex.I_sq
  refine mul_left_cancel₀ (a := -4 * q ^ 2 * (q ^ a * q ^ d)) (by simp [hq0]) ?_
  linear_combination key + (-4 * q ^ 2 * (q ^ a * q ^ d)) * (Real.sin c ^ 2 * G -
    2 / (a + d) * (Real.sin (a * c) * Real.sin (d * c))) * hI

/-- **C127**, Triangular with an even number of points: `(2/n) cos c sin²(nc/2) / sin² c`. -/
theorem C127_triangular_even [Target] {m : ℕ} (hn : 2 * m + 2 < usizeMod) (h : Yields b .triangular (2 * m + 2) o) (c : ℝ) :
    Real.sin c ^ 2 * centred (2 * m + 2) (items o) (2 * c) = 2 / (2 * m + 2) * (Real.cos c * Real.sin ((m + 1) * c) ^ 2) := by
  have hm : (0 : ℝ) ≤ m := m.cast_nonneg
  have hN' : (2 * (m : ℂ) + 2) ≠ 0 := by exact_mod_cast (show (2 * (m : ℝ) + 2) ≠ 0 by linarith)
  have e : ((2 * m + 2 : ℕ) : ℝ) = 2 * m + 2 := by push_cast; ring
  have hv1 : ∀ i ∈ Finset.range (m + 1), (items o i : ℂ) = 1 / (2 * m + 2) * (2 * i + 1) := fun i hi => by
    have hi := Finset.mem_range.1 hi
    rw [items_eq hn h (by omega)]
    have h2 : shape .triangular ((2 * m + 2 : ℕ) : ℝ) i = 1 / (2 * m + 2) * (2 * i + 1) := by
      have hia : (i : ℝ) ≤ m := by exact_mod_cast Nat.lt_succ_iff.1 hi
      simp only [shape, e]
      rw [abs_div, abs_of_pos (show 0 < (2 * (m : ℝ) + 2) / 2 by linarith), abs_of_nonpos (by linarith)]
      field_simp; ring
    rw [h2]; push_cast; ring
  have hv2 : ∀ i ∈ Finset.range (m + 1), (items o (m + 1 + i) : ℂ) = 1 / (2 * m + 2) * (2 * (((m + 1 : ℕ) : ℂ) - 1 - i) + 1) := fun i hi => by
    have hi := Finset.mem_range.1 hi
    rw [items_eq hn h (by omega)]
    have h2 : shape .triangular ((2 * m + 2 : ℕ) : ℝ) (m + 1 + i : ℕ) = 1 / (2 * m + 2) * (2 * (m - i) + 1) := by
      have hi0 : (0 : ℝ) ≤ i := i.cast_nonneg
      simp only [shape, e]
      rw [abs_div, abs_of_pos (show 0 < (2 * (m : ℝ) + 2) / 2 by linarith), abs_of_nonneg (by push_cast; linarith)]
      push_cast; field_simp; ring
    rw [h2]; push_cast; ring
  obtain ⟨q, hq⟩ : ∃ q, q = exp (-(c * I)) := ⟨_, rfl⟩
  have hc := centred_eq c (2 * m + 1) (items o)
  rw [show 2 * m + 1 + 1 = 2 * m + 2 by ring] at hc
  generalize centred (2 * m + 2) (items o) (2 * c) = G at hc ⊢
  have k1 := one_sub_pow c 1
  have k2 := one_sub_pow c (m + 1)
  have k3 := one_add_pow c 1
  have hq0 := exp_half_ne c
  rw [← hq] at hc k1 k2 k3 hq0
  rw [show 2 * m + 2 = (m + 1) + (m + 1) by ring, Finset.sum_range_add, Finset.sum_congr rfl fun i hi => by rw [hv1 i hi],
    Finset.sum_congr (s₁ := Finset.range (m + 1)) (f := fun i => (items o (m + 1 + i) : ℂ) * _) rfl fun i hi => by rw [hv2 i hi]] at hc
  simp only [pow_add _ (m + 1), mul_assoc, ← Finset.mul_sum] at hc
  have e2 : ∑ i ∈ Finset.range (m + 1), (2 * (((m + 1 : ℕ) : ℂ) - 1 - i) + 1) * ((q ^ 2) ^ (m + 1) * (q ^ 2) ^ i) =
      (q ^ 2) ^ (m + 1) * ∑ i ∈ Finset.range (m + 1), (2 * (((m + 1 : ℕ) : ℂ) - 1 - i) + 1) * (q ^ 2) ^ i := by
    rw [Finset.mul_sum]; exact Finset.sum_congr rfl fun i _ => by ring
  rw [e2] at hc
  have s1 := sum_up_odd (q ^ 2) (m + 1)
  have s2 := sum_down_odd (q ^ 2) (m + 1)
  simp only [pow_one, Nat.cast_one, one_mul] at k1 k3
  have key : (1 - q ^ 2) ^ 2 * (q ^ (2 * m + 1) * G) = 1 / (2 * m + 2) * ((1 + q ^ 2) * (1 - (q ^ 2) ^ (m + 1)) ^ 2) := by
    rw [hc]
    push_cast at s1 s2 ⊢
    linear_combination (1 / (2 * (m : ℂ) + 2)) * s1 + (1 / (2 * (m : ℂ) + 2)) * (q ^ 2) ^ (m + 1) * s2
  rw [k1, k2, k3] at key
  have hI := Complex.I_sq
  refine mul_left_cancel₀ (a := -4 * q ^ (2 * m + 3)) (by simp [hq0]) ?_
  push_cast at key ⊢
  linear_combination key + (-4 * q ^ (2 * m + 3)) * (Complex.sin c ^ 2 * G -
    2 / (2 * m + 2) * (Complex.cos c * Complex.sin ((m + 1) * c) ^ 2)) * hI

/-- **C127**, Triangular with an odd number of points: `(1 - cos c cos(nc)) / (n sin² c)`. -/
theorem C127_triangular_odd [Target] {m : ℕ} (hn : 2 * m + 1 < usizeMod) (h : Yields b .triangular (2 * m + 1) o) (c : ℝ) :
    Real.sin c ^ 2 * centred (2 * m + 1) (items o) (2 * c) = 1 / (2 * m + 1) * (1 - Real.cos c * Real.cos ((2 * m + 1) * c)) := by
  have hm : (0 : ℝ) ≤ m := m.cast_nonneg
  have hN' : (2 * (m : ℂ) + 1) ≠ 0 := by exact_mod_cast (show (2 * (m : ℝ) + 1) ≠ 0 by linarith)
  have e : ((2 * m + 1 : ℕ) : ℝ) = 2 * m + 1 := by push_cast; ring
  have hv1 : ∀ i ∈ Finset.range (m + 1), (items o i : ℂ) = 1 / (2 * m + 1) * (2 * i + 1) := fun i hi => by
    have hi := Finset.mem_range.1 hi
    rw [items_eq hn h (by omega)]
    have h2 : shape .triangular ((2 * m + 1 : ℕ) : ℝ) i = 1 / (2 * m + 1) * (2 * i + 1) := by
      have hia : (i : ℝ) ≤ m := by exact_mod_cast Nat.lt_succ_iff.1 hi
      simp only [shape, e]
      rw [abs_div, abs_of_pos (show 0 < (2 * (m : ℝ) + 1) / 2 by linarith), abs_of_nonpos (by linarith)]
      field_simp; ring
    rw [h2]; push_cast; ring
  have hv2 : ∀ i ∈ Finset.range m, (items o (m + 1 + i) : ℂ) = 1 / (2 * m + 1) * (2 * ((m : ℂ) - 1 - i) + 1) := fun i hi => by
    have hi := Finset.mem_range.1 hi
    rw [items_eq hn h (by omega)]
    have h2 : shape .triangular ((2 * m + 1 : ℕ) : ℝ) (m + 1 + i : ℕ) = 1 / (2 * m + 1) * (2 * (m - 1 - i) + 1) := by
      have hi0 : (0 : ℝ) ≤ i := i.cast_nonneg
      simp only [shape, e]
      rw [abs_div, abs_of_pos (show 0 < (2 * (m : ℝ) + 1) / 2 by linarith), abs_of_nonneg (by push_cast; linarith)]
      push_cast; field_simp; ring
    rw [h2]; push_cast; ring
  obtain ⟨q, hq⟩ : ∃ q, q = exp (-(c * I)) := ⟨_, rfl⟩
  have hc := centred_eq c (2 * m) (items o)
  generalize centred (2 * m + 1) (items o) (2 * c) = G at hc ⊢
  have k1 := one_sub_pow c 1
  have k2 := one_add_pow c (2 * m + 1)
  have k3 := one_add_pow c 1
  have hq0 := exp_half_ne c
  rw [← hq] at hc k1 k2 k3 hq0
  rw [show 2 * m + 1 = (m + 1) + m by ring, Finset.sum_range_add, Finset.sum_congr rfl fun i hi => by rw [hv1 i hi],
    Finset.sum_congr (s₁ := Finset.range m) rfl fun i hi => by rw [hv2 i hi]] at hc
  simp only [pow_add _ (m + 1), mul_assoc, ← Finset.mul_sum] at hc
  have e2 : ∑ i ∈ Finset.range m, (2 * ((m : ℂ) - 1 - i) + 1) * ((q ^ 2) ^ (m + 1) * (q ^ 2) ^ i) =
      (q ^ 2) ^ (m + 1) * ∑ i ∈ Finset.range m, (2 * ((m : ℂ) - 1 - i) + 1) * (q ^ 2) ^ i := by
    rw [Finset.mul_sum]; exact Finset.sum_congr rfl fun i _ => by ring
  rw [e2] at hc
  have s1 := sum_up_odd (q ^ 2) (m + 1)
  have s2 := sum_down_odd (q ^ 2) m
  simp only [pow_one, Nat.cast_one, one_mul] at k1 k3
  have key : (1 - q ^ 2) ^ 2 * (q ^ (2 * m) * G) = 1 / (2 * m + 1) * ((1 + q ^ 2) * (1 + (q ^ 2) ^ (2 * m + 1)) - 4 * q ^ (2 * m + 2)) := by
    rw [hc]
    push_cast at s1 s2 ⊢
    linear_combination (1 / (2 * (m : ℂ) + 1)) * s1 + (1 / (2 * (m : ℂ) + 1)) * (q ^ 2) ^ (m + 1) * s2
  rw [k1, k2, k3] at key
  have hI := Complex.I_sq
  refine mul_left_cancel₀ (a := -4 * q ^ (2 * m + 2)) (by simp [hq0]) ?_
  push_cast at key ⊢
  linear_combination key + (-4 * q ^ (2 * m + 2)) * (Complex.sin c ^ 2 * G) * hI

/-! ## Hann -/

/-- **C127**, Hann, `N + 1` points: `sin(Nc) cos c sin² d / (2 sin c (sin² d - sin² c))`, `d = π/N`. -/
theorem C127_hann [Target] {N : ℕ} (hN : 0 < N) (hn : N + 1 < usizeMod) (h : Yields b .hann (N + 1) o) (c : ℝ) :
    2 * Real.sin c * (Real.sin (Real.pi / N) ^ 2 - Real.sin c ^ 2) * centred (N + 1) (items o) (2 * c) =
      Real.sin (N * c) * Real.cos c * Real.sin (Real.pi / N) ^ 2 := by
  have hN' : (N : ℝ) ≠ 0 := by exact_mod_cast hN.ne'
  obtain ⟨d, hd⟩ : ∃ d : ℝ, d = Real.pi / N := ⟨_, rfl⟩
  obtain ⟨u, hu⟩ : ∃ u, u = exp (d * I) := ⟨_, rfl⟩
  obtain ⟨v, hv⟩ : ∃ v, v = exp (-(d * I)) := ⟨_, rfl⟩
  obtain ⟨q, hq⟩ : ∃ q, q = exp (-(c * I)) := ⟨_, rfl⟩
  rw [← hd]
  have huv : u * v = 1 := by rw [hu, hv, exp_half_mul]
  have e : ((N + 1 : ℕ) : ℝ) - 1 = N := by push_cast; ring
  have hval : ∀ i, i < N + 1 → (items o i : ℂ) = 1 / 2 - 1 / 4 * ((u ^ 2) ^ i + (v ^ 2) ^ i) := fun i hi => by
    rw [items_eq hn h hi]
    have h2 := cos_half ((i : ℝ) * (2 * d))
    rw [(exp_half_pow (2 * d) i).1, (exp_half_pow (2 * d) i).2] at h2
    have eu : exp (((2 * d : ℝ) : ℂ) * I) = u ^ 2 := by rw [hu, ← Complex.exp_nat_mul]; congr 1; push_cast; ring
    have ev : exp (-(((2 * d : ℝ) : ℂ) * I)) = v ^ 2 := by rw [hv, exp_half_sq]
    rw [eu, ev] at h2
    rw [← h2]
    simp only [shape, e]
    rw [show 2 * Real.pi * (i : ℝ) / N = i * (2 * d) by rw [hd]; ring]
    push_cast; ring
  have huN : (u ^ 2) ^ N = 1 := by
    rw [← pow_mul, mul_comm, hu, ← Complex.exp_nat_mul, Complex.exp_eq_one_iff]
    exact ⟨1, by
      have : (N : ℂ) ≠ 0 := by exact_mod_cast hN.ne'
      rw [hd]; push_cast; field_simp⟩
  have hvN : (v ^ 2) ^ N = 1 := by
    have : (u ^ 2) ^ N * (v ^ 2) ^ N = 1 := by rw [← mul_pow, ← mul_pow, huv, one_pow, one_pow]
    rwa [huN, one_mul] at this
  have hc := centred_eq c N (items o)
  generalize centred (N + 1) (items o) (2 * c) = G at hc ⊢
  have k1 := one_sub_pow c 1
  have k2 := one_sub_pow c N
  have k3 := one_add_pow c 1
  have hq0 := exp_half_ne c
  have kc := cos_half (2 * c)
  have kp := exp_half_mul c
  have kd := cos_half (2 * d)
  have ed := exp_half_sq d
  have ec := exp_half_sq c
  have eu : exp (((2 * d : ℝ) : ℂ) * I) = u ^ 2 := by rw [hu, ← Complex.exp_nat_mul]; congr 1; push_cast; ring
  have ep : exp (((2 * c : ℝ) : ℂ) * I) = exp (c * I) ^ 2 := by rw [← Complex.exp_nat_mul]; congr 1; push_cast; ring
  rw [ep, ec, ← hq] at kc
  rw [eu, ed, ← hv] at kd
  rw [← hq] at hc k1 k2 k3 hq0 kp
  simp only [pow_one, Nat.cast_one, one_mul] at k1 k3
  rw [Finset.sum_range_succ, hval N (by omega), huN, hvN, Finset.sum_congr rfl fun i hi => by
    rw [hval i (by have := Finset.mem_range.1 hi; omega)]] at hc
  have g0 := geom_sum_mul (q ^ 2) N
  have g1 := geom_sum_mul (u ^ 2 * q ^ 2) N
  have g2 := geom_sum_mul (v ^ 2 * q ^ 2) N
  rw [mul_pow, huN, one_mul] at g1
  rw [mul_pow, hvN, one_mul] at g2
  have es : ∑ i ∈ Finset.range N, (1 / 2 - 1 / 4 * ((u ^ 2) ^ i + (v ^ 2) ^ i)) * (q ^ 2) ^ i =
      1 / 2 * ∑ i ∈ Finset.range N, (q ^ 2) ^ i - 1 / 4 * (∑ i ∈ Finset.range N, (u ^ 2 * q ^ 2) ^ i + ∑ i ∈ Finset.range N, (v ^ 2 * q ^ 2) ^ i) := by
    rw [Finset.mul_sum, ← Finset.sum_add_distrib, Finset.mul_sum, ← Finset.sum_sub_distrib]
    exact Finset.sum_congr rfl fun i _ => by rw [mul_pow, mul_pow]; ring
  rw [es] at hc
  generalize ∑ i ∈ Finset.range N, (q ^ 2) ^ i = S0 at *
  generalize ∑ i ∈ Finset.range N, (u ^ 2 * q ^ 2) ^ i = S1 at *
  generalize ∑ i ∈ Finset.range N, (v ^ 2 * q ^ 2) ^ i = S2 at *
  have huv2 : u ^ 2 * v ^ 2 = 1 := by rw [← mul_pow, huv, one_pow]
  have key : 4 * (1 - q ^ 2) * ((1 - u ^ 2 * q ^ 2) * (1 - v ^ 2 * q ^ 2)) * (q ^ N * G) =
      (1 - (q ^ 2) ^ N) * q ^ 2 * (1 + q ^ 2) * (2 - (u ^ 2 + v ^ 2)) := by
    linear_combination 4 * (1 - q ^ 2) * ((1 - u ^ 2 * q ^ 2) * (1 - v ^ 2 * q ^ 2)) * hc -
      2 * ((1 - u ^ 2 * q ^ 2) * (1 - v ^ 2 * q ^ 2)) * g0 + (1 - q ^ 2) * (1 - v ^ 2 * q ^ 2) * g1 +
      (1 - q ^ 2) * (1 - u ^ 2 * q ^ 2) * g2 + 2 * (q ^ 2) ^ 2 * (1 - (q ^ 2) ^ N) * huv2
  have kq : exp (c * I) ^ 2 * q ^ 2 = 1 := by rw [← mul_pow, kp, one_pow]
  have t1 : (Real.cos (2 * c) : ℂ) = 1 - 2 * Real.sin c ^ 2 := by
    have : Real.cos (2 * c) = 1 - 2 * Real.sin c ^ 2 := by rw [Real.cos_two_mul]; linarith [Real.sin_sq_add_cos_sq c]
    rw [this]; push_cast; ring
  have t2 : (Real.cos (2 * d) : ℂ) = 1 - 2 * Real.sin d ^ 2 := by
    have : Real.cos (2 * d) = 1 - 2 * Real.sin d ^ 2 := by rw [Real.cos_two_mul]; linarith [Real.sin_sq_add_cos_sq d]
    rw [this]; push_cast; ring
  rw [t1] at kc
  rw [t2] at kd
  have e1 : (1 - u ^ 2 * q ^ 2) * (1 - v ^ 2 * q ^ 2) = 4 * q ^ 2 * (Real.sin d ^ 2 - Real.sin c ^ 2) := by
    linear_combination (q ^ 2) ^ 2 * huv2 + q ^ 2 * kd - q ^ 2 * kc - kq
  rw [e1, k1, k2, k3, ← kd] at key
  refine mul_left_cancel₀ (a := 16 * I * q ^ 3 * q ^ N) (by simp [hq0]) ?_
  linear_combination key

/-! ## Leakage -/

theorem norm_centred (n : ℕ) (v : ℕ → ℝ) (θ : ℝ) : ‖centred n v θ‖ = ‖dtft n v θ‖ := by
  unfold centred
  have : ((θ : ℂ) * ((n - 1) / 2) * I) = ((θ * ((n - 1) / 2) : ℝ) : ℂ) * I := by push_cast; ring
  rw [norm_mul, this, Complex.norm_exp_ofReal_mul_I, one_mul]

theorem norm_scaled (r : ℝ) (z : ℂ) : ‖(r : ℂ) * z‖ = |r| * ‖z‖ := by rw [norm_mul, Complex.norm_real, Real.norm_eq_abs]

/-- **C127**, how fast the straight windows leak: at `2c` radians from the middle of the lobe at most `2 / (n' sin² c)`, where `n'` is
the number of points, for Bartlett of steps. -/
theorem C127_lines_leak [Target] {n : ℕ} (h2 : 1 ≤ n) (hn : n + 1 < usizeMod) (c : ℝ) :
    (Yields b .bartlett (n + 1) o → Real.sin c ^ 2 * ‖dtft (n + 1) (items o) (2 * c)‖ ≤ 2 / n) ∧
    (Yields b .triangular n o → Real.sin c ^ 2 * ‖dtft n (items o) (2 * c)‖ ≤ 2 / n) := by
  have hn0 : (0 : ℝ) < n := by exact_mod_cast h2
  refine ⟨fun h => ?_, fun h => ?_⟩
  · obtain ⟨a, d, rfl, had⟩ : ∃ a d, n = a + d ∧ (a = d ∨ a = d + 1) := ⟨n - n / 2, n / 2, by omega, by omega⟩
    have key := congrArg norm (C127_bartlett had (by omega) hn h c)
    rw [show (Real.sin c : ℂ) ^ 2 = ((Real.sin c ^ 2 : ℝ) : ℂ) by push_cast; ring, norm_scaled, norm_centred, abs_of_nonneg (sq_nonneg _),
      show (2 / ((a : ℂ) + d) * (Real.sin (a * c) * Real.sin (d * c))) = ((2 / ((a : ℝ) + d) : ℝ) : ℂ) * ((Real.sin (a * c) * Real.sin (d * c) : ℝ) : ℂ) by
        push_cast; ring, norm_scaled, Complex.norm_real, Real.norm_eq_abs, abs_mul] at key
    rw [key]
    push_cast at hn0 ⊢
    rw [abs_of_pos (by positivity)]
    exact mul_le_of_le_one_right (by positivity) (mul_le_one₀ (Real.abs_sin_le_one _) (abs_nonneg _) (Real.abs_sin_le_one _))
  · rcases Nat.even_or_odd' n with ⟨m, rfl | rfl⟩
    · obtain ⟨m, rfl⟩ := Nat.exists_eq_add_of_le' (show 1 ≤ m by omega)
      have key := congrArg norm (C127_triangular_even (m := m) (by omega) (by rwa [show 2 * (m + 1) = 2 * m + 2 by ring] at h) c)
      rw [show 2 * (m + 1) = 2 * m + 2 by ring]
      rw [show (Real.sin c : ℂ) ^ 2 = ((Real.sin c ^ 2 : ℝ) : ℂ) by push_cast; ring, norm_scaled, norm_centred, abs_of_nonneg (sq_nonneg _),
        show (2 / (2 * (m : ℂ) + 2) * (Real.cos c * Real.sin ((m + 1) * c) ^ 2)) =
          ((2 / (2 * (m : ℝ) + 2) : ℝ) : ℂ) * ((Real.cos c * Real.sin ((m + 1) * c) ^ 2 : ℝ) : ℂ) by
        push_cast; ring, norm_scaled, Complex.norm_real, Real.norm_eq_abs, abs_mul] at key
      rw [key]
      push_cast
      rw [abs_of_pos (by positivity)]
      refine mul_le_of_le_one_right (by positivity) (mul_le_one₀ (Real.abs_cos_le_one _) (abs_nonneg _) ?_)
      rw [abs_of_nonneg (sq_nonneg _)]
      exact Real.sin_sq_le_one _
    · have key := congrArg norm (C127_triangular_odd (m := m) (by omega) h c)
      rw [show (Real.sin c : ℂ) ^ 2 = ((Real.sin c ^ 2 : ℝ) : ℂ) by push_cast; ring, norm_scaled, norm_centred, abs_of_nonneg (sq_nonneg _),
        show (1 / (2 * (m : ℂ) + 1) * (1 - Real.cos c * Real.cos ((2 * m + 1) * c))) =
          ((1 / (2 * (m : ℝ) + 1) : ℝ) : ℂ) * ((1 - Real.cos c * Real.cos ((2 * m + 1) * c) : ℝ) : ℂ) by
        push_cast; ring, norm_scaled, Complex.norm_real, Real.norm_eq_abs] at key
      rw [key]
      push_cast
      rw [abs_of_pos (by positivity), show 2 / (2 * (m : ℝ) + 1) = 1 / (2 * m + 1) * 2 by ring]
      refine mul_le_mul_of_nonneg_left ?_ (by positivity)
      have h1 : |Real.cos c * Real.cos ((2 * m + 1) * c)| ≤ 1 := by
        rw [abs_mul]; exact mul_le_one₀ (Real.abs_cos_le_one _) (abs_nonneg _) (Real.abs_cos_le_one _)
      rw [abs_le] at h1 ⊢
      constructor <;> linarith

/-- **C127**, Hann leaks less: like the third power of the distance. -/
theorem C127_hann_leaks [Target] {N : ℕ} (hN : 0 < N) (hn : N + 1 < usizeMod) (h : Yields b .hann (N + 1) o) (c : ℝ) :
    2 * |Real.sin c| * |Real.sin c ^ 2 - Real.sin (Real.pi / N) ^ 2| * ‖dtft (N + 1) (items o) (2 * c)‖ ≤ Real.sin (Real.pi / N) ^ 2 := by
  have key := congrArg norm (C127_hann hN hn h c)
  rw [show (2 * Real.sin c * (Real.sin (Real.pi / N) ^ 2 - Real.sin c ^ 2) : ℂ) =
      ((2 * Real.sin c * (Real.sin (Real.pi / N) ^ 2 - Real.sin c ^ 2) : ℝ) : ℂ) by push_cast; ring, norm_scaled, norm_centred,
    show (Real.sin (N * c) * Real.cos c * Real.sin (Real.pi / N) ^ 2 : ℂ) = ((Real.sin (N * c) * Real.cos c * Real.sin (Real.pi / N) ^ 2 : ℝ) : ℂ) by
      push_cast; ring, Complex.norm_real, Real.norm_eq_abs, abs_mul, abs_mul, abs_mul, abs_mul, abs_two, abs_sub_comm] at key
  rw [key, abs_of_nonneg (sq_nonneg (Real.sin (Real.pi / N)))]
  exact mul_le_of_le_one_left (sq_nonneg _) (mul_le_one₀ (Real.abs_sin_le_one _) (abs_nonneg _) (Real.abs_cos_le_one _))

/-- **C127**, where they are silent: exactly at the zeros of the numerators. -/
theorem C127_zeros [Target] {n : ℕ} (h2 : 1 ≤ n) (hn : n + 1 < usizeMod) {c : ℝ} (hc : Real.sin c ≠ 0) :
    (∀ a d, n = a + d → a = d ∨ a = d + 1 → Yields b .bartlett (n + 1) o →
      (dtft (n + 1) (items o) (2 * c) = 0 ↔ Real.sin (a * c) = 0 ∨ Real.sin (d * c) = 0)) ∧
    (Real.sin c ^ 2 ≠ Real.sin (Real.pi / n) ^ 2 → 2 ≤ n → Yields b .hann (n + 1) o →
      (dtft (n + 1) (items o) (2 * c) = 0 ↔ Real.sin (n * c) = 0 ∨ Real.cos c = 0)) := by
  have hz : ∀ v : ℕ → ℝ, dtft (n + 1) v (2 * c) = 0 ↔ centred (n + 1) v (2 * c) = 0 := fun v => by
    rw [← norm_eq_zero, ← norm_centred, norm_eq_zero]
  refine ⟨fun a d hnn had h => ?_, fun hcd hn2 h => ?_⟩
  · subst hnn
    have key := C127_bartlett had (by omega) hn h c
    have hN' : ((a : ℂ) + d) ≠ 0 := by exact_mod_cast (show a + d ≠ 0 by omega)
    rw [hz]
    constructor
    · intro h0
      rw [h0, mul_zero, eq_comm, mul_eq_zero, mul_eq_zero] at key
      rcases key with key | key | key
      · simp [hN'] at key
      · left; exact_mod_cast key
      · right; exact_mod_cast key
    · intro h0
      have : (Real.sin (a * c) * Real.sin (d * c) : ℂ) = 0 := by rcases h0 with h0 | h0 <;> simp only [h0] <;> simp
      rw [this, mul_zero, mul_eq_zero] at key
      exact key.resolve_left (by simpa using (show (Real.sin c : ℂ) ≠ 0 by exact_mod_cast hc))
  · have key := C127_hann (by omega) hn h c
    have hp : 0 < Real.sin (Real.pi / n) := by
      have hn' : (2 : ℝ) ≤ n := by exact_mod_cast hn2
      refine Real.sin_pos_of_pos_of_lt_pi (by positivity) ?_
      exact div_lt_self Real.pi_pos (by linarith)
    rw [hz]
    constructor
    · intro h0
      rw [h0, mul_zero, eq_comm] at key
      have key : Real.sin (n * c) * Real.cos c * Real.sin (Real.pi / n) ^ 2 = 0 := by exact_mod_cast key
      rw [mul_eq_zero, mul_eq_zero] at key
      exact key.resolve_right (pow_ne_zero 2 hp.ne')
    · intro h0
      have : Real.sin (n * c) * Real.cos c * Real.sin (Real.pi / n) ^ 2 = 0 := by rcases h0 with h0 | h0 <;> simp [h0]
      have h3 : (Real.sin (n * c) * Real.cos c * Real.sin (Real.pi / n) ^ 2 : ℂ) = 0 := by exact_mod_cast this
      rw [h3, mul_eq_zero] at key
      refine key.resolve_left ?_
      have h4 : 2 * Real.sin c * (Real.sin (Real.pi / n) ^ 2 - Real.sin c ^ 2) ≠ 0 :=
        mul_ne_zero (mul_ne_zero two_ne_zero hc) (sub_ne_zero.2 (Ne.symm hcd))
      exact_mod_cast h4

/-- **C127.** The zeros of Triangular: with an even number of points those of the numerator, with an odd number none. -/
theorem C127_triangular_zeros [Target] {m : ℕ} (hn : 2 * m + 2 < usizeMod) {c : ℝ} (hc : Real.sin c ≠ 0) :
    (Yields b .triangular (2 * m + 2) o → (dtft (2 * m + 2) (items o) (2 * c) = 0 ↔ Real.cos c = 0 ∨ Real.sin ((m + 1) * c) = 0)) ∧
    (Yields b .triangular (2 * m + 1) o → dtft (2 * m + 1) (items o) (2 * c) ≠ 0) := by
  have hz : ∀ (n : ℕ) (v : ℕ → ℝ), dtft n v (2 * c) = 0 ↔ centred n v (2 * c) = 0 := fun n v => by
    rw [← norm_eq_zero, ← norm_centred, norm_eq_zero]
  have hs : (Real.sin c : ℂ) ^ 2 ≠ 0 := pow_ne_zero 2 (by exact_mod_cast hc)
  refine ⟨fun h => ?_, fun h h0 => ?_⟩
  · have key := C127_triangular_even hn h c
    rw [hz]
    have h2 : (2 / (2 * m + 2) : ℂ) ≠ 0 := by
      rw [show (2 / (2 * m + 2) : ℂ) = ((2 / (2 * m + 2) : ℝ) : ℂ) by push_cast; rfl]
      exact Complex.ofReal_ne_zero.mpr (by positivity)
    rw [← mul_eq_zero_iff_left hs, key, mul_eq_zero_iff_left h2, mul_eq_zero, sq_eq_zero_iff]
    exact or_congr (by exact_mod_cast Iff.rfl) (by exact_mod_cast Iff.rfl)
  · have key := C127_triangular_odd (show 2 * m + 1 < usizeMod by omega) h c
    rw [(hz _ _).mp h0, mul_zero] at key
    have key' : (0 : ℝ) = 1 / (2 * m + 1) * (1 - Real.cos c * Real.cos ((2 * m + 1) * c)) := by
      apply Complex.ofReal_injective
      push_cast at key ⊢
      exact key
    have h1 : Real.cos c * Real.cos ((2 * m + 1) * c) = 1 := by
      have : (0 : ℝ) < 1 / (2 * m + 1) := by positivity
      nlinarith [mul_eq_zero.mp key'.symm |>.resolve_left this.ne']
    have h2 := Real.sin_sq_add_cos_sq c
    have h3 := Real.sin_sq_add_cos_sq ((2 * m + 1) * c)
    have h4 : 0 < Real.sin c ^ 2 := by positivity
    have h5 : Real.cos c ^ 2 * Real.cos ((2 * m + 1) * c) ^ 2 = 1 := by rw [← mul_pow, h1, one_pow]
    nlinarith [sq_nonneg (Real.sin ((2 * m + 1) * c)), sq_nonneg (Real.cos c)]

/-- **C127**, signs. With an odd number of points the straight windows have a spectrum that is never negative (counted from the middle);
Bartlett with an even number has negative lobes. -/
theorem C127_signs [Target] {m : ℕ} (hm : 1 ≤ m) (hn : 2 * m + 2 < usizeMod) :
    (∀ w, w = .bartlett ∨ w = .triangular → Yields b w (2 * m + 1) o → ∀ θ, ∃ r : ℝ, 0 ≤ r ∧ centred (2 * m + 1) (items o) θ = r) ∧
    (Yields b .bartlett (2 * m + 2) o → ∀ c, Real.pi / (m + 1) < c → c < Real.pi / m → ∃ r : ℝ, r < 0 ∧ centred (2 * m + 2) (items o) (2 * c) = r) := by
  have hm0 : (1 : ℝ) ≤ m := by exact_mod_cast hm
  refine ⟨fun w hw h θ => ?_, fun h c h1 h2 => ?_⟩
  · obtain ⟨c, rfl⟩ : ∃ c, θ = 2 * c := ⟨θ / 2, by ring⟩
    by_cases hc : Real.sin c = 0
    · have e := centred_eq c (2 * m) (items o)
      have k := one_sub_pow c 1
      simp only [pow_one, Nat.cast_one, one_mul, hc, Complex.ofReal_zero, mul_zero] at k
      have k : exp (-(c * I)) ^ 2 = 1 := by linear_combination -k
      rw [pow_mul] at e
      simp only [k, one_pow, one_mul, mul_one] at e
      refine ⟨∑ i ∈ Finset.range (2 * m + 1), items o i, Finset.sum_nonneg fun i hi => ?_, by rw [e]; push_cast; rfl⟩
      have hi := Finset.mem_range.1 hi
      rw [items_eq (by omega) h hi]
      have hi' : (i : ℝ) ≤ 2 * m := by exact_mod_cast (show i ≤ 2 * m by omega)
      exact (shape_mem w (by push_cast; linarith) i.cast_nonneg (by push_cast; linarith)).1
    · have hs : (0 : ℝ) < Real.sin c ^ 2 := by positivity
      have hs' : (Real.sin c : ℂ) ^ 2 ≠ 0 := by exact_mod_cast hs.ne'
      rcases hw with rfl | rfl
      · have key := C127_bartlett (a := m) (d := m) (.inl rfl) hm (by omega) (by rwa [show m + m + 1 = 2 * m + 1 by ring]) c
        rw [show m + m + 1 = 2 * m + 1 by ring] at key
        refine ⟨2 / (m + m) * (Real.sin (m * c) * Real.sin (m * c)) / Real.sin c ^ 2,
          div_nonneg (mul_nonneg (by positivity) (mul_self_nonneg _)) hs.le, ?_⟩
        push_cast at key hs' ⊢
        rw [← key, mul_div_cancel_left₀ _ hs']
      · have key := C127_triangular_odd (by omega) h c
        refine ⟨1 / (2 * m + 1) * (1 - Real.cos c * Real.cos ((2 * m + 1) * c)) / Real.sin c ^ 2, ?_, ?_⟩
        · have h1 : |Real.cos c * Real.cos ((2 * m + 1) * c)| ≤ 1 := by
            rw [abs_mul]; exact mul_le_one₀ (Real.abs_cos_le_one _) (abs_nonneg _) (Real.abs_cos_le_one _)
          have := (abs_le.1 h1).2
          have : 0 ≤ 1 - Real.cos c * Real.cos ((2 * m + 1) * c) := by linarith
          positivity
        · push_cast at key hs' ⊢
          rw [← key, mul_div_cancel_left₀ _ hs']
  · have key := C127_bartlett (a := m + 1) (d := m) (.inr rfl) (by omega) (by omega) (by rwa [show m + 1 + m + 1 = 2 * m + 2 by ring]) c
    rw [show m + 1 + m + 1 = 2 * m + 2 by ring] at key
    have hp := Real.pi_pos
    have c0 : 0 < c := lt_trans (by positivity) h1
    rw [div_lt_iff₀ (by linarith)] at h1
    rw [lt_div_iff₀ (by linarith)] at h2
    have s1 : 0 < Real.sin (m * c) := Real.sin_pos_of_pos_of_lt_pi (by positivity) (by linarith)
    have s2 : Real.sin ((m + 1) * c) < 0 := by
      have : 0 < Real.sin ((m + 1) * c - Real.pi) := Real.sin_pos_of_pos_of_lt_pi (by linarith) (by nlinarith)
      rw [Real.sin_sub_pi] at this
      linarith
    have s0 : 0 < Real.sin c := Real.sin_pos_of_pos_of_lt_pi c0 (by nlinarith)
    have hs' : (Real.sin c : ℂ) ^ 2 ≠ 0 := by exact_mod_cast (pow_pos s0 2).ne'
    refine ⟨2 / (m + 1 + m) * (Real.sin ((m + 1) * c) * Real.sin (m * c)) / Real.sin c ^ 2, ?_, ?_⟩
    · refine div_neg_of_neg_of_pos (mul_neg_of_pos_of_neg (by positivity) (mul_neg_of_neg_of_pos s2 s1)) (by positivity)
    · push_cast at key hs' ⊢
      rw [← key, mul_div_cancel_left₀ _ hs']

/-- **C127.** `apply_window` with any shape on a sinusoid of any frequency `ω`: the spectrum of the window moved to `ω` and to `-ω`. -/
theorem C127_sinusoid [Target] {w : WindowKind} {n : ℕ} (hn : n < usizeMod) (h : Yields b w n o) (A φ ω : ℝ)
    {xs : List ℝ} (hl : xs.length = n) (hx : ∀ i < n, xs[i]? = some (A * Real.cos (ω * i + φ))) :
    ∃ ys, applyWindow b xs (.shaped w) = .ok ys ∧ ys.length = n ∧ ∀ θ : ℝ, dtft n (fun i => ys[i]?.getD 0) θ =
      A / 2 * (exp (φ * I) * dtft n (items o) (θ - ω) + exp (-(φ * I)) * dtft n (items o) (θ + ω)) := by
  obtain ⟨ys, h1, h2, h3⟩ := C57_pointwise b w xs (by rw [hl]; exact hn) o (by rw [hl]; exact h)
  refine ⟨ys, h1, h2.trans hl, fun θ => ?_⟩
  unfold dtft
  rw [Finset.mul_sum, Finset.mul_sum, ← Finset.sum_add_distrib, Finset.mul_sum]
  refine Finset.sum_congr rfl fun i hi => ?_
  have hi := Finset.mem_range.1 hi
  obtain ⟨g, g1, g2⟩ := h3 i (by omega)
  have h4 := hx i hi
  rw [List.getElem?_eq_getElem (by omega)] at h4
  have hg : items o i = g := by unfold items; rw [g1]; rfl
  have : (ys[i]?.getD 0 : ℝ) = items o i * (A * Real.cos (ω * i + φ)) := by rw [g2, Option.some.inj h4, hg]; rfl
  simp only [this]
  push_cast
  rw [Complex.cos]
  have e1 : exp ((ω * i + φ) * I) * exp (-(θ * i * I)) = exp (φ * I) * exp (-((θ - ω) * i * I)) := by
    rw [← Complex.exp_add, ← Complex.exp_add]; congr 1; ring
  have e2 : exp (-(ω * i + φ) * I) * exp (-(θ * i * I)) = exp (-(φ * I)) * exp (-((θ + ω) * i * I)) := by
    rw [← Complex.exp_add, ← Complex.exp_add]; congr 1; ring
  linear_combination (items o i * A / 2 : ℂ) * e1 + (items o i * A / 2 : ℂ) * e2

/-- **C127.** So what leaks from a sinusoid of frequency `ω` to the frequency `θ` is bounded by the leakage over the two distances. -/
theorem C127_sinusoid_leaks [Target] {w : WindowKind} {n : ℕ} (hn : n < usizeMod) (h : Yields b w n o) (A φ ω : ℝ)
    {xs : List ℝ} (hl : xs.length = n) (hx : ∀ i < n, xs[i]? = some (A * Real.cos (ω * i + φ))) {θ B B' : ℝ}
    (hB : ‖dtft n (items o) (θ - ω)‖ ≤ B) (hB' : ‖dtft n (items o) (θ + ω)‖ ≤ B') :
    ∃ ys, applyWindow b xs (.shaped w) = .ok ys ∧ ‖dtft n (fun i => ys[i]?.getD 0) θ‖ ≤ |A| / 2 * (B + B') := by
  obtain ⟨ys, h1, -, h2⟩ := C127_sinusoid hn h A φ ω hl hx
  refine ⟨ys, h1, ?_⟩
  rw [h2, show (A / 2 : ℂ) = ((A / 2 : ℝ) : ℂ) by push_cast; ring, norm_scaled, abs_div, abs_two]
  refine mul_le_mul_of_nonneg_left ((norm_add_le _ _).trans ?_) (by positivity)
  rw [norm_mul, norm_mul, Complex.norm_exp_ofReal_mul_I, show -((φ : ℂ) * I) = ((-φ : ℝ) : ℂ) * I by push_cast; ring,
    Complex.norm_exp_ofReal_mul_I, one_mul, one_mul]
  exact add_le_add hB hB'

/-- A sinusoid of any frequency through a Hann window of 65 points: 16 bins away (`π/2` radians per sample, with the mirror image as far)
less than 0.0036 of its amplitude is left; its own peak holds 16 times the amplitude. -/
example [Target] (A φ : ℝ) {xs : List ℝ} (hl : xs.length = 65)
    (hx : ∀ i : ℕ, i < 65 → xs[i]? = some (A * Real.cos (Real.pi / 2 * i + φ))) :
    ∃ ys, applyWindow b xs (.shaped .hann) = .ok ys ∧ ‖dtft 65 (fun i => ys[i]?.getD 0) 0‖ ≤ 0.0036 * |A| := by
  have hn : 65 < usizeMod := by unfold usizeMod usizeBits; split <;> norm_num
  obtain ⟨o, h⟩ := (C55_exactly_size_items (T := ℝ) b .hann 65 hn).1
  have hd0 : 0 < Real.sin (Real.pi / (64 : ℕ)) :=
    Real.sin_pos_of_pos_of_lt_pi (by have := Real.pi_pos; positivity) (div_lt_self Real.pi_pos (by norm_num))
  have hd : Real.sin (Real.pi / (64 : ℕ)) ≤ 0.05 := by
    refine (Real.sin_le (by have := Real.pi_pos; positivity)).trans ?_
    have := Real.pi_lt_d2
    push_cast
    rw [div_le_iff₀ (by norm_num)]; linarith
  have hb : ∀ c, Real.sin c ^ 2 = 1 / 2 → ‖dtft 65 (items o) (2 * c)‖ ≤ 0.0036 := fun c hc => by
    have := C127_hann_leaks (N := 64) (by norm_num) hn h c
    have h7 : 7 / 10 ≤ |Real.sin c| := by
      by_contra h0
      push Not at h0
      have := pow_lt_pow_left₀ h0 (abs_nonneg _) two_ne_zero
      rw [sq_abs, hc] at this
      norm_num at this
    generalize Real.sin (Real.pi / (64 : ℕ)) = d at *
    have hd2 : d ^ 2 ≤ 0.0025 := by nlinarith
    rw [hc, abs_of_nonneg (show 0 ≤ 1 / 2 - d ^ 2 by linarith)] at this
    have h1 : 2 * (7 / 10) * (1 / 2 - 0.0025) * ‖dtft 65 (items o) (2 * c)‖ ≤ 2 * |Real.sin c| * (1 / 2 - d ^ 2) * ‖dtft 65 (items o) (2 * c)‖ := by
      refine mul_le_mul_of_nonneg_right ?_ (norm_nonneg _)
      exact mul_le_mul (by linarith) (by linarith) (by norm_num) (by positivity)
    linarith
  have e1 : Real.sin (-(Real.pi / 4)) ^ 2 = 1 / 2 := by
    rw [Real.sin_neg, Real.sin_pi_div_four, neg_sq, div_pow, Real.sq_sqrt (by norm_num)]; norm_num
  have e2 : Real.sin (Real.pi / 4) ^ 2 = 1 / 2 := by rw [Real.sin_pi_div_four, div_pow, Real.sq_sqrt (by norm_num)]; norm_num
  obtain ⟨ys, h1, h2⟩ := C127_sinusoid_leaks hn h A φ (Real.pi / 2) hl hx (θ := 0) (B := 0.0036) (B' := 0.0036)
    (by rw [show 0 - Real.pi / 2 = 2 * -(Real.pi / 4) by ring]; exact hb _ e1)
    (by rw [show 0 + Real.pi / 2 = 2 * (Real.pi / 4) by ring]; exact hb _ e2)
  exact ⟨ys, h1, h2.trans (by linarith)⟩

end Rasp
