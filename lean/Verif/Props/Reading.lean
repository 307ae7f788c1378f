import Verif.Props.LobesFloat
import Verif.Props.Noise
import Verif.Spec.Reading

/-!
# C145: reading levels off the spectrum of a windowed signal
-/

namespace Rasp
open Complex (I exp)
open MeasureTheory
variable {b : Build} {o : ℕ → Option ℝ}

/-! ## The main lobe -/

theorem centred_re (n : ℕ) (v : ℕ → ℝ) (hv : ∀ i < n, v (n - 1 - i) = v i) (θ : ℝ) :
    centred n v θ = ((∑ i ∈ Finset.range n, v i * Real.cos ((i - ((n : ℝ) - 1) / 2) * θ) : ℝ) : ℂ) := by
  have e : centred n v θ = ∑ i ∈ Finset.range n, (v i : ℂ) * exp (((-((i - ((n : ℝ) - 1) / 2) * θ) : ℝ) : ℂ) * I) := by
    unfold centred dtft
    rw [Finset.mul_sum]
    refine Finset.sum_congr rfl fun i _ => ?_
    rw [mul_left_comm, ← Complex.exp_add]
    congr 2
    push_cast
    ring
  have s : ∑ i ∈ Finset.range n, v i * Real.sin (-((i - ((n : ℝ) - 1) / 2) * θ)) = 0 := by
    have r := Finset.sum_range_reflect (fun i : ℕ => v i * Real.sin (-(((i : ℝ) - ((n : ℝ) - 1) / 2) * θ))) n
    have r' : ∑ i ∈ Finset.range n, v (n - 1 - i) * Real.sin (-((((n - 1 - i : ℕ) : ℝ) - ((n : ℝ) - 1) / 2) * θ)) =
        -∑ i ∈ Finset.range n, v i * Real.sin (-(((i : ℝ) - ((n : ℝ) - 1) / 2) * θ)) := by
      rw [← Finset.sum_neg_distrib]
      refine Finset.sum_congr rfl fun i hi => ?_
      have hi := Finset.mem_range.1 hi
      rw [hv i hi, Real.sin_neg, Real.sin_neg, mul_neg, mul_neg, neg_neg, ← mul_neg, ← Real.sin_neg]
      congr 2
      rw [Nat.cast_sub (by omega), Nat.cast_sub (by omega)]
      push_cast
      ring
    linarith
  rw [e]
  apply Complex.ext
  · rw [Complex.re_sum, Complex.ofReal_re]
    refine Finset.sum_congr rfl fun i _ => ?_
    rw [Complex.re_ofReal_mul, Complex.exp_ofReal_mul_I_re, Real.cos_neg]
  · rw [Complex.im_sum, Complex.ofReal_im, ← s]
    refine Finset.sum_congr rfl fun i _ => ?_
    rw [Complex.im_ofReal_mul, Complex.exp_ofReal_mul_I_im]

theorem items_symm [Target] {w : WindowKind} {n : ℕ} (h2 : 2 ≤ n) (hn : n < usizeMod) (h : Yields b w n o) (i : ℕ) (hi : i < n) :
    items o (n - 1 - i) = items o i := by
  unfold items
  rw [← C58_symmetric b w n h2 hn o h i hi]

theorem items_nonneg [Target] {w : WindowKind} {n : ℕ} (h2 : 2 ≤ n) (hn : n < usizeMod) (h : Yields b w n o) {i : ℕ} (hi : i < n) :
    0 ≤ items o i := by
  have h2' : (2 : ℝ) ≤ n := by exact_mod_cast h2
  have hi' : (i : ℝ) + 1 ≤ n := by exact_mod_cast hi
  rw [items_eq hn h hi]
  exact (shape_mem w (by linarith) (Nat.cast_nonneg i) (by linarith)).1

/-- **C145.** The main lobe: with at least four points, the spectrum of every window falls from its sum, the value at frequency 0, strictly
for one bin (a turn in `n - 1` samples), to both sides. So of two frequencies up to one bin away the nearer one reads higher. -/
theorem C145_main_lobe [Target] {w : WindowKind} {n : ℕ} (h4 : 4 ≤ n) (hn : n < usizeMod) (h : Yields b w n o) :
    FallsTo n (items o) (2 * Real.pi / (n - 1 : ℕ)) := by
  have hpi := Real.pi_pos
  have h4' : (4 : ℝ) ≤ n := by exact_mod_cast h4
  have hc : ((n - 1 : ℕ) : ℝ) = n - 1 := by rw [Nat.cast_sub (by omega)]; simp
  refine ⟨fun θ => ∑ i ∈ Finset.range n, items o i * Real.cos ((i - ((n : ℝ) - 1) / 2) * θ), centred_re n _ (items_symm (by omega) hn h), ?_, ?_, ?_, ?_⟩
  · intro θ
    refine Finset.sum_congr rfl fun i _ => ?_
    rw [mul_neg, Real.cos_neg]
  · simp
  · intro θ
    refine (Finset.abs_sum_le_sum_abs _ _).trans (Finset.sum_le_sum fun i hi => ?_)
    have := items_nonneg (by omega) hn h (Finset.mem_range.1 hi)
    rw [abs_mul, abs_of_nonneg this, mul_zero, Real.cos_zero]
    exact mul_le_mul_of_nonneg_left (Real.abs_cos_le_one _) this
  · intro x hx y hy hxy
    rw [hc] at hx hy
    have arg : ∀ i < n, |(i : ℝ) - ((n : ℝ) - 1) / 2| ≤ ((n : ℝ) - 1) / 2 := fun i hi => by
      have : (i : ℝ) + 1 ≤ n := by exact_mod_cast hi
      have : (0 : ℝ) ≤ i := Nat.cast_nonneg i
      rw [abs_le]; constructor <;> linarith
    have top : ((n : ℝ) - 1) / 2 * y ≤ Real.pi := by
      have := hy.2
      rw [le_div_iff₀ (by linarith)] at this
      linarith
    have le : ∀ i < n, Real.cos ((i - ((n : ℝ) - 1) / 2) * y) ≤ Real.cos ((i - ((n : ℝ) - 1) / 2) * x) := fun i hi => by
      rw [← Real.cos_abs, ← Real.cos_abs (_ * x), abs_mul, abs_mul, abs_of_nonneg hx.1, abs_of_nonneg hy.1]
      refine Real.cos_le_cos_of_nonneg_of_le_pi (mul_nonneg (abs_nonneg _) hx.1) ?_ (mul_le_mul_of_nonneg_left hxy.le (abs_nonneg _))
      exact (mul_le_mul_of_nonneg_right (arg i hi) hy.1).trans top
    refine Finset.sum_lt_sum (fun i hi => mul_le_mul_of_nonneg_left (le i (Finset.mem_range.1 hi)) (items_nonneg (by omega) hn h (Finset.mem_range.1 hi)))
      ⟨1, Finset.mem_range.2 (by omega), ?_⟩
    have pos : 0 < items o 1 := by
      obtain ⟨u, v, hu, hv, -, -, huv⟩ := C88_rises_to_middle hn h 0 1 (by omega) (by omega) (by omega)
      have := items_nonneg (by omega) hn h (show 0 < n by omega)
      simp only [items, hu, hv, Option.getD_some] at this ⊢
      linarith
    refine mul_lt_mul_of_pos_left ?_ pos
    have := arg 1 (by omega)
    rw [← Real.cos_abs, ← Real.cos_abs (_ * x), abs_mul, abs_mul, abs_of_nonneg hx.1, abs_of_nonneg hy.1]
    refine Real.cos_lt_cos_of_nonneg_of_le_pi (mul_nonneg (abs_nonneg _) hx.1) ((mul_le_mul_of_nonneg_right this hy.1).trans top) ?_
    refine mul_lt_mul_of_pos_left hxy (abs_pos.2 ?_)
    push_cast
    linarith

/-! ## Half way between two bins -/

theorem half_bin_angle {N : ℕ} (hN : 64 ≤ N) : 0 < Real.pi / (2 * N) ∧ Real.pi / (2 * N) ≤ 0.02455 ∧ (N : ℝ) * (Real.pi / (2 * N)) = Real.pi / 2 := by
  have hN' : (64 : ℝ) ≤ N := by exact_mod_cast hN
  have := Real.pi_pos
  have := Real.pi_lt_d4
  refine ⟨by positivity, ?_, by field_simp⟩
  rw [div_le_iff₀ (by linarith)]
  linarith

theorem half_bin_sq {N : ℕ} (hN : 64 ≤ N) : 0 < Real.sin (Real.pi / (2 * N)) ∧ Real.sin (Real.pi / (2 * N)) ^ 2 ≤ 0.000603 := by
  obtain ⟨h0, h1, -⟩ := half_bin_angle hN
  have hs := Real.sin_pos_of_pos_of_lt_pi h0 (by linarith [Real.pi_gt_three])
  refine ⟨hs, ?_⟩
  have := Real.sin_lt h0
  nlinarith

theorem half_bin_cosine [Target] {w : WindowKind} (hw : cosineCoefs w ≠ []) {N : ℕ} (hN : 64 ≤ N) (hn : N + 1 < usizeMod)
    (h : Yields b w (N + 1) o) (hc : OffLines (cosineCoefs w) N (Real.pi / (2 * N))) {P r : ℝ} (hP0 : 0 ≤ P)
    (hP : P ≤ Real.sin (Real.pi / (2 * N)) ^ 2 * poles (cosineCoefs w) N (Real.pi / (2 * N)))
    (hr : centred (N + 1) (items o) (2 * (Real.pi / (2 * N))) = r) : 0.63635 * N * P ≤ r := by
  have hN' : (64 : ℝ) ≤ N := by exact_mod_cast hN
  obtain ⟨h0, h1, h2⟩ := half_bin_angle hN
  obtain ⟨hs, -⟩ := half_bin_sq hN
  rw [C129_spectrum hw (by omega) hn h hc, h2, Real.cos_pi_div_two, Real.sin_pi_div_two, Complex.ofReal_inj, Real.sin_two_mul] at hr
  have hsc := Real.sin_lt h0
  have hcos := Real.one_sub_sq_div_two_le_cos (x := Real.pi / (2 * N))
  have hNc : (1.5707 : ℝ) ≤ N * (Real.pi / (2 * N)) := by rw [h2]; linarith [Real.pi_gt_d4]
  have hNc' : N * (Real.pi / (2 * N)) ≤ (1.5708 : ℝ) := by rw [h2]; linarith [Real.pi_lt_d4]
  generalize Real.pi / (2 * (N : ℝ)) = c at *
  generalize poles (cosineCoefs w) N c = p at *
  have hpos : 0 < Real.cos c := by nlinarith
  have e : r * Real.sin c = Real.cos c * (Real.sin c ^ 2 * p) := by rw [← hr]; ring
  have e1 : Real.cos c * P ≤ r * Real.sin c := by rw [e]; exact mul_le_mul_of_nonneg_left hP hpos.le
  have hr0 : 0 ≤ r := by
    by_contra hlt
    have := mul_neg_of_neg_of_pos (not_le.1 hlt) hs
    have := mul_nonneg hpos.le hP0
    linarith
  have e2 : r * Real.sin c ≤ r * c := mul_le_mul_of_nonneg_left hsc.le hr0
  have e3 : (0.9996 : ℝ) * P ≤ Real.cos c * P := mul_le_mul_of_nonneg_right (by nlinarith) hP0
  have e4 : N * (0.9996 * P) ≤ N * (r * c) := mul_le_mul_of_nonneg_left (by linarith) (by linarith)
  have e5 : N * (r * c) = r * (N * c) := by ring
  have e6 : r * (N * c) ≤ r * 1.5708 := mul_le_mul_of_nonneg_left hNc' hr0
  nlinarith [mul_nonneg (show (0 : ℝ) ≤ N by linarith) hP0]

theorem half_bin_line {N : ℕ} (hN : 64 ≤ N) {r : ℝ} (hr : 0.9996 ≤ N * (Real.sin (Real.pi / (2 * N)) ^ 2 * r)) : 0.4051 * N ≤ r := by
  have hN' : (64 : ℝ) ≤ N := by exact_mod_cast hN
  obtain ⟨h0, h1, h2⟩ := half_bin_angle hN
  obtain ⟨hs, -⟩ := half_bin_sq hN
  have hsc := Real.sin_lt h0
  have hNc' : N * (Real.pi / (2 * N)) ≤ (1.5708 : ℝ) := by rw [h2]; linarith [Real.pi_lt_d4]
  generalize Real.pi / (2 * (N : ℝ)) = c at *
  have hr0 : 0 < r := by
    by_contra hlt
    have : N * (Real.sin c ^ 2 * r) ≤ 0 := mul_nonpos_of_nonneg_of_nonpos (by linarith) (mul_nonpos_of_nonneg_of_nonpos (sq_nonneg _) (not_lt.1 hlt))
    linarith
  have e1 : Real.sin c ^ 2 ≤ c ^ 2 := by nlinarith
  have e2 : N * (Real.sin c ^ 2 * r) ≤ N * (c ^ 2 * r) := mul_le_mul_of_nonneg_left (mul_le_mul_of_nonneg_right e1 hr0.le) (by linarith)
  have e3 : 0.9996 * N ≤ N * (c ^ 2 * r) * N := mul_le_mul_of_nonneg_right (by linarith) (by linarith)
  have e4 : N * (c ^ 2 * r) * N = (N * c) ^ 2 * r := by ring
  have e5 : (N * c) ^ 2 * r ≤ 1.5708 ^ 2 * r := mul_le_mul_of_nonneg_right (by gcongr) hr0.le
  nlinarith

theorem half_bin_terms {s : ℝ} (hs0 : 0 < s) (hs2 : s ≤ 0.000603) :
    0 < 4 * s * (1 - s) - s ∧ 14.95 * s ≤ 4 * (4 * s * (1 - s)) * (1 - 4 * s * (1 - s)) - s ∧
    30 * s ≤ 4 * s * (1 - s) * (3 - 4 * (4 * s * (1 - s))) ^ 2 - s ∧
    (∀ a : ℝ, 0 ≤ a → a / 3 ≤ s * (-a / (s - 4 * s * (1 - s)))) ∧
    (∀ a : ℝ, 0 ≤ a → -(a / 14.95) ≤ s * (a / (s - 4 * (4 * s * (1 - s)) * (1 - 4 * s * (1 - s))))) ∧
    ∀ a : ℝ, 0 ≤ a → a / 35 ≤ s * (-a / (s - 4 * s * (1 - s) * (3 - 4 * (4 * s * (1 - s))) ^ 2)) := by
  have hd1 : 0 < 4 * s * (1 - s) - s := by nlinarith
  have hd2 : 14.95 * s ≤ 4 * (4 * s * (1 - s)) * (1 - 4 * s * (1 - s)) - s := by
    have : 4 * (4 * s * (1 - s)) * (1 - 4 * s * (1 - s)) - s - 14.95 * s = s * (0.05 - 80 * s + 128 * s ^ 2 - 64 * s ^ 3) := by ring
    have : 0 ≤ 0.05 - 80 * s + 128 * s ^ 2 - 64 * s ^ 3 := by nlinarith [mul_pos hs0 hs0]
    nlinarith [mul_nonneg hs0.le this]
  have hd3 : 30 * s ≤ 4 * s * (1 - s) * (3 - 4 * (4 * s * (1 - s))) ^ 2 - s ∧ 4 * s * (1 - s) * (3 - 4 * (4 * s * (1 - s))) ^ 2 - s ≤ 35 * s := by
    have hq : 3 - 4 * (4 * s * (1 - s)) ≤ 3 := by nlinarith
    have hq' : 2.99 ≤ 3 - 4 * (4 * s * (1 - s)) := by nlinarith
    have hq2 : (3 - 4 * (4 * s * (1 - s))) ^ 2 ≤ 9 := by nlinarith
    have hq3 : 8.94 ≤ (3 - 4 * (4 * s * (1 - s))) ^ 2 := by nlinarith
    have hq4 : 4 * s * (1 - s) ≤ 4 * s := by nlinarith
    have hq5 : 3.9 * s ≤ 4 * s * (1 - s) := by nlinarith
    generalize (3 - 4 * (4 * s * (1 - s))) ^ 2 = q at *
    generalize 4 * s * (1 - s) = t at *
    have hq6 : 3.9 * s * 8.94 ≤ t * q := mul_le_mul hq5 hq3 (by norm_num) (by nlinarith)
    have hq7 : t * q ≤ 4 * s * 9 := mul_le_mul hq4 hq2 (by linarith) (by linarith)
    constructor <;> linarith
  have p1 : ∀ a : ℝ, 0 ≤ a → a / 3 ≤ s * (-a / (s - 4 * s * (1 - s))) := fun a ha => by
    rw [show s * (-a / (s - 4 * s * (1 - s))) = a * (s / (4 * s * (1 - s) - s)) by
      rw [show s - 4 * s * (1 - s) = -(4 * s * (1 - s) - s) by ring, neg_div_neg_eq]; ring]
    rw [show a / 3 = a * (1 / 3) by ring]
    refine mul_le_mul_of_nonneg_left ?_ ha
    rw [div_le_div_iff₀ (by norm_num) hd1]
    nlinarith
  have p2 : ∀ a : ℝ, 0 ≤ a → -(a / 14.95) ≤ s * (a / (s - 4 * (4 * s * (1 - s)) * (1 - 4 * s * (1 - s)))) := fun a ha => by
    generalize 4 * (4 * s * (1 - s)) * (1 - 4 * s * (1 - s)) = t at *
    rw [show s * (a / (s - t)) = -(a * (s / (t - s))) by
      rw [show s - t = -(t - s) by ring, div_neg]; ring]
    rw [show a / 14.95 = a * (1 / 14.95) by ring]
    refine neg_le_neg (mul_le_mul_of_nonneg_left ?_ ha)
    rw [div_le_div_iff₀ (by linarith) (by norm_num)]
    linarith
  have p3 : ∀ a : ℝ, 0 ≤ a → a / 35 ≤ s * (-a / (s - 4 * s * (1 - s) * (3 - 4 * (4 * s * (1 - s))) ^ 2)) := fun a ha => by
    generalize 4 * s * (1 - s) * (3 - 4 * (4 * s * (1 - s))) ^ 2 = t at *
    rw [show s * (-a / (s - t)) = a * (s / (t - s)) by
      rw [show s - t = -(t - s) by ring, neg_div_neg_eq]; ring]
    rw [show a / 35 = a * (1 / 35) by ring]
    refine mul_le_mul_of_nonneg_left ?_ ha
    rw [div_le_div_iff₀ (by norm_num) (by linarith [hd3.1])]
    linarith [hd3.2]
  exact ⟨hd1, hd2, hd3.1, p1, p2, p3⟩

theorem half_bin_cos {N : ℕ} (hN : 64 ≤ N) : 0.9996 ≤ Real.cos (Real.pi / (2 * N)) := by
  obtain ⟨h0, h1, -⟩ := half_bin_angle hN
  have := Real.one_sub_sq_div_two_le_cos (x := Real.pi / (2 * N))
  nlinarith

theorem half_bin_bartlett [Target] {N : ℕ} (hN : 64 ≤ N) (hn : N + 1 < usizeMod) (h : Yields b .bartlett (N + 1) o) {r : ℝ}
    (hr : centred (N + 1) (items o) (2 * (Real.pi / (2 * N))) = r) : 0.81 * itemSum o (N + 1) ≤ r := by
  have hN' : (64 : ℝ) ≤ N := by exact_mod_cast hN
  have hev := usizeMod_even
  obtain ⟨-, -, h2⟩ := half_bin_angle hN
  have hcos := half_bin_cos hN
  obtain ⟨m, hm | hm⟩ := Nat.even_or_odd' N
  · obtain rfl : N = m + m := by omega
    have hsum : itemSum o (m + m + 1) = m := by
      rw [show m + m = 2 * m by ring] at h ⊢
      exact (C88_sums_lines m (by omega) (by omega)).2.2.2 h
    have key := C127_bartlett (Or.inl rfl) (by omega) hn h (Real.pi / (2 * (m + m : ℕ)))
    rw [hr] at key
    have hq : (m : ℝ) * (Real.pi / (2 * (m + m : ℕ))) = Real.pi / 4 := by push_cast at h2 ⊢; linarith
    have key' : Real.sin (Real.pi / (2 * (m + m : ℕ))) ^ 2 * r = 2 / (m + m) * (Real.sin (Real.pi / 4) * Real.sin (Real.pi / 4)) := by
      rw [← hq]; exact Complex.ofReal_inj.1 (by
        simp only [Complex.ofReal_mul, Complex.ofReal_pow, Complex.ofReal_div, Complex.ofReal_add, Complex.ofReal_natCast, Complex.ofReal_ofNat]
        exact key)
    have hh : Real.sin (Real.pi / 4) * Real.sin (Real.pi / 4) = 1 / 2 := by
      rw [Real.sin_pi_div_four, div_mul_div_comm, Real.mul_self_sqrt (by norm_num)]; norm_num
    have := half_bin_line hN (r := r) (by
      rw [key', hh]; push_cast at hN' ⊢
      have : (m : ℝ) + m ≠ 0 := by linarith
      rw [show ((m : ℝ) + m) * (2 / (m + m) * (1 / 2)) = ((m : ℝ) + m) / (m + m) by ring, div_self this]; norm_num)
    rw [hsum]; push_cast at this; linarith
  · obtain rfl : N = m + 1 + m := by omega
    have hsum : itemSum o (m + 1 + m + 1) = 2 * (m + 1) * m / (2 * m + 1) := by
      rw [show m + 1 + m + 1 = 2 * (m + 1) by ring] at h ⊢
      rw [(C88_sums_lines (m + 1) (by omega) (by omega)).2.2.1 h]
      push_cast
      congr 1 <;> ring
    have key := C127_bartlett (Or.inr rfl) (by omega) hn h (Real.pi / (2 * (m + 1 + m : ℕ)))
    rw [hr, show ((m + 1 : ℕ) : ℂ) = m + 1 by push_cast; rfl, show ((m + 1 : ℕ) : ℝ) = m + 1 by push_cast; rfl] at key
    have key' : Real.sin (Real.pi / (2 * (m + 1 + m : ℕ))) ^ 2 * r =
        2 / (m + 1 + m) * (Real.sin ((m + 1) * (Real.pi / (2 * (m + 1 + m : ℕ)))) * Real.sin (m * (Real.pi / (2 * (m + 1 + m : ℕ))))) := by
      exact Complex.ofReal_inj.1 (by
        simp only [Complex.ofReal_mul, Complex.ofReal_pow, Complex.ofReal_div, Complex.ofReal_add, Complex.ofReal_natCast, Complex.ofReal_ofNat, Complex.ofReal_one]
        exact key)
    generalize hc : Real.pi / (2 * ((m + 1 + m : ℕ) : ℝ)) = c at *
    have hh : Real.sin ((m + 1) * c) * Real.sin (m * c) = Real.cos c / 2 := by
      have e1 := Real.cos_sub ((m + 1) * c) (m * c)
      have e2 := Real.cos_add ((m + 1) * c) (m * c)
      rw [show (m + 1) * c - m * c = c by ring] at e1
      rw [show (m + 1) * c + m * c = Real.pi / 2 by rw [← h2]; push_cast; ring, Real.cos_pi_div_two] at e2
      linarith
    have := half_bin_line hN (r := r) (by
      rw [hc, key', hh]; push_cast at hN' ⊢
      have : (m : ℝ) + 1 + m ≠ 0 := by linarith
      rw [show ((m : ℝ) + 1 + m) * (2 / (m + 1 + m) * (Real.cos c / 2)) = Real.cos c by field_simp]
      exact hcos)
    have hm0 : (0 : ℝ) ≤ m := m.cast_nonneg
    have hb : 2 * ((m : ℝ) + 1) * m / (2 * m + 1) ≤ (2 * m + 1) / 2 := by
      rw [div_le_div_iff₀ (by linarith) (by norm_num)]; nlinarith
    rw [hsum]; push_cast at this; linarith

theorem half_bin_triangular [Target] {M : ℕ} (hM : 65 ≤ M) (hn : M < usizeMod) (h : Yields b .triangular M o) {r : ℝ}
    (hr : centred M (items o) (2 * (Real.pi / (2 * M))) = r) : 0.81 * itemSum o M ≤ r := by
  have hM' : (65 : ℝ) ≤ M := by exact_mod_cast hM
  have hev := usizeMod_even
  obtain ⟨-, -, h2⟩ := half_bin_angle (N := M) (by omega)
  have hcos := half_bin_cos (N := M) (by omega)
  obtain ⟨m, hm | hm⟩ := Nat.even_or_odd' M
  · obtain ⟨m, rfl⟩ : ∃ k, m = k + 1 := ⟨m - 1, by omega⟩
    obtain rfl : M = 2 * m + 2 := by omega
    have hsum : itemSum o (2 * m + 2) = m + 1 := by
      rw [show 2 * m + 2 = 2 * (m + 1) by ring] at h ⊢
      rw [(C88_sums_lines (m + 1) (by omega) (by omega)).1 h]; push_cast; rfl
    have key := C127_triangular_even hn h (Real.pi / (2 * (2 * m + 2 : ℕ)))
    rw [hr] at key
    have hq : ((m : ℝ) + 1) * (Real.pi / (2 * (2 * m + 2 : ℕ))) = Real.pi / 4 := by push_cast at h2 ⊢; linarith
    have key' : Real.sin (Real.pi / (2 * (2 * m + 2 : ℕ))) ^ 2 * r = 2 / (2 * m + 2) * (Real.cos (Real.pi / (2 * (2 * m + 2 : ℕ))) * Real.sin (Real.pi / 4) ^ 2) := by
      rw [← hq]; exact Complex.ofReal_inj.1 (by
        simp only [Complex.ofReal_mul, Complex.ofReal_pow, Complex.ofReal_div, Complex.ofReal_add, Complex.ofReal_natCast, Complex.ofReal_ofNat]
        exact key)
    have hh : Real.sin (Real.pi / 4) ^ 2 = 1 / 2 := by
      rw [Real.sin_pi_div_four, div_pow, Real.sq_sqrt (by norm_num)]; norm_num
    have := half_bin_line (N := 2 * m + 2) (by omega) (r := r) (by
      rw [key', hh]
      have : (m : ℝ) + 1 ≠ 0 := by have : (0 : ℝ) ≤ m := m.cast_nonneg
                                   linarith
      refine hcos.trans (le_of_eq ?_)
      generalize Real.cos _ = q
      push_cast
      field_simp)
    rw [hsum]; push_cast at this; linarith
  · obtain rfl := hm
    have key := C127_triangular_odd hn h (Real.pi / (2 * (2 * m + 1 : ℕ)))
    rw [hr] at key
    have key' : Real.sin (Real.pi / (2 * (2 * m + 1 : ℕ))) ^ 2 * r = 1 / (2 * m + 1) * (1 - Real.cos (Real.pi / (2 * (2 * m + 1 : ℕ))) * Real.cos ((2 * m + 1) * (Real.pi / (2 * (2 * m + 1 : ℕ))))) := by
      exact Complex.ofReal_inj.1 (by
        simp only [Complex.ofReal_mul, Complex.ofReal_pow, Complex.ofReal_div, Complex.ofReal_add, Complex.ofReal_sub, Complex.ofReal_natCast, Complex.ofReal_ofNat, Complex.ofReal_one]
        exact key)
    have hq : (2 * (m : ℝ) + 1) * (Real.pi / (2 * (2 * m + 1 : ℕ))) = Real.pi / 2 := by rw [← h2]; push_cast; ring
    rw [hq, Real.cos_pi_div_two, mul_zero, sub_zero, mul_one] at key'
    have := half_bin_line (N := 2 * m + 1) (by omega) (r := r) (by
      rw [key']
      have : 2 * (m : ℝ) + 1 ≠ 0 := by have : (0 : ℝ) ≤ m := m.cast_nonneg
                                       linarith
      push_cast
      field_simp
      norm_num)
    rw [(C88_sums_lines m (by omega) (by omega)).2.1 h]
    push_cast at this hM'
    have hb : ((2 * (m : ℝ) + 1) ^ 2 + 1) / (2 * (2 * m + 1)) ≤ 0.50012 * (2 * m + 1) := by
      rw [div_le_iff₀ (by linarith)]; nlinarith
    linarith

theorem half_bin_value [Target] {w : WindowKind} {n : ℕ} (h65 : 65 ≤ n) (hn : n < usizeMod) (h : Yields b w n o) {r : ℝ}
    (hr : centred n (items o) (binWidth n w / 2) = r) : halfBinLevel w * ∑ i ∈ Finset.range n, items o i ≤ r := by
  obtain ⟨N, rfl⟩ : ∃ N, n = N + 1 := ⟨n - 1, by omega⟩
  have hN : 64 ≤ N := by omega
  have hN' : (64 : ℝ) ≤ N := by exact_mod_cast hN
  have es : ∑ i ∈ Finset.range (N + 1), items o i = itemSum o (N + 1) := by unfold itemSum items; rfl
  have hsum := C88_sums (b := b) (o := o) hn
  have hev := usizeMod_even
  rw [es]
  have eh : 2 * Real.pi / (N : ℝ) / 2 = 2 * (Real.pi / (2 * N)) := by ring
  obtain ⟨hs, hs2⟩ := half_bin_sq hN
  have hs0 : 0 < Real.sin (Real.pi / (2 * N)) ^ 2 := by positivity
  have l0 : Real.sin (((0 : ℕ) : ℝ) * (Real.pi / N)) ^ 2 = 0 := by simp
  have t1 : Real.sin (((1 : ℕ) : ℝ) * (Real.pi / N)) ^ 2 = 4 * Real.sin (Real.pi / (2 * N)) ^ 2 * (1 - Real.sin (Real.pi / (2 * N)) ^ 2) := by
    rw [show ((1 : ℕ) : ℝ) * (Real.pi / N) = 2 * (Real.pi / (2 * N)) by push_cast; ring, Real.sin_two_mul, ← Real.cos_sq']; ring
  have t2 : Real.sin (((2 : ℕ) : ℝ) * (Real.pi / N)) ^ 2 = 4 * Real.sin (((1 : ℕ) : ℝ) * (Real.pi / N)) ^ 2 * (1 - Real.sin (((1 : ℕ) : ℝ) * (Real.pi / N)) ^ 2) := by
    rw [show ((2 : ℕ) : ℝ) * (Real.pi / N) = 2 * (((1 : ℕ) : ℝ) * (Real.pi / N)) by push_cast; ring, Real.sin_two_mul, ← Real.cos_sq']; ring
  have t3 : Real.sin (((3 : ℕ) : ℝ) * (Real.pi / N)) ^ 2 = Real.sin (((1 : ℕ) : ℝ) * (Real.pi / N)) ^ 2 * (3 - 4 * Real.sin (((1 : ℕ) : ℝ) * (Real.pi / N)) ^ 2) ^ 2 := by
    rw [show ((3 : ℕ) : ℝ) * (Real.pi / N) = 3 * (((1 : ℕ) : ℝ) * (Real.pi / N)) by push_cast; ring, Real.sin_three_mul]; ring
  generalize hse : Real.sin (Real.pi / (2 * N)) ^ 2 = s at *
  rw [t1] at t2 t3
  obtain ⟨hd1, hd2, hd3, p1, p2, p3⟩ := half_bin_terms hs0 hs2
  have p0 : ∀ a : ℝ, s * (a / s) = a := fun a => by field_simp
  have hoff : ∀ k < 4, s ≠ Real.sin ((k : ℕ) * (Real.pi / N)) ^ 2 := by
    intro k hk
    interval_cases k
    · rw [l0]; exact hs0.ne'
    · rw [t1]; linarith
    · rw [t2]; linarith
    · rw [t3]; linarith
  cases w <;> simp only [binWidth, halfBinLevel, Nat.add_sub_cancel] at hr ⊢
  · exact half_bin_triangular (by omega) hn h (by rw [← hr]; congr 1; ring)
  · exact half_bin_bartlett hN hn h (by rw [← hr, eh])
  all_goals rw [eh] at hr
  · have := half_bin_cosine (P := 2 / 3) (by simp [cosineCoefs]) hN hn h (fun k hk => ?_) (by norm_num) ?_ hr
    · rw [hsum.1 (by omega) h]; push_cast; linarith
    · rw [hse]; exact hoff k (by simp [cosineCoefs] at hk; omega)
    · rw [poles, hse]
      simp only [cosineCoefs, List.length_cons, List.length_nil, Finset.sum_range_succ, Finset.sum_range_zero, List.getD_cons_zero, List.getD_cons_succ, zero_add, l0, t1, sub_zero, mul_add, p0]
      linarith [p1 0.5 (by norm_num)]
  · have := half_bin_cosine (P := 0.6933) (by simp [cosineCoefs]) hN hn h (fun k hk => ?_) (by norm_num) ?_ hr
    · rw [hsum.2.1 (by omega) h]; push_cast; linarith
    · rw [hse]; exact hoff k (by simp [cosineCoefs] at hk; omega)
    · rw [poles, hse]
      simp only [cosineCoefs, List.length_cons, List.length_nil, Finset.sum_range_succ, Finset.sum_range_zero, List.getD_cons_zero, List.getD_cons_succ, zero_add, l0, t1, sub_zero, mul_add, p0]
      linarith [p1 0.46 (by norm_num)]
  · have := half_bin_cosine (P := 0.5813) (by simp [cosineCoefs]) hN hn h (fun k hk => ?_) (by norm_num) ?_ hr
    · rw [hsum.2.2.1 (by omega) h]; push_cast; linarith
    · rw [hse]; exact hoff k (by simp [cosineCoefs] at hk; omega)
    · rw [poles, hse]
      simp only [cosineCoefs, List.length_cons, List.length_nil, Finset.sum_range_succ, Finset.sum_range_zero, List.getD_cons_zero, List.getD_cons_succ, zero_add, l0, t1, t2, sub_zero, mul_add, p0]
      linarith [p1 0.5 (by norm_num), p2 0.08 (by norm_num)]
  · have := half_bin_cosine (P := 0.5123) (by simp [cosineCoefs]) hN hn h (fun k hk => ?_) (by norm_num) ?_ hr
    · rw [hsum.2.2.2 (by omega) h]; push_cast; linarith
    · rw [hse]; exact hoff k (by simp [cosineCoefs] at hk; omega)
    · rw [poles, hse]
      simp only [cosineCoefs, List.length_cons, List.length_nil, Finset.sum_range_succ, Finset.sum_range_zero, List.getD_cons_zero, List.getD_cons_succ, zero_add, l0, t1, t2, t3, sub_zero, mul_add, p0]
      linarith [p1 0.48829 (by norm_num), p2 0.14128 (by norm_num), p3 0.01168 (by norm_num)]

/-- **C145.** A sinusoid that lies between two bins is read too low, but not by more than this: within half a bin of its own frequency the
spectrum of the window is at least `halfBinLevel` of the sum of its samples, and never more than the sum. -/
theorem C145_half_bin [Target] {w : WindowKind} {n : ℕ} (h65 : 65 ≤ n) (hn : n < usizeMod) (h : Yields b w n o) {θ : ℝ}
    (hθ : |θ| ≤ binWidth n w / 2) :
    halfBinLevel w * ∑ i ∈ Finset.range n, items o i ≤ ‖dtft n (items o) θ‖ ∧ ‖dtft n (items o) θ‖ ≤ ∑ i ∈ Finset.range n, items o i := by
  obtain ⟨W, h1, h2, h3, h4, h5⟩ := C145_main_lobe (by omega) hn h
  have hv := half_bin_value h65 hn h (h1 _)
  have hn1 : (64 : ℝ) ≤ (n - 1 : ℕ) := by exact_mod_cast (show 64 ≤ n - 1 by omega)
  have hn' : (65 : ℝ) ≤ n := by exact_mod_cast h65
  have hpi := Real.pi_pos
  have hb0 : 0 < binWidth n w := by cases w <;> simp only [binWidth] <;> positivity
  have hb : binWidth n w / 2 ≤ 2 * Real.pi / (n - 1 : ℕ) := by
    have e : Real.pi / n ≤ Real.pi / (n - 1 : ℕ) := by
      refine div_le_div_of_nonneg_left hpi.le (by linarith) ?_
      exact_mod_cast Nat.sub_le n 1
    have e' : 0 < Real.pi / (n - 1 : ℕ) := by positivity
    cases w <;> simp only [binWidth, mul_div_assoc] <;> linarith
  have hW : W (binWidth n w / 2) ≤ W |θ| := by
    rcases hθ.eq_or_lt with e | e
    · rw [e]
    · exact (h5 ⟨abs_nonneg _, (e.le.trans hb)⟩ ⟨by linarith, hb⟩ e).le
  have hθ' : W |θ| = W θ := by rcases abs_choice θ with e | e <;> rw [e]; exact h2 θ
  rw [← norm_centred, h1, Complex.norm_real, Real.norm_eq_abs, ← h3]
  rw [← h3] at hv
  exact ⟨(hv.trans (hW.trans hθ'.le)).trans (le_abs_self _), h4 θ⟩

/-- **C145.** The amplitude of a sinusoid, read off the spectrum of the windowed samples within half a bin of its frequency, and away from
its mirror image: twice the value over the sum of the window is `|A|` up to the loss between bins and the side lobes of the mirror image. -/
theorem C145_sinusoid [Target] {w : WindowKind} {n : ℕ} (h65 : 65 ≤ n) (hn : n < usizeMod) (h : Yields b w n o) (A φ ω : ℝ)
    {xs : List ℝ} (hl : xs.length = n) (hx : ∀ i < n, xs[i]? = some (A * Real.cos (ω * i + φ))) {θ : ℝ}
    (h1 : |θ - ω| ≤ binWidth n w / 2) (h2 : ∀ m : ℤ, lobeEdge n w ≤ |θ + ω - 2 * Real.pi * m|) :
    ∃ ys, applyWindow b xs (.shaped w) = .ok ys ∧
      (halfBinLevel w - lobeLevel w) * |A| ≤ 2 * ‖dtft n (fun i => ys[i]?.getD 0) θ‖ / ∑ i ∈ Finset.range n, items o i ∧
      2 * ‖dtft n (fun i => ys[i]?.getD 0) θ‖ / ∑ i ∈ Finset.range n, items o i ≤ (1 + lobeLevel w) * |A| := by
  obtain ⟨ys, e1, -, e2⟩ := C127_sinusoid hn h A φ ω hl hx
  obtain ⟨hlob, hsum, -⟩ := lobes_all h65 hn h
  have hn' : (65 : ℝ) ≤ n := by exact_mod_cast h65
  have hS : 0 < ∑ i ∈ Finset.range n, items o i := by linarith
  obtain ⟨g1, g2⟩ := C145_half_bin h65 hn h h1
  have g3 := hlob _ h2
  refine ⟨ys, e1, ?_⟩
  rw [e2, show (A / 2 : ℂ) = ((A / 2 : ℝ) : ℂ) by push_cast; ring, norm_scaled, abs_div, abs_two]
  have n1 : ‖exp (φ * I) * dtft n (items o) (θ - ω)‖ = ‖dtft n (items o) (θ - ω)‖ := by
    rw [norm_mul, Complex.norm_exp_ofReal_mul_I, one_mul]
  have n2 : ‖exp (-(φ * I)) * dtft n (items o) (θ + ω)‖ = ‖dtft n (items o) (θ + ω)‖ := by
    rw [norm_mul, show -((φ : ℂ) * I) = ((-φ : ℝ) : ℂ) * I by push_cast; ring, Complex.norm_exp_ofReal_mul_I, one_mul]
  have up := norm_add_le (exp (φ * I) * dtft n (items o) (θ - ω)) (exp (-(φ * I)) * dtft n (items o) (θ + ω))
  have lo := norm_sub_norm_le (exp (φ * I) * dtft n (items o) (θ - ω)) (-(exp (-(φ * I)) * dtft n (items o) (θ + ω)))
  rw [norm_neg, sub_neg_eq_add] at lo
  rw [n1, n2] at up lo
  have hA := abs_nonneg A
  rw [le_div_iff₀ hS, div_le_iff₀ hS]
  generalize ‖exp (φ * I) * dtft n (items o) (θ - ω) + exp (-(φ * I)) * dtft n (items o) (θ + ω)‖ = X at *
  have u1 : |A| * ((halfBinLevel w - lobeLevel w) * ∑ i ∈ Finset.range n, items o i) ≤ |A| * X := mul_le_mul_of_nonneg_left (by linarith) hA
  have u2 : |A| * X ≤ |A| * ((1 + lobeLevel w) * ∑ i ∈ Finset.range n, items o i) := mul_le_mul_of_nonneg_left (by linarith) hA
  constructor <;> linarith

/-! ## Noise -/

theorem noise_sum {Ω : Type} [MeasurableSpace Ω] {μ : Measure Ω} {x : ℕ → Ω → ℝ} {P : ℝ} (hx : WhiteNoise μ x P) (n : ℕ) (k : ℕ → ℝ) :
    Integrable (fun ω => (∑ i ∈ Finset.range n, k i * x i ω) ^ 2) μ ∧
    ∫ ω, (∑ i ∈ Finset.range n, k i * x i ω) ^ 2 ∂μ = P * ∑ i ∈ Finset.range n, k i ^ 2 := by
  have e1 : (fun ω => (∑ i ∈ Finset.range n, k i * x i ω) ^ 2) =
      fun ω => ∑ i ∈ Finset.range n, ∑ j ∈ Finset.range n, k i * k j * (x i ω * x j ω) := by
    funext ω
    rw [sq, Finset.sum_mul_sum]
    exact Finset.sum_congr rfl fun i _ => Finset.sum_congr rfl fun j _ => by ring
  rw [e1]
  refine ⟨integrable_finsetSum _ fun i _ => integrable_finsetSum _ fun j _ => ((hx _ _).1.const_mul _), ?_⟩
  rw [integral_finsetSum _ fun i _ => integrable_finsetSum _ fun j _ => ((hx _ _).1.const_mul _), Finset.mul_sum]
  refine Finset.sum_congr rfl fun i hi => ?_
  rw [integral_finsetSum _ fun j _ => ((hx _ _).1.const_mul _), Finset.sum_eq_single i]
  · rw [integral_const_mul, (hx _ _).2, if_pos rfl]; ring
  · intro j _ hne
    rw [integral_const_mul, (hx _ _).2, if_neg hne.symm, mul_zero]
  · exact fun h => absurd hi h

/-- **C145.** White noise of power `P` through a window: at every frequency the mean of the squared spectrum is `P` times the sum of the
squares of the window, which is `noiseBins` bins of the noise, on the scale where a sinusoid reads the square of the sum. -/
theorem C145_noise [Target] {w : WindowKind} {n : ℕ} (h65 : 65 ≤ n) (hn : n < usizeMod) (h : Yields b w n o) {Ω : Type} [MeasurableSpace Ω]
    {μ : Measure Ω} {x : ℕ → Ω → ℝ} {P : ℝ} (hx : WhiteNoise μ x P) {xs : Ω → List ℝ} (hl : ∀ ω, (xs ω).length = n)
    (hxs : ∀ ω, ∀ i < n, (xs ω)[i]? = some (x i ω)) :
    ∃ ys : Ω → List ℝ, (∀ ω, applyWindow b (xs ω) (.shaped w) = .ok (ys ω)) ∧ ∀ θ,
      ∫ ω, ‖dtft n (fun i => (ys ω)[i]?.getD 0) θ‖ ^ 2 ∂μ = P * ∑ i ∈ Finset.range n, items o i ^ 2 ∧
      ∫ ω, ‖dtft n (fun i => (ys ω)[i]?.getD 0) θ‖ ^ 2 ∂μ =
        P * (binWidth n w / (2 * Real.pi) * noiseBins n w (items o)) * (∑ i ∈ Finset.range n, items o i) ^ 2 := by
  have hex : ∀ ω, ∃ ys, applyWindow b (xs ω) (.shaped w) = .ok ys ∧ ∀ i < n, ys[i]?.getD 0 = items o i * x i ω := fun ω => by
    obtain ⟨ys, e1, -, e3⟩ := C57_pointwise b w (xs ω) (by rw [hl]; exact hn) o (by rw [hl]; exact h)
    refine ⟨ys, e1, fun i hi => ?_⟩
    obtain ⟨g, g1, g2⟩ := e3 i (by rw [hl]; exact hi)
    have := hxs ω i hi
    rw [List.getElem?_eq_getElem (by rw [hl]; exact hi)] at this
    rw [g2, items, g1, Option.some.inj this]
    rfl
  choose ys hy1 hy2 using hex
  refine ⟨ys, hy1, fun θ => ?_⟩
  have key : ∫ ω, ‖dtft n (fun i => (ys ω)[i]?.getD 0) θ‖ ^ 2 ∂μ = P * ∑ i ∈ Finset.range n, items o i ^ 2 := by
    have e : ∀ ω, ‖dtft n (fun i => (ys ω)[i]?.getD 0) θ‖ ^ 2 =
        (∑ i ∈ Finset.range n, items o i * Real.cos (θ * i) * x i ω) ^ 2 + (∑ i ∈ Finset.range n, items o i * Real.sin (θ * i) * x i ω) ^ 2 := by
      intro ω
      have ed : dtft n (fun i => (ys ω)[i]?.getD 0) θ =
          ∑ i ∈ Finset.range n, ((items o i * x i ω : ℝ) : ℂ) * exp (((-(θ * i) : ℝ) : ℂ) * I) := by
        unfold dtft
        refine Finset.sum_congr rfl fun i hi => ?_
        beta_reduce
        rw [hy2 ω i (Finset.mem_range.1 hi)]
        congr 2
        push_cast
        ring
      rw [Complex.sq_norm, Complex.normSq_apply, ed, Complex.re_sum, Complex.im_sum, ← sq, ← sq]
      congr 1
      · congr 1
        refine Finset.sum_congr rfl fun i _ => ?_
        rw [Complex.re_ofReal_mul, Complex.exp_ofReal_mul_I_re, Real.cos_neg]
        ring
      · rw [← neg_sq, ← Finset.sum_neg_distrib]
        congr 1
        refine Finset.sum_congr rfl fun i _ => ?_
        rw [Complex.im_ofReal_mul, Complex.exp_ofReal_mul_I_im, Real.sin_neg]
        ring
    simp only [e]
    obtain ⟨i1, i2⟩ := noise_sum hx n fun i => items o i * Real.cos (θ * i)
    obtain ⟨i3, i4⟩ := noise_sum hx n fun i => items o i * Real.sin (θ * i)
    rw [integral_add i1 i3, i2, i4, ← mul_add, ← Finset.sum_add_distrib]
    congr 1
    refine Finset.sum_congr rfl fun i _ => ?_
    rw [mul_pow, mul_pow, ← mul_add, Real.cos_sq_add_sin_sq, mul_one]
  refine ⟨key, key.trans ?_⟩
  obtain ⟨-, hsum, -⟩ := lobes_all h65 hn h
  have hn1 : (64 : ℝ) ≤ (n - 1 : ℕ) := by exact_mod_cast (show 64 ≤ n - 1 by omega)
  have hn' : (65 : ℝ) ≤ n := by exact_mod_cast h65
  have hpi := Real.pi_pos
  have hb0 : 0 < binWidth n w := by cases w <;> simp only [binWidth] <;> positivity
  have hS : 0 < ∑ i ∈ Finset.range n, items o i := by linarith
  unfold noiseBins
  field_simp

/-! ## The noise bandwidth -/

theorem sum_sq_mid (n : ℕ) : ∑ i ∈ Finset.range n, ((i : ℝ) - ((n : ℝ) - 1) / 2) ^ 2 = (n : ℝ) * ((n : ℝ) ^ 2 - 1) / 12 := by
  have k : ∀ (a : ℝ) (m : ℕ), ∑ i ∈ Finset.range m, ((i : ℝ) - a) ^ 2 = m * (m - 1) * (2 * m - 1) / 6 - a * (m * (m - 1)) + m * a ^ 2 := by
    intro a m
    induction m with
    | zero => simp
    | succ m ih => rw [Finset.sum_range_succ, ih]; push_cast; ring
  rw [k]; ring

theorem sum_sq_line (n : ℕ) {c : ℝ} (hc : 0 < c) : ∑ i ∈ Finset.range n, (1 - |((i : ℝ) - ((n : ℝ) - 1) / 2) / c|) ^ 2 =
    n - 2 * (∑ i ∈ Finset.range n, |(i : ℝ) - ((n : ℝ) - 1) / 2|) / c + n * (n ^ 2 - 1) / 12 / c ^ 2 := by
  rw [← sum_sq_mid, Finset.mul_sum, Finset.sum_div, Finset.sum_div]
  have : (n : ℝ) = ∑ i ∈ Finset.range n, 1 := by simp
  nth_rewrite 2 [this]
  rw [← Finset.sum_sub_distrib, ← Finset.sum_add_distrib]
  refine Finset.sum_congr rfl fun i _ => ?_
  rw [abs_div, abs_of_pos hc, sub_sq, div_pow, sq_abs, one_pow]
  ring

theorem squares_lines [Target] (m : ℕ) (hm : 1 ≤ m) (hn : 2 * m + 1 < usizeMod) :
    (Yields b .triangular (2 * m) o → itemSumSq o (2 * m) = (4 * m ^ 2 - 1) / (6 * m)) ∧
    (Yields b .triangular (2 * m + 1) o → itemSumSq o (2 * m + 1) = ((2 * m + 1) ^ 2 + 2) / (3 * (2 * m + 1))) ∧
    (Yields b .bartlett (2 * m) o → itemSumSq o (2 * m) = ((2 * m - 1) ^ 2 - 1) / (3 * (2 * m - 1))) ∧
    (Yields b .bartlett (2 * m + 1) o → itemSumSq o (2 * m + 1) = (2 * m ^ 2 + 1) / (3 * m)) := by
  have hm1 : (1 : ℝ) ≤ m := by exact_mod_cast hm
  refine ⟨fun h => ?_, fun h => ?_, fun h => ?_, fun h => ?_⟩ <;> rw [itemSumSq_eq (by omega) h] <;> simp only [shape]
  · rw [sum_sq_line _ (by push_cast; linarith), sum_abs_even]; push_cast; field_simp; ring
  · rw [sum_sq_line _ (by push_cast; linarith), sum_abs_odd]; push_cast; field_simp; ring
  · have : (2 * (m : ℝ) - 1) ≠ 0 := by linarith
    rw [sum_sq_line _ (by push_cast; linarith), sum_abs_even]; push_cast; field_simp; ring
  · rw [sum_sq_line _ (by push_cast; linarith), sum_abs_odd]; push_cast; field_simp; ring

theorem squares_blackman_harris [Target] {n : ℕ} (h8 : 8 ≤ n) (hn : n < usizeMod) (h : Yields b .blackmanHarris n o) :
    itemSumSq o n = 0.25796335495 * (n - 1) + 0.0000000036 := by
  rw [itemSumSq_eq hn h]
  simp only [shape]
  have key : ∀ (a : ℝ) (j : ℕ), 0 < j → j + 2 ≤ n → ∑ i ∈ Finset.range n, a * Real.cos (j * (2 * Real.pi * i / ((n : ℝ) - 1))) = a := by
    intro a j hj ha
    rw [← Finset.mul_sum, sum_cos_window (by omega) (Nat.not_dvd_of_pos_of_lt hj (by omega)), mul_one]
  have e : ∀ i : ℕ, (0.35875 - 0.48829 * Real.cos (2 * Real.pi * i / ((n : ℝ) - 1)) + 0.14128 * Real.cos (2 * (2 * Real.pi * i / ((n : ℝ) - 1))) -
      0.01168 * Real.cos (3 * (2 * Real.pi * i / ((n : ℝ) - 1)))) ^ 2 = 0.25796335495 +
      -0.4209838366 * Real.cos ((1 : ℕ) * (2 * Real.pi * i / ((n : ℝ) - 1))) + 0.22628518925 * Real.cos ((2 : ℕ) * (2 * Real.pi * i / ((n : ℝ) - 1))) +
      -0.0773660112 * Real.cos ((3 : ℕ) * (2 * Real.pi * i / ((n : ℝ) - 1))) + 0.0156832464 * Real.cos ((4 : ℕ) * (2 * Real.pi * i / ((n : ℝ) - 1))) +
      -0.0016501504 * Real.cos ((5 : ℕ) * (2 * Real.pi * i / ((n : ℝ) - 1))) + 0.0000682112 * Real.cos ((6 : ℕ) * (2 * Real.pi * i / ((n : ℝ) - 1))) := by
    intro i
    generalize 2 * Real.pi * i / ((n : ℝ) - 1) = t
    have e4 : Real.cos ((4 : ℕ) * t) = 2 * Real.cos (2 * t) ^ 2 - 1 := by rw [← Real.cos_two_mul]; push_cast; ring_nf
    have e6 : Real.cos ((6 : ℕ) * t) = 2 * Real.cos (3 * t) ^ 2 - 1 := by rw [← Real.cos_two_mul]; push_cast; ring_nf
    have e5 : Real.cos ((5 : ℕ) * t) = 2 * Real.cos (2 * t) * Real.cos (3 * t) - Real.cos t := by
      have a1 := Real.cos_add (3 * t) (2 * t)
      have a2 := Real.cos_sub (3 * t) (2 * t)
      rw [show 3 * t + 2 * t = (5 : ℕ) * t by push_cast; ring] at a1
      rw [show 3 * t - 2 * t = t by ring] at a2
      linarith
    rw [e4, e5, e6]
    push_cast
    rw [one_mul, Real.cos_three_mul, Real.cos_two_mul]
    ring
  simp only [e, Finset.sum_add_distrib, Finset.sum_const, Finset.card_range, nsmul_eq_mul]
  rw [key _ 1 (by omega) (by omega), key _ 2 (by omega) (by omega), key _ 3 (by omega) (by omega), key _ 4 (by omega) (by omega),
    key _ 5 (by omega) (by omega), key _ 6 (by omega) (by omega)]
  ring

/-- **C145.** The noise bandwidth of every window of at least 65 points, in bins: between 1.333 and 1.334 for the straight windows, 1.5 for
Hann, between 1.356 and 1.363 for Hamming, 1.7267… for Blackman, between 2.004 and 2.0044 for Blackman-Harris. -/
theorem C145_bandwidth [Target] {w : WindowKind} {n : ℕ} (h65 : 65 ≤ n) (hn : n < usizeMod) (h : Yields b w n o) :
    noiseLeast w ≤ noiseBins n w (items o) ∧ noiseBins n w (items o) ≤ noiseMost w := by
  obtain ⟨N, rfl⟩ : ∃ N, n = N + 1 := ⟨n - 1, by omega⟩
  have hN' : (64 : ℝ) ≤ N := by exact_mod_cast (show 64 ≤ N by omega)
  have hev := usizeMod_even
  have hpi := Real.pi_pos
  have e1 : ∑ i ∈ Finset.range (N + 1), items o i = itemSum o (N + 1) := by unfold itemSum items; rfl
  have e2 : ∑ i ∈ Finset.range (N + 1), items o i ^ 2 = itemSumSq o (N + 1) := by unfold itemSumSq items; rfl
  have s1 := C88_sums (b := b) (o := o) hn
  have s2 := C88_sums_of_squares (b := b) (o := o) hn
  have eb : ∀ D : ℝ, 64 ≤ D → 2 * Real.pi / (2 * Real.pi / D) = D := fun D hD => by field_simp
  unfold noiseBins
  rw [e1, e2]
  cases w <;> simp only [binWidth, noiseLeast, noiseMost, Nat.add_sub_cancel]
  · rw [eb _ (by push_cast; linarith)]
    obtain ⟨m, hm | hm⟩ := Nat.even_or_odd' (N + 1)
    · rw [hm] at h ⊢
      have hm' : (32.5 : ℝ) ≤ m := by
        have : ((65 : ℕ) : ℝ) ≤ ((2 * m : ℕ) : ℝ) := by exact_mod_cast (show 65 ≤ 2 * m by omega)
        push_cast at this; linarith
      rw [(C88_sums_lines m (by omega) (by omega)).1 h, (squares_lines m (by omega) (by omega)).1 h]
      push_cast
      rw [show 2 * (m : ℝ) * ((4 * m ^ 2 - 1) / (6 * m)) / m ^ 2 = (4 * m ^ 2 - 1) / (3 * m ^ 2) by field_simp; ring]
      rw [le_div_iff₀ (by positivity), div_le_iff₀ (by positivity)]
      constructor <;> nlinarith
    · rw [hm] at h ⊢
      have hm' : (32 : ℝ) ≤ m := by exact_mod_cast (show 32 ≤ m by omega)
      rw [(C88_sums_lines m (by omega) (by omega)).2.1 h, (squares_lines m (by omega) (by omega)).2.1 h]
      push_cast
      obtain ⟨q, hq⟩ : ∃ q : ℝ, q = (2 * (m : ℝ) + 1) ^ 2 := ⟨_, rfl⟩
      have hq0 : 4225 ≤ q := by rw [hq]; nlinarith
      have hmp : 0 < 2 * (m : ℝ) + 1 := by linarith
      rw [show (2 * (m : ℝ) + 1) * (((2 * m + 1) ^ 2 + 2) / (3 * (2 * m + 1))) / (((2 * m + 1) ^ 2 + 1) / (2 * (2 * m + 1))) ^ 2 =
        4 * q * (q + 2) / (3 * (q + 1) ^ 2) by rw [div_pow, mul_pow, ← hq]; field_simp; norm_num]
      rw [le_div_iff₀ (by positivity), div_le_iff₀ (by positivity)]
      constructor <;> nlinarith
  · rw [eb _ hN']
    obtain ⟨m, hm | hm⟩ := Nat.even_or_odd' N
    · rw [hm] at h ⊢
      have hm' : (32 : ℝ) ≤ m := by exact_mod_cast (show 32 ≤ m by omega)
      rw [(C88_sums_lines m (by omega) (by omega)).2.2.2 h, (squares_lines m (by omega) (by omega)).2.2.2 h]
      push_cast
      rw [show 2 * (m : ℝ) * ((2 * m ^ 2 + 1) / (3 * m)) / m ^ 2 = 2 * (2 * m ^ 2 + 1) / (3 * m ^ 2) by field_simp]
      rw [le_div_iff₀ (by positivity), div_le_iff₀ (by positivity)]
      constructor <;> nlinarith
    · rw [show N + 1 = 2 * (m + 1) by omega] at h ⊢
      have hm' : (32 : ℝ) ≤ m := by exact_mod_cast (show 32 ≤ m by omega)
      rw [(C88_sums_lines (m + 1) (by omega) (by omega)).2.2.1 h, (squares_lines (m + 1) (by omega) (by omega)).2.2.1 h, hm]
      push_cast
      rw [show 2 * ((m : ℝ) + 1) - 1 = 2 * m + 1 by ring, show (m : ℝ) + 1 - 1 = m by ring]
      have hmp : 0 < 2 * (m : ℝ) + 1 := by linarith
      rw [show (2 * (m : ℝ) + 1) * (((2 * m + 1) ^ 2 - 1) / (3 * (2 * m + 1))) / (2 * (m + 1) * m / (2 * m + 1)) ^ 2 =
        (2 * m + 1) ^ 2 / (3 * (m * (m + 1))) by
          rw [show (2 * (m : ℝ) + 1) ^ 2 - 1 = 4 * (m * (m + 1)) by ring]; field_simp; norm_num]
      rw [le_div_iff₀ (by positivity), div_le_iff₀ (by positivity)]
      constructor <;> nlinarith
  all_goals rw [eb _ hN']
  · rw [s1.1 (by omega) h, s2.1 (by omega) h]
    push_cast
    rw [le_div_iff₀ (by simp only [add_sub_cancel_right]; positivity), div_le_iff₀ (by simp only [add_sub_cancel_right]; positivity)]
    constructor <;> nlinarith
  · rw [s1.2.1 (by omega) h, s2.2.1 (by omega) h]
    push_cast
    have hp : 0 < (0.54 * ((N : ℝ) + 1) - 0.46) ^ 2 := by apply pow_pos; linarith
    rw [le_div_iff₀ hp, div_le_iff₀ hp]
    constructor <;> nlinarith
  · rw [s1.2.2.1 (by omega) h, s2.2.2 (by omega) h]
    push_cast
    rw [show (N : ℝ) * (0.3046 * (N + 1 - 1)) / (0.42 * (N + 1 - 1)) ^ 2 = 0.3046 / 0.1764 by
      rw [add_sub_cancel_right]; field_simp; norm_num]
    exact ⟨le_rfl, le_rfl⟩
  · rw [s1.2.2.2 (by omega) h, squares_blackman_harris (by omega) hn h]
    push_cast
    have hp : 0 < (0.35875 * ((N : ℝ) + 1) - 0.35869) ^ 2 := by apply pow_pos; linarith
    rw [le_div_iff₀ hp, div_le_iff₀ hp]
    constructor <;> nlinarith

/-! ## Examples -/

/-- Every window of 65 points, and half a bin either way. -/
example [Target] (w : WindowKind) : ∃ o : ℕ → Option ℝ, Yields b w 65 o ∧ FallsTo 65 (items o) (2 * Real.pi / (64 : ℕ)) ∧
    halfBinLevel w * ∑ i ∈ Finset.range 65, items o i ≤ ‖dtft 65 (items o) (binWidth 65 w / 2)‖ ∧ noiseBins 65 w (items o) ≤ noiseMost w := by
  have hn : 65 < usizeMod := by unfold usizeMod usizeBits; split <;> norm_num
  obtain ⟨o, h⟩ := (C55_exactly_size_items (T := ℝ) b w 65 hn).1
  have hb0 : 0 < binWidth 65 w := by have := Real.pi_pos; cases w <;> simp only [binWidth] <;> positivity
  exact ⟨o, h, C145_main_lobe (by norm_num) hn h, (C145_half_bin (by norm_num) hn h (by rw [abs_of_pos (by linarith)])).1, (C145_bandwidth (by norm_num) hn h).2⟩

/-- A sinusoid at a quarter of the sample rate, seen through a Blackman-Harris window of 65 points, and read half a bin too high: between
0.907 and 1.001 of its amplitude. -/
example [Target] (A φ : ℝ) {xs : List ℝ} (hl : xs.length = 65)
    (hx : ∀ i : ℕ, i < 65 → xs[i]? = some (A * Real.cos (Real.pi / 2 * i + φ))) :
    ∃ ys, applyWindow b xs (.shaped .blackmanHarris) = .ok ys ∧
      0.907 * |A| ≤ 2 * ‖dtft 65 (fun i => ys[i]?.getD 0) (Real.pi / 2 + Real.pi / 64)‖ / (0.35875 * 65 - 0.35869) ∧
      2 * ‖dtft 65 (fun i => ys[i]?.getD 0) (Real.pi / 2 + Real.pi / 64)‖ / (0.35875 * 65 - 0.35869) ≤ 1.001 * |A| := by
  have hn : 65 < usizeMod := by unfold usizeMod usizeBits; split <;> norm_num
  have hpi := Real.pi_pos
  obtain ⟨o, h⟩ := (C55_exactly_size_items (T := ℝ) b .blackmanHarris 65 hn).1
  have es : ∑ i ∈ Finset.range 65, items o i = 0.35875 * 65 - 0.35869 := by
    have := (C88_sums (b := b) (o := o) hn).2.2.2 (by norm_num) h
    rw [← Nat.cast_ofNat (R := ℝ) (n := 65), ← this]; unfold itemSum items; rfl
  obtain ⟨ys, e1, e2, e3⟩ := C145_sinusoid (b := b) (θ := Real.pi / 2 + Real.pi / 64) (by norm_num) hn h A φ (Real.pi / 2) hl hx
    (by simp only [binWidth]; rw [add_sub_cancel_left, abs_of_pos (by positivity)]; push_cast; linarith) (by
      intro m
      simp only [lobeEdge]
      rw [show Real.pi / 2 + Real.pi / 64 + Real.pi / 2 - 2 * Real.pi * m = Real.pi * (65 / 64 - 2 * m) by ring, abs_mul, abs_of_pos hpi]
      have : (0.9 : ℝ) ≤ |65 / 64 - 2 * (m : ℝ)| := by
        rcases le_or_gt m 0 with hm | hm
        · have : (m : ℝ) ≤ 0 := by exact_mod_cast hm
          exact le_trans (by linarith) (le_abs_self _)
        · have : (1 : ℝ) ≤ m := by exact_mod_cast hm
          exact le_trans (by linarith) (neg_le_abs _)
      push_cast
      nlinarith)
  rw [es] at e2 e3
  have hA := abs_nonneg A
  simp only [halfBinLevel, lobeLevel] at e2 e3
  exact ⟨ys, e1, le_trans (by linarith) e2, e3.trans (by linarith)⟩

/-- Coin tosses of power 1 through a Hann window of 65 points: 24 at every frequency, one and a half bins. -/
example [Target] (xs : (ℕ → Bool) → List ℝ) (hl : ∀ ω, (xs ω).length = 65) (hxs : ∀ ω, ∀ i < 65, (xs ω)[i]? = some (if ω i then 1 else -1)) :
    ∃ ys : (ℕ → Bool) → List ℝ, (∀ ω, applyWindow b (xs ω) (.shaped .hann) = .ok (ys ω)) ∧
      ∀ θ, ∫ ω, ‖dtft 65 (fun i => (ys ω)[i]?.getD 0) θ‖ ^ 2 ∂(Measure.infinitePi fun _ : ℕ => coin) = 24 := by
  have hn : 65 < usizeMod := by unfold usizeMod usizeBits; split <;> norm_num
  obtain ⟨o, h⟩ := (C55_exactly_size_items (T := ℝ) b .hann 65 hn).1
  obtain ⟨ys, e1, e2⟩ := C145_noise (by norm_num) hn h coin_whiteNoise hl hxs
  have es : ∑ i ∈ Finset.range 65, items o i ^ 2 = itemSumSq o 65 := by unfold itemSumSq items; rfl
  refine ⟨ys, e1, fun θ => ?_⟩
  rw [(e2 θ).1, es, (C88_sums_of_squares (b := b) (o := o) hn).1 (by norm_num) h]
  norm_num

end Rasp
