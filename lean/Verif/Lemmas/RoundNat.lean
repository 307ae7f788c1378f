import Verif.Float.Round

/-!
# Rounding with integer arithmetic

Rounding a natural number times a power of two to the nearest floating-point number, ties to even, computed with integer
operations.
-/

namespace Rasp

/-- Nearest integer of `n / (2h)`, ties to even. -/
theorem rne_nat_div (n : ℕ) {h : ℕ} (hh : 0 < h) :
    rne ((n : ℝ) / (2 * h : ℕ)) = ((n + (h - 1) + (n / (2 * h)) % 2) / (2 * h) : ℕ) := by
  set q := n / (2 * h) with hq
  set r := n % (2 * h) with hr
  have hn : n = 2 * h * q + r := (Nat.div_add_mod n (2 * h)).symm
  have hr2 : r < 2 * h := Nat.mod_lt _ (by omega)
  have hpos : (0 : ℝ) < (2 * h : ℕ) := by exact_mod_cast (by omega : 0 < 2 * h)
  have hx : (n : ℝ) / (2 * h : ℕ) = q + r / (2 * h : ℕ) := by
    rw [div_eq_iff hpos.ne', add_mul, div_mul_cancel₀ _ hpos.ne']
    exact_mod_cast (by rw [hn]; ring : n = q * (2 * h) + r)
  have hcalc : ∀ t, t < 2 * h → (2 * h * q + t) / (2 * h) = q := fun t ht => by
    rw [Nat.mul_add_div (by omega), Nat.div_eq_of_lt ht, Nat.add_zero]
  rcases lt_trichotomy r h with hlt | heq | hgt
  · have e : (n + (h - 1) + q % 2) / (2 * h) = q := by
      rw [show n + (h - 1) + q % 2 = 2 * h * q + (r + (h - 1) + q % 2) by omega]
      exact hcalc _ (by omega)
    rw [e, hx]
    apply rne_eq_of_lt
    have h0 : (0 : ℝ) ≤ r / (2 * h : ℕ) := by positivity
    have h1 : (r : ℝ) / (2 * h : ℕ) < 1 / 2 := by
      rw [div_lt_iff₀ hpos]
      have : (r : ℝ) < h := by exact_mod_cast hlt
      push_cast
      linarith
    rw [Int.cast_natCast, add_sub_cancel_left, abs_of_nonneg h0]
    exact h1
  · have hhalf : (r : ℝ) / (2 * h : ℕ) = 1 / 2 := by
      rw [heq, div_eq_iff hpos.ne']
      push_cast
      ring
    rw [hx, hhalf]
    rcases Nat.even_or_odd q with he | ho
    · have e : (n + (h - 1) + q % 2) / (2 * h) = q := by
        rw [Nat.even_iff.mp he, show n + (h - 1) + 0 = 2 * h * q + (r + (h - 1)) by omega]
        exact hcalc _ (by omega)
      rw [e]
      have := rne_half_even (n := (q : ℤ)) (by exact_mod_cast he)
      exact_mod_cast this
    · have e : (n + (h - 1) + q % 2) / (2 * h) = q + 1 := by
        rw [Nat.odd_iff.mp ho, show n + (h - 1) + 1 = 2 * h * (q + 1) + 0 by rw [mul_add]; omega,
          Nat.mul_add_div (by omega)]
        simp
      rw [e]
      have := rne_half_even (n := (-(q : ℤ) - 1)) (by
        rw [show (-(q : ℤ) - 1) = -((q : ℤ) + 1) by ring, even_neg]
        exact_mod_cast ho.add_one)
      have h2 : ((-(q : ℤ) - 1 : ℤ) : ℝ) + 1 / 2 = -((q : ℝ) + 1 / 2) := by push_cast; ring
      rw [h2, rne_neg] at this
      push_cast
      omega
  · have e : (n + (h - 1) + q % 2) / (2 * h) = q + 1 := by
      rw [show n + (h - 1) + q % 2 = 2 * h * (q + 1) + (r + (h - 1) + q % 2 - 2 * h) by rw [mul_add]; omega,
        Nat.mul_add_div (by omega), Nat.div_eq_of_lt (by omega)]
    rw [e, hx]
    apply rne_eq_of_lt
    have h0 : (r : ℝ) / (2 * h : ℕ) < 1 := by
      rw [div_lt_one hpos]
      exact_mod_cast hr2
    have h1 : 1 / 2 < (r : ℝ) / (2 * h : ℕ) := by
      rw [lt_div_iff₀ hpos]
      have : (h : ℝ) < r := by exact_mod_cast hgt
      push_cast
      linarith
    push_cast at h0 h1 ⊢
    rw [abs_lt]
    constructor <;> linarith

/-- Rounding of `n · 2^e` for `n` with `p + k + 1` binary digits. -/
theorem rnd_nat {f : Fmt} {n k : ℕ} {e : ℤ} (h1 : 2 ^ (f.p + k) ≤ n) (h2 : n < 2 ^ (f.p + k + 1)) (he : f.emin ≤ e) :
    rnd f (n * 2 ^ e) = ((n + (2 ^ k - 1) + (n / 2 ^ (k + 1)) % 2) / 2 ^ (k + 1) : ℕ) * 2 ^ (e + (k + 1)) := by
  have hpos : 0 < (n : ℝ) * 2 ^ e := mul_pos (by
    have : 0 < n := lt_of_lt_of_le (by positivity) h1
    exact_mod_cast this) (two_zpow_pos _)
  have hlog : Int.log 2 |(n : ℝ) * 2 ^ e| = f.p + k + e := by
    apply log_eq_of
    · rw [abs_of_pos hpos, zpow_add₀ (by norm_num)]
      apply mul_le_mul_of_nonneg_right _ (two_zpow_pos _).le
      exact_mod_cast h1
    · rw [abs_of_pos hpos, show (f.p + k + e + 1 : ℤ) = (f.p + k + 1 : ℕ) + e by push_cast; ring, zpow_add₀ (by norm_num)]
      apply mul_lt_mul_of_pos_right _ (two_zpow_pos _)
      exact_mod_cast h2
  have hc : cexp f (n * 2 ^ e) = e + (k + 1) := by
    unfold cexp
    rw [hlog]
    omega
  unfold rnd
  rw [hc]
  congr 1
  rw [show (n : ℝ) * 2 ^ e / 2 ^ (e + (k + 1) : ℤ) = n / (2 * 2 ^ k : ℕ) by
    rw [zpow_add₀ (by norm_num)]
    have := (two_zpow_pos e).ne'
    push_cast
    rw [show (2 : ℝ) ^ ((k : ℤ) + 1) = 2 * 2 ^ k by rw [zpow_add₀ (by norm_num)]; simp; ring]
    field_simp]
  rw [rne_nat_div n (by positivity), pow_succ, mul_comm (2 ^ k) 2, Int.cast_natCast]

end Rasp
