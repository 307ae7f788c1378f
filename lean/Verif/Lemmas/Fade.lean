import Verif.Lemmas.RoundErr
import Verif.Lemmas.Smooth

/-!
# Repeated multiplication with rounding
-/

namespace Rasp
variable {f : Fmt}

/-- Representable numbers are multiples of the smallest positive one. -/
theorem IsRep.grid {x : ℝ} (h : IsRep f x) : ∃ k : ℤ, x = k * f.tiny := by
  obtain ⟨m, e, -, he, rfl⟩ := h
  refine ⟨m * 2 ^ (e - f.emin).toNat, ?_⟩
  unfold Fmt.tiny
  push_cast
  rw [mul_assoc, ← zpow_natCast, ← zpow_add₀ (by norm_num)]
  congr 2
  omega

theorem IsRep.grid_nat {x : ℝ} (h : IsRep f x) (h0 : 0 ≤ x) : ∃ k : ℕ, x = k * f.tiny := by
  obtain ⟨k, rfl⟩ := h.grid
  have hk : 0 ≤ k := by
    by_contra hn
    push Not at hn
    have : (k : ℝ) < 0 := by exact_mod_cast hn
    have := mul_neg_of_neg_of_pos this f.tiny_pos
    linarith
  obtain ⟨n, rfl⟩ := Int.eq_ofNat_of_zero_le hk
  exact ⟨n, by push_cast; rfl⟩

theorem IsRep.tiny_le {x : ℝ} (h : IsRep f x) (h0 : 0 < x) : f.tiny ≤ x := by
  obtain ⟨k, rfl⟩ := h.grid_nat h0.le
  have hk : k ≠ 0 := by rintro rfl; simp at h0
  have : (1 : ℝ) ≤ k := by exact_mod_cast Nat.one_le_iff_ne_zero.mpr hk
  exact le_mul_of_one_le_left f.tiny_pos.le this

theorem cexp_tiny {x : ℝ} (hx : x ≠ 0) (h : |x| ≤ f.tiny) : cexp f x = f.emin := by
  unfold cexp
  apply max_eq_right
  have h2 : Int.log 2 |x| ≤ f.emin := (zpow_le_zpow_iff_right₀ (by norm_num : (1 : ℝ) < 2)).mp ((zpow_log_le hx).trans h)
  have := f.hp
  omega

/-- More than half the smallest positive number is not rounded to zero. -/
theorem tiny_le_rnd {x : ℝ} (h : f.tiny / 2 < x) : f.tiny ≤ rnd f x := by
  have ht := f.tiny_pos
  rcases le_total f.tiny x with hx | hx
  · exact le_rnd_of_le (isRep_two_zpow le_rfl) hx
  · have h1 := abs_rnd_sub_le f x
    rw [cexp_tiny (by linarith : 0 < x).ne' (by rw [abs_of_pos (by linarith)]; exact hx)] at h1
    apply (rnd_isRep f x).tiny_le
    have := (abs_le.mp h1).1
    unfold Fmt.tiny at h
    linarith

/-- At most half of it is. -/
theorem rnd_half_tiny {x : ℝ} (h0 : 0 ≤ x) (h : x ≤ f.tiny / 2) : rnd f x = 0 := by
  refine le_antisymm ?_ (rnd_nonneg h0)
  refine (rnd_mono h).trans (le_of_eq ?_)
  have ht := f.tiny_pos
  unfold rnd
  rw [cexp_tiny (by positivity) (by rw [abs_of_pos (by linarith)]; linarith)]
  have : f.tiny / 2 / 2 ^ f.emin = 1 / 2 := by
    unfold Fmt.tiny
    have : (2 : ℝ) ^ f.emin ≠ 0 := (two_zpow_pos _).ne'
    field_simp
  rw [this]
  have : rne (1 / 2) = 0 := by
    unfold rne
    norm_num
  rw [this]; simp

/-- A fixed point of multiplication with `g` is at most `tiny / (2 (1 - g))`. -/
theorem fixed_le {g c : ℝ} (hg : IsRep f g) (g0 : 0 ≤ g) (g1 : g < 1) (hc : 0 ≤ c) (h : rnd f (g * c) = c) :
    (1 - g) * c ≤ f.tiny / 2 := by
  have ht := f.tiny_pos
  rcases hc.eq_or_lt with rfl | hpos
  · simp; positivity
  have h1 := abs_rnd_sub_le f (g * c)
  rw [h, show c - g * c = (1 - g) * c by ring, abs_of_nonneg (mul_nonneg (by linarith) hc)] at h1
  have hgc : g * c ≠ 0 := by
    intro h0
    rw [h0, rnd_zero] at h
    linarith
  unfold cexp at h1
  rcases le_total (Int.log 2 |g * c| + 1 - f.p) f.emin with h2 | h2
  · rwa [max_eq_right h2] at h1
  · exfalso
    rw [max_eq_left h2] at h1
    have h3 := zpow_log_le hgc
    have h4 : (2 : ℝ) ^ (Int.log 2 |g * c| + 1 - (f.p : ℤ)) / 2 = f.u * 2 ^ Int.log 2 |g * c| := by
      unfold Fmt.u
      rw [zpow_sub₀ (by norm_num), zpow_add₀ (by norm_num), zpow_natCast]
      field_simp
    rw [h4] at h1
    have hu := f.u_pos
    have h5 := mul_le_mul_of_nonneg_left h3 hu.le
    rw [abs_of_nonneg (mul_nonneg g0 hc)] at h1 h5
    have h6 := hg.le_pred_one g1
    have h7 : (2 : ℝ) ^ (-(f.p : ℤ)) = f.u := by unfold Fmt.u; rw [zpow_neg, zpow_natCast, one_div]
    rw [h7] at h6
    have h8 : (1 - g) * c ≤ f.u * g * c := by
      have := h1.trans h5
      linarith
    have h9 : 1 - g ≤ f.u * g := le_of_mul_le_mul_right h8 hpos
    nlinarith

/-- Multiplying again and again by a gain below one, with rounding: the value decreases to a constant, which is zero
only if the gain is at most one half (or the start is zero). -/
theorem fade {g : ℝ} (hg : IsRep f g) (g0 : 0 ≤ g) (g1 : g < 1) {v : ℕ → ℝ} (h0 : IsRep f (v 0)) (hv0 : 0 ≤ v 0)
    (hv : ∀ n, v (n + 1) = rnd f (g * v n)) :
    (∀ n, IsRep f (v n)) ∧ (∀ n, 0 ≤ v n) ∧ (∀ n, v (n + 1) ≤ v n) ∧
    ∃ c, (∃ N, ∀ n, N ≤ n → v n = c) ∧ 0 ≤ c ∧ c ≤ f.tiny / (2 * (1 - g)) ∧ (c = 0 ↔ g ≤ 1 / 2 ∨ v 0 = 0) := by
  have ht := f.tiny_pos
  have rep : ∀ n, IsRep f (v n) := fun n => by
    cases n with
    | zero => exact h0
    | succ n => rw [hv]; exact rnd_isRep _ _
  have nn : ∀ n, 0 ≤ v n := fun n => by
    induction n with
    | zero => exact hv0
    | succ n ih => rw [hv]; exact rnd_nonneg (mul_nonneg g0 ih)
  have anti : ∀ n, v (n + 1) ≤ v n := fun n => by
    rw [hv]; exact rnd_le_of_le (rep n) (by nlinarith [nn n])
  have anti' : Antitone v := antitone_nat_of_succ_le anti
  refine ⟨rep, nn, anti, ?_⟩
  choose k hk using fun n => (rep n).grid_nat (nn n)
  set N := Function.argmin k with hN
  have hmin : ∀ n, k N ≤ k n := fun n => Function.argmin_le k n
  have hconst : ∀ n, N ≤ n → v n = v N := by
    intro n hn
    refine le_antisymm (anti' hn) ?_
    rw [hk, hk n]
    exact mul_le_mul_of_nonneg_right (by exact_mod_cast hmin n) ht.le
  have hfix : rnd f (g * v N) = v N := by rw [← hv, hconst _ (by omega)]
  have hle := fixed_le hg g0 g1 (nn N) hfix
  refine ⟨v N, ⟨N, hconst⟩, nn N, ?_, ?_, ?_⟩
  · rw [le_div_iff₀ (by linarith)]; linarith
  · intro hz
    by_contra hcon
    push Not at hcon
    have : ∀ n, f.tiny ≤ v n := by
      intro n
      induction n with
      | zero => exact h0.tiny_le (lt_of_le_of_ne hv0 (Ne.symm hcon.2))
      | succ n ih =>
        rw [hv]
        apply tiny_le_rnd
        nlinarith [hcon.1]
    have := this N
    rw [hz] at this
    linarith
  · rintro (h | h)
    · by_contra hne
      have hpos : 0 < v N := lt_of_le_of_ne (nn N) (Ne.symm hne)
      have hge := (rep N).tiny_le hpos
      have heq : v N ≤ f.tiny := by nlinarith
      rw [rnd_half_tiny (mul_nonneg g0 (nn N)) (by nlinarith)] at hfix
      exact hne hfix.symm
    · exact le_antisymm (h ▸ anti' (Nat.zero_le N)) (nn N)

end Rasp
