import Verif.Float.Round
import Mathlib.Analysis.Real.Sqrt

/-!
# Rounding facts behind `x + α (y - x)` and `√(x²)`
-/

namespace Rasp
variable {f : Fmt}

/-- The largest number below one. -/
theorem IsRep.le_pred_one {α : ℝ} (h : IsRep f α) (h1 : α < 1) : α ≤ 1 - (2 : ℝ) ^ (-(f.p : ℤ)) := by
  have hp : (2 : ℝ) ^ (-(f.p : ℤ)) ≤ 1 / 2 := by
    rw [show (1 / 2 : ℝ) = 2 ^ (-1 : ℤ) by norm_num]
    apply zpow_le_zpow_right₀ (by norm_num)
    have := f.hp; omega
  by_cases hα : α < 1 / 2
  · linarith
  push Not at hα
  have hlog : Int.log 2 |α| = -1 := by
    apply log_eq_of
    · rw [abs_of_nonneg (by linarith)]; norm_num; linarith
    · rw [abs_of_nonneg (by linarith)]; norm_num; exact h1
  have hc : -(f.p : ℤ) ≤ cexp f α := by
    unfold cexp; rw [hlog]; exact le_trans (by omega) (le_max_left _ _)
  obtain ⟨n, hn⟩ := h.mul_of_le_cexp hc
  have hpos := two_zpow_pos (-(f.p : ℤ))
  have hone : (2 : ℝ) ^ (f.p : ℤ) * (2 : ℝ) ^ (-(f.p : ℤ)) = 1 := by
    rw [← zpow_add₀ (by norm_num)]; simp
  have hlt : (n : ℝ) < 2 ^ (f.p : ℤ) := by
    by_contra hcon
    push Not at hcon
    have := mul_le_mul_of_nonneg_right hcon hpos.le
    rw [hone, ← hn] at this
    linarith
  have hle : n + 1 ≤ 2 ^ f.p := by
    have : n < 2 ^ f.p := by
      have h3 : ((n : ℤ) : ℝ) < ((2 ^ f.p : ℤ) : ℝ) := by push_cast; simpa using hlt
      exact_mod_cast h3
    omega
  have hle' : (n : ℝ) + 1 ≤ 2 ^ (f.p : ℤ) := by
    have : ((n + 1 : ℤ) : ℝ) ≤ ((2 ^ f.p : ℤ) : ℝ) := by exact_mod_cast hle
    push_cast at this; simpa using this
  rw [hn]
  nlinarith

/-- Damped differences do not grow: `rnd (α * rnd (y - x)) ≤ y - x` for representable `x ≤ y`, `α < 1`. -/
theorem rnd_damped_le {α x y : ℝ} (hα : IsRep f α) (h1 : α < 1) (hx : IsRep f x) (hy : IsRep f y)
    (hxy : x ≤ y) : rnd f (α * rnd f (y - x)) ≤ y - x := by
  set u := y - x with hu
  have hu0 : 0 ≤ u := by rw [hu]; linarith
  set d := rnd f u with hd
  have hd0 : 0 ≤ d := rnd_nonneg hu0
  by_cases hdu : d ≤ u
  · refine le_trans (rnd_le_of_le (rnd_isRep f u) ?_) hdu
    nlinarith
  push Not at hdu
  have hupos : 0 < u := by
    rcases hu0.lt_or_eq with h | h
    · exact h
    · rw [hd, ← h, rnd_zero] at hdu; exact absurd hdu (lt_irrefl _)
  set c := cexp f u with hc
  have hcpos := two_zpow_pos c
  set N := rne (u / 2 ^ c) with hN
  have hdN : d = N * 2 ^ c := rfl
  -- the exponent is not the smallest one, otherwise the difference is exact
  have hcmin : f.emin < c := by
    rcases (emin_le_cexp f u).lt_or_eq with h | h
    · exact h
    exfalso
    obtain ⟨m, hm⟩ := hx.mul_of_le_cexp (emin_le_cexp f x)
    obtain ⟨k, hk⟩ := hy.mul_of_le_cexp (emin_le_cexp f y)
    have hur : u = ((k - m : ℤ) : ℝ) * 2 ^ c := by
      rw [hu, hm, hk, hc, ← h]; push_cast; ring
    have : d = u := by
      rw [hdN, hN, hur, mul_div_cancel_right₀ _ hcpos.ne', rne_intCast]
    linarith
  have hclog : c = Int.log 2 |u| + 1 - f.p := by
    rw [hc, cexp] at *
    rcases max_choice (Int.log 2 |u| + 1 - f.p) f.emin with h | h
    · exact h
    · rw [h] at hcmin; exact absurd hcmin (lt_irrefl _)
  have hulow : (2 : ℝ) ^ (f.p - 1 + c) ≤ u := by
    have := zpow_log_le hupos.ne'
    rw [abs_of_pos hupos] at this
    rw [show (f.p : ℤ) - 1 + c = Int.log 2 u by rw [hclog, abs_of_pos hupos]; ring]
    exact this
  have huhigh : u < (2 : ℝ) ^ (f.p + c) := by
    have := abs_lt_zpow_cexp f u
    rwa [abs_of_pos hupos] at this
  have hpw : (2 : ℝ) ^ ((f.p : ℤ) - 1 + c) = ((2 ^ (f.p - 1) : ℤ) : ℝ) * 2 ^ c := by
    rw [zpow_add₀ (by norm_num)]
    congr 1
    have h2 := f.hp
    push_cast
    rw [← zpow_natCast]
    congr 1
    omega
  have hpw2 : (2 : ℝ) ^ ((f.p : ℤ) + c) = ((2 ^ f.p : ℤ) : ℝ) * 2 ^ c := by
    rw [zpow_add₀ (by norm_num)]
    push_cast
    rw [zpow_natCast]
  have hNlow : 2 ^ (f.p - 1) + 1 ≤ N := by
    have : ((2 ^ (f.p - 1) : ℤ) : ℝ) * 2 ^ c < N * 2 ^ c := by
      rw [← hpw, ← hdN]; exact lt_of_le_of_lt hulow hdu
    have h3 := lt_of_mul_lt_mul_right this hcpos.le
    have h4 : (2 ^ (f.p - 1) : ℤ) < N := by exact_mod_cast h3
    omega
  have hNhigh : N ≤ 2 ^ f.p := by
    apply rne_le_of_le
    rw [div_le_iff₀ hcpos, ← hpw2]
    exact huhigh.le
  have hpN : (2 : ℤ) ^ f.p = 2 * 2 ^ (f.p - 1) := by
    have h2 := f.hp
    rw [← pow_succ']
    congr 1
    omega
  -- the predecessor of `d`
  have hpred : IsRep f (((N - 1 : ℤ) : ℝ) * 2 ^ c) := by
    apply isRep_of_le _ (emin_le_cexp f u)
    have : (0 : ℤ) < 2 ^ (f.p - 1) := by positivity
    rw [abs_of_nonneg (by omega)]
    omega
  have hpredu : ((N - 1 : ℤ) : ℝ) * 2 ^ c ≤ u := by
    have h3 := abs_rne_sub_le (u / 2 ^ c)
    rw [← hN] at h3
    have h4 := (abs_le.mp h3).2
    have h5 : (N : ℝ) - 1 ≤ u / 2 ^ c := by linarith
    rw [le_div_iff₀ hcpos] at h5
    push_cast; exact h5
  refine le_trans ?_ hpredu
  -- the damped value is below the midpoint
  have hmid : α * d < ((N : ℝ) - 1 / 2) * 2 ^ c := by
    have h3 := hα.le_pred_one h1
    have h4 : α * d ≤ (1 - (2 : ℝ) ^ (-(f.p : ℤ))) * d := mul_le_mul_of_nonneg_right h3 hd0
    have h5 : (1 : ℝ) / 2 < (2 : ℝ) ^ (-(f.p : ℤ)) * N := by
      have h6 : ((2 ^ (f.p - 1) + 1 : ℤ) : ℝ) ≤ N := by exact_mod_cast hNlow
      have h7 : (2 : ℝ) ^ (-(f.p : ℤ)) * ((2 ^ (f.p - 1) : ℤ) : ℝ) = 1 / 2 := by
        push_cast
        rw [← zpow_natCast, ← zpow_add₀ (by norm_num)]
        have h2 := f.hp
        rw [show -(f.p : ℤ) + ((f.p - 1 : ℕ) : ℤ) = -1 by omega]
        norm_num
      have h8 := two_zpow_pos (-(f.p : ℤ))
      push_cast at h6 h7
      nlinarith
    have h9 : (1 - (2 : ℝ) ^ (-(f.p : ℤ))) * d = ((N : ℝ) - (2 : ℝ) ^ (-(f.p : ℤ)) * N) * 2 ^ c := by
      rw [hdN]; ring
    rw [h9] at h4
    refine lt_of_le_of_lt h4 ?_
    apply mul_lt_mul_of_pos_right _ hcpos
    linarith
  by_cases hsmall : α * d ≤ ((N - 1 : ℤ) : ℝ) * 2 ^ c
  · exact rnd_le_of_le hpred hsmall
  push Not at hsmall
  have hpos : 0 < α * d := by
    refine lt_of_le_of_lt ?_ hsmall
    have : (0 : ℤ) < 2 ^ (f.p - 1) := by positivity
    have h3 : (0 : ℤ) ≤ N - 1 := by omega
    have : (0 : ℝ) ≤ ((N - 1 : ℤ) : ℝ) := by exact_mod_cast h3
    positivity
  have hce : cexp f (α * d) = c := by
    have hl : Int.log 2 |α * d| = Int.log 2 |u| := by
      have e : Int.log 2 |u| = f.p - 1 + c := by rw [hclog]; ring
      rw [e]
      apply log_eq_of
      · rw [abs_of_pos hpos, hpw]
        refine le_trans ?_ hsmall.le
        apply mul_le_mul_of_nonneg_right _ hcpos.le
        have : (2 ^ (f.p - 1) : ℤ) ≤ N - 1 := by omega
        exact_mod_cast this
      · rw [abs_of_pos hpos, show (f.p : ℤ) - 1 + c + 1 = f.p + c by ring, hpw2]
        refine lt_of_lt_of_le hmid ?_
        apply mul_le_mul_of_nonneg_right _ hcpos.le
        have : (N : ℝ) ≤ ((2 ^ f.p : ℤ) : ℝ) := by exact_mod_cast hNhigh
        linarith
    rw [hc, cexp, cexp, hl]
  unfold rnd
  rw [hce]
  apply mul_le_mul_of_nonneg_right _ hcpos.le
  have h3 : rne (α * d / 2 ^ c) ≤ N - 1 := by
    have h4 : α * d / 2 ^ c < N - 1 / 2 := by rw [div_lt_iff₀ hcpos]; exact hmid
    have h5 : ((N - 1 : ℤ) : ℝ) < α * d / 2 ^ c := by rw [lt_div_iff₀ hcpos]; exact hsmall
    apply le_of_eq
    apply rne_eq_of_lt
    push_cast at h5 ⊢
    rw [abs_lt]; constructor <;> linarith
  exact_mod_cast h3

/-- One smoothing step stays between its arguments. -/
theorem rnd_smooth_between {α x y : ℝ} (hα : IsRep f α) (h0 : 0 ≤ α) (h1 : α < 1) (hx : IsRep f x) (hy : IsRep f y) :
    min x y ≤ rnd f (x + rnd f (α * rnd f (y - x))) ∧ rnd f (x + rnd f (α * rnd f (y - x))) ≤ max x y ∧
      min x y ≤ x + rnd f (α * rnd f (y - x)) ∧ x + rnd f (α * rnd f (y - x)) ≤ max x y := by
  rcases le_total x y with h | h
  · have h2 := rnd_damped_le hα h1 hx hy h
    have h3 : 0 ≤ rnd f (α * rnd f (y - x)) := rnd_nonneg (mul_nonneg h0 (rnd_nonneg (by linarith)))
    rw [min_eq_left h, max_eq_right h]
    exact ⟨le_rnd_of_le hx (by linarith), rnd_le_of_le hy (by linarith), by linarith, by linarith⟩
  · have h2 := rnd_damped_le hα h1 hy hx h
    have e : rnd f (α * rnd f (y - x)) = - rnd f (α * rnd f (x - y)) := by
      rw [← rnd_neg, ← mul_neg, ← rnd_neg, neg_sub]
    have h3 : 0 ≤ rnd f (α * rnd f (x - y)) := rnd_nonneg (mul_nonneg h0 (rnd_nonneg (by linarith)))
    rw [min_eq_right h, max_eq_left h, e]
    exact ⟨le_rnd_of_le hy (by linarith), rnd_le_of_le hx (by linarith), by linarith, by linarith⟩

/-! ## Bounds with an even significand -/

theorem cexp_le_of_lt {x : ℝ} {c : ℤ} (hx : x ≠ 0) (hc : f.emin ≤ c) (h : |x| < 2 ^ (f.p + c)) : cexp f x ≤ c := by
  have h1 := zpow_log_le hx
  have h2 := (zpow_lt_zpow_iff_right₀ (by norm_num : (1 : ℝ) < 2)).mp (h1.trans_lt h)
  unfold cexp
  omega

theorem le_cexp_of_le {x : ℝ} {c : ℤ} (h : (2 : ℝ) ^ (f.p - 1 + c) ≤ |x|) : c ≤ cexp f x := by
  have h1 := lt_zpow_log x
  have h2 := (zpow_lt_zpow_iff_right₀ (by norm_num : (1 : ℝ) < 2)).mp (h.trans_lt h1)
  unfold cexp
  omega

/-- The last bit of the significand of `B` is 0. -/
def EvenSig (f : Fmt) (B : ℝ) : Prop := ∃ n : ℤ, Even n ∧ B = n * (2 : ℝ) ^ cexp f B

theorem EvenSig.isRep {B : ℝ} (h : EvenSig f B) : IsRep f B := by
  obtain ⟨n, -, hn⟩ := h
  rw [hn]
  apply isRep_of_le _ (emin_le_cexp f B)
  have h1 := (abs_lt_zpow_cexp f B).le
  have hpos := two_zpow_pos (cexp f B)
  rw [zpow_add₀ (by norm_num)] at h1
  nth_rewrite 1 [hn] at h1
  rw [abs_mul, abs_of_pos hpos] at h1
  have h2 := le_of_mul_le_mul_right h1 hpos
  rw [zpow_natCast] at h2
  exact_mod_cast h2

theorem evenSig_one (f : Fmt) : EvenSig f 1 := by
  have hp := f.hp; have hemin := f.hemin
  have hl : Int.log 2 |(1 : ℝ)| = 0 := log_eq_of (by norm_num) (by norm_num)
  have hc : cexp f 1 = 1 - f.p := by unfold cexp; rw [hl]; omega
  refine ⟨2 ^ (f.p - 1), ?_, ?_⟩
  · exact (even_two).pow_of_ne_zero (by omega)
  · rw [hc]
    push_cast
    rw [← zpow_natCast, ← zpow_add₀ (by norm_num), show ((f.p - 1 : ℕ) : ℤ) + (1 - f.p) = 0 by omega, zpow_zero]

theorem EvenSig.rnd_half_above {B : ℝ} (h0 : 0 < B) (h : EvenSig f B) : rnd f (B + 2 ^ cexp f B / 2) = B := by
  obtain ⟨n, he, hn⟩ := h
  set c := cexp f B with hc
  have hpos := two_zpow_pos c
  have hlt := abs_lt_zpow_cexp f B
  rw [← hc, abs_of_pos h0] at hlt
  have hv : B + 2 ^ c / 2 = ((n : ℝ) + 1 / 2) * 2 ^ c := by rw [add_mul, ← hn]; ring
  have hn2 : n + 1 ≤ 2 ^ f.p := by
    rw [zpow_add₀ (by norm_num), hn] at hlt
    have h2 := lt_of_mul_lt_mul_right hlt hpos.le
    rw [zpow_natCast] at h2
    have : n < 2 ^ f.p := by exact_mod_cast h2
    omega
  have hce : cexp f (B + 2 ^ c / 2) = c := by
    apply le_antisymm
    · apply cexp_le_of_lt (by positivity) (emin_le_cexp f B)
      rw [abs_of_pos (by positivity), hv, zpow_add₀ (by norm_num)]
      apply mul_lt_mul_of_pos_right _ hpos
      rw [zpow_natCast]
      have : ((n + 1 : ℤ) : ℝ) ≤ ((2 ^ f.p : ℤ) : ℝ) := by exact_mod_cast hn2
      push_cast at this
      linarith
    · rw [hc]
      apply cexp_mono h0.ne'
      rw [abs_of_pos h0, abs_of_pos (by positivity)]
      linarith
  unfold rnd
  rw [hce, hv, mul_div_cancel_right₀ _ hpos.ne', rne_half_even he, ← hn]

/-- Falling from at most `B` towards `i` never exceeds `B`, whatever the factor up to one. -/
theorem EvenSig.rnd_reflect_le {B i : ℝ} (h : EvenSig f B) (h0 : 0 ≤ i) (h1 : i ≤ B) :
    rnd f (i + rnd f (B - i)) ≤ B := by
  rcases h1.lt_or_eq with h1 | h1
  · have hB : 0 < B := by linarith
    refine le_trans ?_ (h.rnd_half_above hB).le
    apply rnd_mono
    have h2 := (abs_le.mp (abs_rnd_sub_le f (B - i))).2
    have h3 : cexp f (B - i) ≤ cexp f B := by
      apply cexp_mono (by linarith)
      rw [abs_of_pos (by linarith), abs_of_pos hB]
      linarith
    have h4 : (2 : ℝ) ^ cexp f (B - i) ≤ 2 ^ cexp f B := zpow_le_zpow_right₀ (by norm_num) h3
    linarith
  · rw [h1, sub_self, rnd_zero, add_zero, rnd_of_isRep h.isRep]

/-- One envelope step with any factor in `[0, 1]` stays in `[0, B]`. -/
theorem EvenSig.rnd_follow {B i e α : ℝ} (h : EvenSig f B) (hi : IsRep f i) (h0 : 0 ≤ i) (h1 : i ≤ B)
    (e0 : 0 ≤ e) (e1 : e ≤ B) (a0 : 0 ≤ α) (a1 : α ≤ 1) :
    0 ≤ i + rnd f (α * rnd f (e - i)) ∧ rnd f (i + rnd f (α * rnd f (e - i))) ≤ B := by
  have hd0 : - i ≤ rnd f (e - i) := le_rnd_of_le hi.neg (by linarith)
  have hd1 : rnd f (e - i) ≤ rnd f (B - i) := rnd_mono (by linarith)
  rcases le_total e i with hei | hei
  · have hd : rnd f (e - i) ≤ 0 := rnd_nonpos (by linarith)
    have h2 : rnd f (α * rnd f (e - i)) ≤ 0 := rnd_nonpos (by nlinarith)
    have h3 : -i ≤ rnd f (α * rnd f (e - i)) := le_rnd_of_le hi.neg (by nlinarith)
    exact ⟨by linarith, (rnd_le_of_le hi (by linarith)).trans h1⟩
  · have hd : 0 ≤ rnd f (e - i) := rnd_nonneg (by linarith)
    have h2 : 0 ≤ rnd f (α * rnd f (e - i)) := rnd_nonneg (by positivity)
    have h3 : rnd f (α * rnd f (e - i)) ≤ rnd f (e - i) := rnd_le_of_le (rnd_isRep _ _) (by nlinarith)
    exact ⟨by linarith, (rnd_mono (by linarith)).trans (h.rnd_reflect_le h0 h1)⟩

/-! ## The square root of a rounded square -/

/-- If `x²` does not underflow, taking the rounded root of the rounded square gives `|x|` back. -/
theorem rnd_sqrt_rnd_sq {x : ℝ} (hx : IsRep f x) (hn : (2 : ℝ) ^ (f.emin + f.p - 1) ≤ x ^ 2) :
    rnd f (Real.sqrt (rnd f (x ^ 2))) = |x| := by
  wlog h0 : 0 ≤ x generalizing x with H
  · have := H (x := -x) hx.neg (by rwa [neg_sq]) (by linarith)
    rwa [neg_sq, abs_neg] at this
  rw [abs_of_nonneg h0]
  have hp := f.hp; have hemin := f.hemin
  have hpos : 0 < x := by
    rcases h0.lt_or_eq with h | h
    · exact h
    · rw [← h] at hn
      have := two_zpow_pos (f.emin + f.p - 1)
      norm_num at hn; linarith
  set k := Int.log 2 |x| with hk
  have hk1 : (2 : ℝ) ^ k ≤ x := by have := zpow_log_le hpos.ne'; rwa [← hk, abs_of_pos hpos] at this
  have hk2 : x < (2 : ℝ) ^ (k + 1) := by have := lt_zpow_log x; rwa [← hk, abs_of_pos hpos] at this
  -- the exponent
  have hk3 : f.emin + f.p - 1 < 2 * (k + 1) := by
    have h1 : x ^ 2 < ((2 : ℝ) ^ (k + 1)) ^ 2 := by gcongr
    rw [← zpow_natCast ((2 : ℝ) ^ (k + 1)) 2, ← zpow_mul] at h1
    have := (zpow_lt_zpow_iff_right₀ (by norm_num : (1 : ℝ) < 2)).mp (hn.trans_lt h1)
    push_cast at this
    linarith
  set e := k + 1 - f.p with he
  have hce : cexp f x = e := by
    unfold cexp
    rw [← hk, ← he, max_eq_left]
    omega
  obtain ⟨m, hm⟩ := hx.mul_of_le_cexp hce.ge
  have hepos := two_zpow_pos e
  have hpe : (2 : ℝ) ^ k = ((2 ^ (f.p - 1) : ℤ) : ℝ) * 2 ^ e := by
    push_cast
    rw [← zpow_natCast, ← zpow_add₀ (by norm_num)]
    congr 1; omega
  have hpe2 : (2 : ℝ) ^ (k + 1) = ((2 ^ f.p : ℤ) : ℝ) * 2 ^ e := by
    push_cast
    rw [← zpow_natCast, ← zpow_add₀ (by norm_num)]
    congr 1; omega
  have hm1 : 2 ^ (f.p - 1) ≤ m := by
    rw [hpe, hm] at hk1
    exact_mod_cast le_of_mul_le_mul_right hk1 hepos
  have hm2 : m + 1 ≤ 2 ^ f.p := by
    rw [hpe2, hm] at hk2
    have : m < 2 ^ f.p := by exact_mod_cast lt_of_mul_lt_mul_right hk2 hepos.le
    omega
  have hpp : (2 : ℤ) ^ f.p = 2 * 2 ^ (f.p - 1) := by rw [← pow_succ']; congr 1; omega
  have hP : (2 : ℤ) ≤ 2 ^ (f.p - 1) := by
    calc (2 : ℤ) = 2 ^ 1 := by norm_num
      _ ≤ 2 ^ (f.p - 1) := by gcongr <;> omega
  -- error of the square in units of `2^(2e)`
  set q := rnd f (x ^ 2) with hq
  have hx2 : 0 < x ^ 2 := by positivity
  have herr := abs_rnd_sub_le f (x ^ 2)
  rw [← hq] at herr
  have hc2 : cexp f (x ^ 2) ≤ 2 * e + f.p := by
    apply cexp_le_of_lt hx2.ne' (by omega)
    rw [abs_of_pos hx2]
    calc x ^ 2 < ((2 : ℝ) ^ (k + 1)) ^ 2 := by gcongr
      _ = 2 ^ (f.p + (2 * e + f.p)) := by
        rw [← zpow_natCast, ← zpow_mul]; congr 1; push_cast; omega
  by_cases hmeq : m = 2 ^ (f.p - 1)
  · -- a power of two: everything is exact
    have hx' : x = 2 ^ k := by rw [hm, hpe, hmeq]
    have h2k : x ^ 2 = (2 : ℝ) ^ (2 * k) := by rw [hx', ← zpow_natCast, ← zpow_mul]; congr 1; push_cast; ring
    have hge : f.emin ≤ 2 * k := by
      rw [h2k] at hn
      have := (zpow_le_zpow_iff_right₀ (by norm_num : (1 : ℝ) < 2)).mp hn
      omega
    have : q = x ^ 2 := by rw [hq, h2k]; exact rnd_of_isRep (isRep_two_zpow hge)
    rw [this, Real.sqrt_sq h0]
    exact rnd_of_isRep hx
  have hm3 : 2 ^ (f.p - 1) + 1 ≤ m := by omega
  have hη : |q - x ^ 2| ≤ ((m : ℝ) - 1) * (2 : ℝ) ^ (2 * e) := by
    have h1 : (2 : ℝ) ^ cexp f (x ^ 2) ≤ 2 ^ (2 * e + f.p) := zpow_le_zpow_right₀ (by norm_num) hc2
    have h2 : (2 : ℝ) ^ (2 * e + f.p) / 2 = ((2 ^ (f.p - 1) : ℤ) : ℝ) * 2 ^ (2 * e) := by
      have h3 : ((2 ^ f.p : ℤ) : ℝ) = 2 * ((2 ^ (f.p - 1) : ℤ) : ℝ) := by exact_mod_cast hpp
      rw [zpow_add₀ (by norm_num), zpow_natCast]
      push_cast at h3 ⊢
      rw [h3]; ring
    have h4 : ((2 ^ (f.p - 1) : ℤ) : ℝ) ≤ (m : ℝ) - 1 := by
      have : ((2 ^ (f.p - 1) + 1 : ℤ) : ℝ) ≤ m := by exact_mod_cast hm3
      push_cast at this ⊢; linarith
    have h5 := two_zpow_pos (2 * e)
    calc |q - x ^ 2| ≤ 2 ^ cexp f (x ^ 2) / 2 := herr
      _ ≤ 2 ^ (2 * e + f.p) / 2 := by linarith
      _ = ((2 ^ (f.p - 1) : ℤ) : ℝ) * 2 ^ (2 * e) := h2
      _ ≤ _ := mul_le_mul_of_nonneg_right h4 h5.le
  have h2e : (2 : ℝ) ^ (2 * e) = (2 ^ e) ^ 2 := by rw [← zpow_natCast, ← zpow_mul]; congr 1; push_cast; ring
  rw [h2e] at hη
  have hmR : (2 : ℝ) + 1 ≤ m := by
    have : (2 : ℤ) + 1 ≤ m := by omega
    exact_mod_cast this
  rw [abs_le] at hη
  set u := (2 : ℝ) ^ e with hu
  have hlow : ((m : ℝ) - 1 / 2) * u < Real.sqrt q := by
    apply Real.lt_sqrt_of_sq_lt
    have := hη.1
    rw [hm] at this
    have hu2 : 0 < u ^ 2 := by positivity
    nlinarith
  have hhigh : Real.sqrt q < ((m : ℝ) + 1 / 2) * u := by
    rw [Real.sqrt_lt' (by positivity)]
    have := hη.2
    rw [hm] at this
    have hu2 : 0 < u ^ 2 := by positivity
    nlinarith
  have hsp : 0 < Real.sqrt q := lt_trans (by nlinarith [mul_pos (by linarith : (0 : ℝ) < m - 1 / 2) hepos]) hlow
  have hcs : cexp f (Real.sqrt q) = e := by
    apply le_antisymm
    · apply cexp_le_of_lt hsp.ne' (by omega)
      rw [abs_of_pos hsp, show (f.p : ℤ) + e = k + 1 by omega, hpe2]
      refine hhigh.trans_le (mul_le_mul_of_nonneg_right ?_ hepos.le)
      have : ((m + 1 : ℤ) : ℝ) ≤ ((2 ^ f.p : ℤ) : ℝ) := by exact_mod_cast hm2
      push_cast at this ⊢; linarith
    · apply le_cexp_of_le
      rw [abs_of_pos hsp, show (f.p : ℤ) - 1 + e = k by omega, hpe]
      refine le_trans (mul_le_mul_of_nonneg_right ?_ hepos.le) hlow.le
      have : ((2 ^ (f.p - 1) + 1 : ℤ) : ℝ) ≤ m := by exact_mod_cast hm3
      push_cast at this ⊢; linarith
  unfold rnd
  rw [hcs, ← hu]
  have : rne (Real.sqrt q / u) = m := by
    apply rne_eq_of_lt
    rw [abs_lt]
    constructor
    · have : (m : ℝ) - 1 / 2 < Real.sqrt q / u := by rw [lt_div_iff₀ hepos]; exact hlow
      linarith
    · have : Real.sqrt q / u < (m : ℝ) + 1 / 2 := by rw [div_lt_iff₀ hepos]; exact hhigh
      linarith
  rw [this]
  exact hm.symm

end Rasp
