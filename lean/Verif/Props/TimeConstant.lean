import Verif.Props.Envelope
import Verif.Lemmas.WindowError
import Verif.Lemmas.IEEE754
import Verif.Spec.TimeConstant
import Mathlib.Analysis.SpecialFunctions.Log.Basic
import Mathlib.Analysis.SpecialFunctions.Exponential
import Mathlib.Analysis.Complex.ExponentialBounds

/-!
# C99: attack and release gains in floating point
-/

namespace Rasp
open FloatOps Fl
variable {f : Fmt} {L : Libm f} {k : ℝ}

theorem setsGain (n : Fl L) (hn : n.Finite) (h0 : 0 < n.toReal) : SetsGain n (exp (neg one /. n) : Fl L) := by
  obtain ⟨h1, h2⟩ := C49_accepts n hn h0
  refine ⟨fun s => ?_, fun s => ?_⟩
  · rw [(h1 s).1, (h1 s).2]; exact ⟨rfl, rfl⟩
  · rw [(h2 s).1, (h2 s).2]; exact ⟨rfl, rfl⟩

/-- The quotient `-1/n`. -/
theorem recip_val {n : Fl L} (hn : n.Finite) (h0 : 0 < n.toReal) :
    (FP.NoOvf f (-1 / n.toReal) ∧ (neg one /. n : Fl L).Finite ∧ (neg one /. n : Fl L).toReal = rnd f (-1 / n.toReal)) ∨
    (¬ FP.NoOvf f (-1 / n.toReal) ∧ (neg one /. n : Fl L) = Fl.inf L true) := by
  have h1 : (neg one : Fl L).Finite := neg_finite.mpr one_finite
  have h2 : (neg one : Fl L).toReal = -1 := by
    have := (FP.ieee_sign (f := f) (one : Fl L)).2.2.2.2.2.2.1
    have e : (one : Fl L).toReal = 1 := one_toReal
    exact this.trans (congrArg Neg.neg e)
  by_cases h : FP.NoOvf f (-1 / n.toReal)
  · have := div_val h1 hn h0.ne' (by rw [h2]; exact h)
    rw [h2] at this
    exact .inl ⟨h, this⟩
  · refine .inr ⟨h, ?_⟩
    have e := FP.div_fin (f := f) h1 hn h0.ne'
    have h2' : FP.toReal (f := f) (neg one : Fl L) = -1 := h2
    rw [h2'] at e
    refine e.trans ((FP.ofReal_of_ovf h).trans ?_)
    have : (-1 : ℝ) / FP.toReal (f := f) n < 0 := div_neg_of_neg_of_pos (by norm_num) h0
    exact congrArg (FP.inf (f := f)) (decide_eq_true this)

/-- **C99.** Every positive finite length gives a finite gain within `(k + 1) 2^-p` of `exp(-1/length)`. -/
theorem C99_gain (hf : f.Ordinary) (hE : AccurateExp L k) (hk0 : 0 ≤ k) (n : Fl L) (hn : n.Finite) (h0 : 0 < n.toReal) :
    ∃ g : Fl L, SetsGain n g ∧ g.Finite ∧ |g.toReal - Real.exp (-1 / n.toReal)| ≤ (k + 1) * f.u := by
  have u0 := f.u_pos
  have hu := hf.u_le'
  have ht := hf.tiny_le
  have t0 := f.tiny_pos
  have hx : -1 / n.toReal < 0 := div_neg_of_neg_of_pos (by norm_num) h0
  refine ⟨_, setsGain n hn h0, ?_⟩
  rcases recip_val hn h0 with ⟨hov, q1, q2⟩ | ⟨hov, q⟩
  · have q3 : (neg one /. n : Fl L).toReal ≤ 0 := by
      rw [q2]; exact rnd_le_of_le (isRep_zero f) hx.le
    obtain ⟨e1, e2⟩ := hE.exp _ q1 q3
    refine ⟨e1, ?_⟩
    have hδ := abs_rnd_sub_le_u f (-1 / n.toReal)
    rw [← q2] at hδ
    generalize (neg one /. n : Fl L) = v at *
    generalize -1 / n.toReal = x at *
    have hv1 : Real.exp v.toReal ≤ 1 := by rw [Real.exp_le_one_iff]; exact q3
    have ev := Real.exp_pos v.toReal
    have ex := Real.exp_pos x
    rw [abs_of_neg hx] at hδ
    have hd := abs_le.mp hδ
    -- both exponentials are at most `exp(x/2 + tiny)`
    have key : |Real.exp v.toReal - Real.exp x| ≤ 0.98 * f.u := by
      have a1 : |Real.exp v.toReal - Real.exp x| ≤ |v.toReal - x| * max (Real.exp v.toReal) (Real.exp x) := by
        rcases le_total v.toReal x with h | h
        · rw [max_eq_right (Real.exp_le_exp.mpr h), abs_of_nonpos (by linarith [Real.exp_le_exp.mpr h]), abs_of_nonpos (by linarith)]
          have := Real.add_one_le_exp (v.toReal - x)
          rw [Real.exp_sub] at this
          have e : Real.exp v.toReal = Real.exp v.toReal / Real.exp x * Real.exp x := by field_simp
          nlinarith
        · rw [max_eq_left (Real.exp_le_exp.mpr h), abs_of_nonneg (by linarith [Real.exp_le_exp.mpr h]), abs_of_nonneg (by linarith)]
          have := Real.add_one_le_exp (x - v.toReal)
          rw [Real.exp_sub] at this
          have e : Real.exp x = Real.exp x / Real.exp v.toReal * Real.exp v.toReal := by field_simp
          nlinarith
      have a2 : max (Real.exp v.toReal) (Real.exp x) * (-x) ≤ 0.9 := by
        have m : ∀ w, w ≤ 0 → w ≤ 0.9 * x + 0.001 → Real.exp w * (-x) ≤ 0.9 := by
          intro w hw0 hw
          have b2 : Real.exp w * Real.exp (-w) = 1 := by rw [← Real.exp_add]; simp
          have b3 := Real.exp_pos w
          have b4 : Real.exp w ≤ 1 := by rw [Real.exp_le_one_iff]; exact hw0
          -- exp(w) * (-w) is at most 1/2
          have c1 := Real.quadratic_le_exp_of_nonneg (x := -w) (by linarith)
          have c2 := mul_le_mul_of_nonneg_left c1 b3.le
          rw [b2] at c2
          have c3 : Real.exp w * (2 * -w) ≤ 1 := by
            refine le_trans (mul_le_mul_of_nonneg_left ?_ b3.le) c2
            nlinarith [sq_nonneg (-w - 1)]
          have b6 : 0.9 * -x ≤ -w + 0.001 := by linarith
          have := mul_le_mul_of_nonneg_left b6 b3.le
          linarith
        rw [max_mul_of_nonneg _ _ (by linarith)]
        refine max_le (m _ q3 ?_) (m _ hx.le ?_)
        · nlinarith
        · linarith
      have a3 : max (Real.exp v.toReal) (Real.exp x) ≤ 1 := max_le hv1 (by rw [Real.exp_le_one_iff]; exact hx.le)
      have a4 : 0 ≤ max (Real.exp v.toReal) (Real.exp x) := le_max_of_le_left ev.le
      generalize max (Real.exp v.toReal) (Real.exp x) = M at *
      have a5 := mul_le_mul_of_nonneg_right hδ a4
      have a6 := mul_le_mul_of_nonneg_left a2 u0.le
      have a7 := mul_le_mul_of_nonneg_left a3 t0.le
      nlinarith
    have t := abs_add_le ((exp v).toReal - Real.exp v.toReal) (Real.exp v.toReal - Real.exp x)
    rw [sub_add_sub_cancel] at t
    have := mul_le_mul_of_nonneg_left hv1 (show 0 ≤ k * f.u by positivity)
    linarith
  · have hq := hE.inf
    have e : (exp (neg one /. n) : Fl L) = exp (Fl.inf L true) := congrArg _ q
    rw [e]
    refine ⟨hq.1, ?_⟩
    rw [hq.2, zero_sub, _root_.abs_neg, abs_of_pos (Real.exp_pos _)]
    have hbig : (2 : ℝ) ^ f.emax ≤ 1 / n.toReal := by
      by_contra hc
      exact hov (noOvf_of_le_emax (by rw [neg_div, _root_.abs_neg, abs_of_pos (by positivity)]; linarith))
    have hm := hf.emax_ge
    have b1 := Real.add_one_le_exp (1 / n.toReal)
    have b2 : Real.exp (-1 / n.toReal) * Real.exp (1 / n.toReal) = 1 := by rw [← Real.exp_add]; simp [neg_div]
    have b3 := Real.exp_pos (-1 / n.toReal)
    have b4 : Real.exp (-1 / n.toReal) * 2 ^ 67 ≤ 1 :=
      (mul_le_mul_of_nonneg_left (show (2 : ℝ) ^ 67 ≤ Real.exp (1 / n.toReal) by linarith) b3.le).trans b2.le
    have hu53 : 1 ≤ f.u * 2 ^ 53 := by
      rw [← f.u_mul]
      exact mul_le_mul_of_nonneg_left (pow_le_pow_right₀ (by norm_num) hf.prec') u0.le
    have : Real.exp (-1 / n.toReal) ≤ f.u := by
      by_contra hc
      have := not_le.mp hc
      norm_num at b4 hu53
      linarith
    nlinarith

theorem log_near {g E ε : ℝ} (hE : 0 < E) (hε : ε ≤ 0.13) (h : |g - E| ≤ ε * E) : 0 < g ∧ |Real.log g - Real.log E| ≤ 1.15 * ε := by
  have hε0 : 0 ≤ ε := nonneg_of_mul_nonneg_left ((abs_nonneg _).trans h) hE
  have hr := abs_le.mp h
  have hg0 : 0 < g := by nlinarith
  refine ⟨hg0, ?_⟩
  rw [← Real.log_div hg0.ne' hE.ne']
  have y0 : 0 < g / E := by positivity
  have y1 : g / E ≤ 1 + ε := by rw [div_le_iff₀ hE]; linarith
  have y2 : 1 - ε ≤ g / E := by rw [le_div_iff₀ hE]; linarith
  have l1 := Real.log_le_sub_one_of_pos y0
  have l2 := Real.one_sub_inv_le_log_of_pos y0
  have l3 : (g / E)⁻¹ ≤ 1 + 1.15 * ε := by
    rw [inv_le_comm₀ y0 (by positivity)]
    refine le_trans ?_ y2
    rw [inv_le_comm₀ (by positivity) (by linarith), ← one_div, div_le_iff₀ (by linarith)]
    nlinarith
  exact abs_le.mpr ⟨by linarith, by linarith⟩

theorem tau_near {n g K : ℝ} (hn : 0 < n) (hg : 0 < g) (h : |Real.log g - -1 / n| ≤ K) (hK : K * n ≤ 1 / 8) :
    ∃ τ, 0 < τ ∧ g = Real.exp (-1 / τ) ∧ |1 / τ - 1 / n| ≤ K ∧ |τ - n| ≤ 8 / 7 * K * n ^ 2 := by
  obtain ⟨l, hl⟩ : ∃ l, l = -Real.log g := ⟨_, rfl⟩
  rw [show Real.log g - -1 / n = -(l - 1 / n) by rw [hl]; ring, _root_.abs_neg] at h
  have h' := abs_le.mp h
  have hK0 : 0 ≤ K := (abs_nonneg _).trans h
  have hKn : K ≤ 1 / n / 8 := by rw [div_div, le_div_iff₀ (by positivity)]; linarith
  have hn1 : 1 / n * n = 1 := by field_simp
  have hn0 : 0 < 1 / n := by positivity
  have hl8 : 7 / 8 * (1 / n) ≤ l := by linarith
  have hl0 : 0 < l := by linarith
  have hln : 7 / 8 ≤ l * n := by
    have := mul_le_mul_of_nonneg_right hl8 hn.le
    linarith
  have hτ : 1 / l ≤ 8 / 7 * n := by
    rw [div_le_iff₀ hl0]; linarith
  refine ⟨1 / l, by positivity, ?_, by rwa [one_div_one_div], ?_⟩
  · rw [show -1 / (1 / l) = Real.log g by rw [hl]; field_simp, Real.exp_log hg]
  · have e : 1 / l - n = -((l - 1 / n) * (n * (1 / l))) := by field_simp; ring
    rw [e, _root_.abs_neg, abs_mul, abs_of_pos (show 0 < n * (1 / l) by positivity)]
    have := mul_le_mul h (mul_le_mul_of_nonneg_left hτ hn.le) (by positivity) hK0
    linarith

/-- **C99.** The gain of a length of at least one sample is `exp(-1/τ)` for a time constant `τ` whose reciprocal is within
`(1.2 k + 1.8) 2^-p` of that of the length: `τ` is the length, up to a relative error that grows with the length. -/
theorem C99_time_constant (hf : f.Ordinary) (hE : AccurateExp L k) (hk0 : 0 ≤ k) (n : Fl L) (hn : n.Finite) (h1 : 1 ≤ n.toReal)
    (hlen : (1.2 * k + 1.8) * f.u * n.toReal ≤ 1 / 8) :
    ∃ (g : Fl L) (τ : ℝ), SetsGain n g ∧ g.Finite ∧ 0 < τ ∧ g.toReal = Real.exp (-1 / τ) ∧
      |1 / τ - 1 / n.toReal| ≤ (1.2 * k + 1.8) * f.u ∧ |τ - n.toReal| ≤ 8 / 7 * (1.2 * k + 1.8) * f.u * n.toReal ^ 2 := by
  have u0 := f.u_pos
  have hu := hf.u_le'
  have ht := hf.tiny_le
  have t0 := f.tiny_pos
  have h0 : 0 < n.toReal := by linarith
  have hku : 0 ≤ k * f.u := by positivity
  obtain ⟨x, hx⟩ : ∃ x, x = -1 / n.toReal := ⟨_, rfl⟩
  have hx0 : x < 0 := by rw [hx]; exact div_neg_of_neg_of_pos (by norm_num) h0
  have hx1 : -1 ≤ x := by rw [hx, neg_div, neg_le_neg_iff, div_le_one h0]; exact h1
  have hxn : x * n.toReal = -1 := by rw [hx]; field_simp
  have hm := hf.emax_ge
  rcases recip_val hn h0 with ⟨-, q1, q2⟩ | ⟨hov, -⟩
  swap
  · refine absurd (noOvf_of_le_emax ?_) hov
    rw [← hx, abs_of_neg hx0]
    norm_num at hm
    linarith
  have q3 : (neg one /. n : Fl L).toReal ≤ 0 := by
    rw [q2, ← hx]; exact rnd_le_of_le (isRep_zero f) hx0.le
  obtain ⟨e1, e2⟩ := hE.exp _ q1 q3
  have hδ := abs_rnd_sub_le_u f x
  rw [hx, ← q2, ← hx, abs_of_neg hx0] at hδ
  have hset := setsGain n hn h0
  generalize (neg one /. n : Fl L) = v at *
  obtain ⟨d, hd⟩ : ∃ d, d = v.toReal - x := ⟨_, rfl⟩
  rw [← hd] at hδ
  have hδ' : |d| ≤ 1.001 * f.u := by nlinarith
  have hb := Real.abs_exp_sub_one_sub_id_le (x := d) (by linarith)
  have hEx : 0.36 ≤ Real.exp x := by
    have := Real.exp_le_exp.mpr hx1
    have h3 := Real.exp_one_lt_d9
    have h4 : Real.exp (-1) * Real.exp 1 = 1 := by rw [← Real.exp_add]; simp
    nlinarith [Real.exp_pos (-1)]
  have hEx1 : Real.exp x ≤ 1 := by rw [Real.exp_le_one_iff]; exact hx0.le
  have ev : Real.exp v.toReal = Real.exp x * Real.exp d := by rw [← Real.exp_add]; congr 1; linarith
  have hd1 : |Real.exp d - 1| ≤ 1.01 * f.u := by
    have := abs_add_le (Real.exp d - 1 - d) d
    rw [sub_add_cancel] at this
    have : d ^ 2 ≤ 0.001 * f.u := by rw [← sq_abs]; nlinarith [abs_nonneg d]
    linarith
  have hd2 := abs_le.mp hd1
  -- relative error of the gain
  obtain ⟨g, hg⟩ : ∃ g, g = (exp v).toReal := ⟨_, rfl⟩
  have hrel : |g - Real.exp x| ≤ (1.003 * k + 1.03) * f.u * Real.exp x := by
    rw [← hg, ev] at e2
    have t := abs_add_le (g - Real.exp x * Real.exp d) (Real.exp x * (Real.exp d - 1))
    rw [show g - Real.exp x * Real.exp d + Real.exp x * (Real.exp d - 1) = g - Real.exp x by ring, abs_mul, abs_of_pos (Real.exp_pos x)] at t
    have m1 := mul_le_mul_of_nonneg_left hd1 (Real.exp_pos x).le
    have m2 : k * f.u * (Real.exp x * Real.exp d) ≤ k * f.u * (Real.exp x * 1.002) :=
      mul_le_mul_of_nonneg_left (mul_le_mul_of_nonneg_left (by linarith) (Real.exp_pos x).le) hku
    have m3 : f.tiny ≤ 0.01 * f.u * Real.exp x := by nlinarith
    have m4 : 0 ≤ k * f.u * Real.exp x := by positivity
    nlinarith
  have hKn : (1.2 * k + 1.8) * f.u ≤ (1.2 * k + 1.8) * f.u * n.toReal := le_mul_of_one_le_right (by positivity) h1
  obtain ⟨hg0, hlog⟩ := log_near (Real.exp_pos x) (by linarith) hrel
  rw [Real.log_exp, hx] at hlog
  obtain ⟨τ, t1, t2, t3, t4⟩ := tau_near (K := (1.2 * k + 1.8) * f.u) h0 hg0 (hlog.trans (by linarith)) hlen
  exact ⟨exp v, τ, hset, e1, t1, by rw [← hg]; exact t2, t3, t4.trans (by linarith)⟩

/-! ## Lengths beyond the precision -/

/-- Below 1 there is nothing between `1 - 2^-p` and 1. -/
theorem IsRep.le_pred {z : ℝ} (h : IsRep f z) (h1 : z < 1) : z ≤ 1 - f.u := by
  obtain ⟨m, e, hm, -, rfl⟩ := h
  have hu : f.u * 2 ^ f.p = 1 := f.u_mul
  have hp : (0 : ℝ) < 2 ^ f.p := by positivity
  have u2 : f.u ≤ 1 / 2 := by
    unfold Fmt.u
    apply one_div_le_one_div_of_le (by norm_num)
    calc (2 : ℝ) = 2 ^ 1 := by norm_num
      _ ≤ 2 ^ f.p := pow_le_pow_right₀ (by norm_num) (by have := f.hp; omega)
  by_cases he : -(f.p : ℤ) ≤ e
  · obtain ⟨j, hj⟩ := Int.eq_ofNat_of_zero_le (show 0 ≤ e + f.p by omega)
    have e1 : (2 : ℝ) ^ e * 2 ^ f.p = 2 ^ j := by
      rw [← zpow_natCast, ← zpow_natCast, ← zpow_add₀ (by norm_num), hj]
    have h2 : (m : ℝ) * 2 ^ j < 2 ^ f.p := by
      have := mul_lt_mul_of_pos_right h1 hp
      rw [mul_assoc, e1] at this
      linarith
    have h3 : m * 2 ^ j + 1 ≤ 2 ^ f.p := by
      have : m * 2 ^ j < 2 ^ f.p := by exact_mod_cast h2
      omega
    have h4 : (m : ℝ) * 2 ^ j + 1 ≤ 2 ^ f.p := by exact_mod_cast h3
    have h5 : ((m : ℝ) * 2 ^ e) * 2 ^ f.p ≤ (1 - f.u) * 2 ^ f.p := by rw [mul_assoc, e1]; linarith
    exact le_of_mul_le_mul_right h5 hp
  · have h2 : (m : ℝ) < 2 ^ f.p := by
      have : m < 2 ^ f.p := lt_of_abs_lt hm
      exact_mod_cast this
    have h3 : (2 : ℝ) ^ e ≤ 2 ^ (-(f.p : ℤ) - 1) := zpow_le_zpow_right₀ (by norm_num) (by omega)
    have h4 : (2 : ℝ) ^ (-(f.p : ℤ) - 1) * 2 ^ f.p = 1 / 2 := by
      rw [← zpow_natCast, ← zpow_add₀ (by norm_num), show -(f.p : ℤ) - 1 + f.p = -1 by ring]
      norm_num
    have h5 : (m : ℝ) * 2 ^ e ≤ 2 ^ f.p * 2 ^ e := mul_le_mul_of_nonneg_right h2.le (by positivity)
    have h6 : (2 : ℝ) ^ f.p * 2 ^ e ≤ 2 ^ f.p * 2 ^ (-(f.p : ℤ) - 1) := mul_le_mul_of_nonneg_left h3 hp.le
    linarith

theorem rnd_near_one {v : ℝ} (h1 : v ≤ 1) (h2 : 1 - f.u / 2 < v) : rnd f v = 1 := by
  have h3 : rnd f v ≤ 1 := rnd_le_of_le (isRep_one f) h1
  rcases h3.lt_or_eq with h | h
  · have a := (rnd_isRep f v).le_pred h
    have b := ((rnd_nearestEven f v).2 1 (isRep_one f)).1
    rw [abs_of_nonneg (show 0 ≤ 1 - v by linarith), abs_of_nonpos (by linarith)] at b
    linarith
  · exact h

theorem rnd_below_one (hf : f.Ordinary) {v : ℝ} (h2 : v < 1 - f.u / 2) : rnd f v ≤ 1 - f.u := by
  apply (rnd_isRep f v).le_pred
  by_contra hc
  have hr : IsRep f (1 - f.u) := by
    refine ⟨2 ^ f.p - 1, -(f.p : ℤ), ?_, by have := hf.small; omega, ?_⟩
    · have : (1 : ℤ) ≤ 2 ^ f.p := one_le_pow₀ (by norm_num)
      rw [abs_of_nonneg (by omega)]; omega
    · have := f.u_mul
      have hp : (2 : ℝ) ^ f.p ≠ 0 := by positivity
      rw [zpow_neg, zpow_natCast]
      push_cast
      unfold Fmt.u
      field_simp
  have b := ((rnd_nearestEven f v).2 _ hr).1
  have u0 := f.u_pos
  rw [abs_of_nonneg (by linarith)] at b
  rcases abs_cases (1 - f.u - v) with ⟨e, -⟩ | ⟨e, -⟩ <;> linarith

/-- **C99.** With a correctly rounded `exp`, lengths from `2^(p+1)` samples on give a gain of exactly 1, and lengths from 1 to `2^p`
samples a gain of at most the number before 1. -/
theorem C99_saturates (hf : f.Ordinary) (hE : RoundedExp L) (n : Fl L) (hn : n.Finite) :
    (2 ^ (f.p + 1) ≤ n.toReal → ∃ g : Fl L, SetsGain n g ∧ g.Finite ∧ g.toReal = 1) ∧
    (1 ≤ n.toReal → n.toReal ≤ 2 ^ f.p → ∃ g : Fl L, SetsGain n g ∧ g.Finite ∧ g.toReal ≤ 1 - 1 / 2 ^ f.p) := by
  have u0 := f.u_pos
  have hm := hf.emax_ge
  norm_num at hm
  have huu : f.u = 2 ^ (-(f.p : ℤ)) := by rw [Fmt.u, zpow_neg, zpow_natCast, one_div]
  have pre : 1 ≤ n.toReal → (neg one /. n : Fl L).Finite ∧ (neg one /. n : Fl L).toReal = rnd f (-1 / n.toReal) ∧
      (neg one /. n : Fl L).toReal ≤ 0 := by
    intro h1
    have h0 : 0 < n.toReal := by linarith
    have hx0 : -1 / n.toReal < 0 := div_neg_of_neg_of_pos (by norm_num) h0
    rcases recip_val hn h0 with ⟨-, q1, q2⟩ | ⟨hov, -⟩
    · exact ⟨q1, q2, by rw [q2]; exact rnd_le_of_le (isRep_zero f) hx0.le⟩
    · refine absurd (noOvf_of_le_emax ?_) hov
      rw [abs_of_neg hx0, neg_div, neg_neg, div_le_iff₀ h0]
      nlinarith
  constructor
  · intro h
    have h2p : (1 : ℝ) ≤ 2 ^ (f.p + 1) := one_le_pow₀ (by norm_num)
    have h1 : 1 ≤ n.toReal := by linarith
    obtain ⟨q1, q2, q3⟩ := pre h1
    obtain ⟨e1, e2⟩ := hE _ q1 q3
    refine ⟨_, setsGain n hn (by linarith), e1, ?_⟩
    rw [e2]
    have hr : IsRep f (-(f.u / 2)) := by
      have : IsRep f ((2 : ℝ) ^ (-(f.p : ℤ) - 1)) := isRep_two_zpow (by have := hf.small; have := hf.prec; omega)
      rw [zpow_sub₀ (by norm_num), zpow_one, ← huu] at this
      exact this.neg
    have hx : -(f.u / 2) ≤ -1 / n.toReal := by
      rw [neg_div, neg_le_neg_iff, div_le_iff₀ (by linarith)]
      have e : f.u * 2 ^ f.p = 1 := f.u_mul
      have := mul_le_mul_of_nonneg_left h u0.le
      rw [pow_succ] at this
      linarith
    have hv := le_rnd_of_le hr hx
    rw [← q2] at hv
    apply rnd_near_one
    · rw [Real.exp_le_one_iff]; exact q3
    · rcases q3.lt_or_eq with hlt | heq
      · have := Real.add_one_lt_exp hlt.ne
        linarith
      · rw [heq, Real.exp_zero]; linarith
  · intro h1 h
    obtain ⟨q1, q2, q3⟩ := pre h1
    obtain ⟨e1, e2⟩ := hE _ q1 q3
    refine ⟨_, setsGain n hn (by linarith), e1, ?_⟩
    rw [e2]
    have hr : IsRep f (-f.u) := by
      rw [huu]
      exact (isRep_two_zpow (by have := hf.small; have := hf.prec; omega)).neg
    have hx : -1 / n.toReal ≤ -f.u := by
      rw [neg_div, neg_le_neg_iff, le_div_iff₀ (by linarith)]
      have e : f.u * 2 ^ f.p = 1 := f.u_mul
      have := mul_le_mul_of_nonneg_left h u0.le
      linarith
    have hv := rnd_le_of_le hr hx
    rw [← q2] at hv
    refine rnd_below_one hf ?_
    have hu := hf.u_le'
    refine (Real.exp_le_exp.mpr hv).trans_lt ?_
    have := Real.abs_exp_sub_one_sub_id_le (x := -f.u) (by rw [_root_.abs_neg, abs_of_pos u0]; linarith)
    have := (abs_le.mp this).2
    nlinarith

/-- A detector at rest with an attack gain of 1 stays at rest. -/
theorem rest_step {i e r : Fl L} (hi : i.Finite) (i0 : 0 ≤ i.toReal) (he : e.Finite) (e0 : e.toReal = 0) {a : Fl L} (ha : a.Finite)
    (a1 : a.toReal = 1) (hr : r.Finite) :
    (i +. (if lt e i then a else r) *. (e -. i)).Finite ∧ (i +. (if lt e i then a else r) *. (e -. i)).toReal = 0 := by
  have hd : (e -. i).Finite ∧ (e -. i).toReal = -i.toReal := by
    have := sub_val he hi (by rw [e0, zero_sub]; exact noOvf_of_abs_le (y := i) (by rw [_root_.abs_neg]))
    rwa [e0, zero_sub, rnd_of_isRep (isRep_toReal i).neg] at this
  split_ifs with h
  · have hm : (a *. (e -. i)).Finite ∧ (a *. (e -. i)).toReal = -i.toReal := by
      have := mul_val ha hd.1 (by rw [a1, one_mul]; exact noOvf_toReal _)
      rw [a1, one_mul, rnd_of_isRep (isRep_toReal _), hd.2] at this
      exact this
    have := add_val hi hm.1 (by rw [hm.2, add_neg_cancel]; exact FP.noOvf_of_le (isRep_one f) (FP.one_lt_lim f) (by simp))
    rwa [hm.2, add_neg_cancel, rnd_zero] at this
  · rw [lt_iff he hi, e0, not_lt] at h
    have i1 : i.toReal = 0 := le_antisymm h i0
    have z : FP.NoOvf f 0 := FP.noOvf_of_le (isRep_one f) (FP.one_lt_lim f) (by simp)
    rw [i1, neg_zero] at hd
    have hm : (r *. (e -. i)).Finite ∧ (r *. (e -. i)).toReal = 0 := by
      have := mul_val hr hd.1 (by rw [hd.2, mul_zero]; exact z)
      rwa [hd.2, mul_zero, rnd_zero] at this
    have := add_val hi hm.1 (by rw [hm.2, i1, add_zero]; exact z)
    rwa [hm.2, i1, add_zero, rnd_zero] at this

/-- **C99.** A peak detector whose attack length is `2^(p+1)` samples or more, with any release, never leaves zero, whatever finite samples
it gets. -/
theorem C99_peak_stuck (hf : f.Ordinary) (hE : RoundedExp L) (b : Build) (n : Fl L) (hn : n.Finite) (h : 2 ^ (f.p + 1) ≤ n.toReal)
    (s : PeakEnvDetector (Fl L)) (he : s.lastOut.Finite) (h0 : s.lastOut.toReal = 0) (hr : s.getReleaseGain.Finite) (x : ℕ → Fl L)
    (hx : ∀ i, (x i).Finite) : ∃ y, Responds b (s.setAttack n) x y ∧ ∀ i, (y i).Finite ∧ (y i).toReal = 0 := by
  obtain ⟨y, st, e0, hst⟩ := NeverPanics.responds (fun _ _ _ => ⟨_, _, rfl⟩) b (s.setAttack n) x
  refine ⟨y, ⟨st, e0, hst⟩, ?_⟩
  obtain ⟨g, hg, g1, g2⟩ := (C99_saturates hf hE n hn).1 h
  have inv : ∀ i, (st i).attack_gain.Finite ∧ (st i).attack_gain.toReal = 1 ∧ (st i).release_gain.Finite ∧ (st i).envelope.Finite ∧
      (st i).envelope.toReal = 0 := by
    intro i
    induction i with
    | zero =>
      have ea : (s.setAttack n).attack_gain = g := (hg.1 s).1
      obtain ⟨c1, -, c3, -⟩ := (C49_independent n n).1 s
      rw [e0, ea]
      refine ⟨g1, g2, ?_, ?_, ?_⟩
      · exact (congrArg Fl.Finite c1).mpr hr
      · exact (congrArg Fl.Finite c3).mpr he
      · exact (congrArg Fl.toReal c3).trans h0
    | succ i ih =>
      obtain ⟨h1, h2⟩ := Prod.mk.inj (Except.ok.inj (hst i))
      rw [← h1]
      obtain ⟨a1, a2, a3, a4, a5⟩ := ih
      exact ⟨a1, a2, a3, rest_step (abs_finite.mpr (hx i)) (toReal_nonneg_of_sign (abs_finite.mpr (hx i)) (abs_sign _)) a4 a5 a1 a2 a3⟩
  intro i
  obtain ⟨h1, h2⟩ := Prod.mk.inj (Except.ok.inj (hst i))
  have : (st (i + 1)).envelope = y i := by rw [← h1, ← h2]
  rw [← this]
  exact ⟨(inv (i + 1)).2.2.2.1, (inv (i + 1)).2.2.2.2⟩

/-- **C99.** … and so does an RMS detector, for samples whose squares do not overflow. -/
theorem C99_rms_stuck (hf : f.Ordinary) (hE : RoundedExp L) (b : Build) (n : Fl L) (hn : n.Finite) (h : 2 ^ (f.p + 1) ≤ n.toReal)
    (s : RmsEnvDetector (Fl L)) (he : s.envelope.Finite) (h0 : s.envelope.toReal = 0) (hr : s.getReleaseGain.Finite) (x : ℕ → Fl L)
    (hx : ∀ i, (x i).Finite ∧ FP.NoOvf f ((x i).toReal ^ 2)) :
    ∃ y, Responds b (s.setAttack n) x y ∧ ∀ i, (y i).Finite ∧ (y i).toReal = 0 := by
  obtain ⟨y, st, e0, hst⟩ := NeverPanics.responds (fun _ _ _ => ⟨_, _, rfl⟩) b (s.setAttack n) x
  refine ⟨y, ⟨st, e0, hst⟩, ?_⟩
  obtain ⟨g, hg', g1, g2⟩ := (C99_saturates hf hE n hn).1 h
  have inv : ∀ i, (st i).attack_gain.Finite ∧ (st i).attack_gain.toReal = 1 ∧ (st i).release_gain.Finite ∧ (st i).envelope.Finite ∧
      (st i).envelope.toReal = 0 := by
    intro i
    induction i with
    | zero =>
      have en := ((C49_accepts n hn (lt_of_lt_of_le (by positivity) h)).2 s).1
      have ea : (s.setAttack n).attack_gain = g := (hg'.2 s).1
      rw [e0, ea, en]
      exact ⟨g1, g2, hr, he, h0⟩
    | succ i ih =>
      obtain ⟨h1, h2⟩ := Prod.mk.inj (Except.ok.inj (hst i))
      rw [← h1]
      obtain ⟨a1, a2, a3, a4, a5⟩ := ih
      have hq := mul_val (hx i).1 (hx i).1 (by rw [← pow_two]; exact (hx i).2)
      refine ⟨a1, a2, a3, rest_step hq.1 ?_ a4 a5 a1 a2 a3⟩
      rw [hq.2]
      exact le_rnd_of_le (isRep_zero f) (mul_self_nonneg _)
  intro i
  obtain ⟨h1, h2⟩ := Prod.mk.inj (Except.ok.inj (hst i))
  have : sqrt (st (i + 1)).envelope = y i := by rw [← h1, ← h2]
  rw [← this]
  obtain ⟨-, -, -, q4, q5⟩ := inv (i + 1)
  have := sqrt_val q4 q5.ge
  rwa [q5, Real.sqrt_zero, rnd_zero] at this

/-- **C99.** f32 with an `exp` accurate to two units: lengths from 1 to 48000 samples have a time constant within
`2.87e-7 length^2` samples, which is 1.4 % at 48000; f64: `5.4e-16 length^2` for lengths up to `10^12`. -/
theorem C99_f32 {L : Libm binary32} (hE : AccurateExp L 2) (n : Fl L) (hn : n.Finite) (h1 : 1 ≤ n.toReal) (h2 : n.toReal ≤ 48000) :
    ∃ (g : Fl L) (τ : ℝ), SetsGain n g ∧ g.Finite ∧ 0 < τ ∧ g.toReal = Real.exp (-1 / τ) ∧ |τ - n.toReal| ≤ 2.87e-7 * n.toReal ^ 2 := by
  have hu : binary32.u = 1 / 2 ^ 24 := by simp [Fmt.u, binary32]
  obtain ⟨g, τ, a1, a2, a3, a4, -, a5⟩ := C99_time_constant binary32_ordinary hE (by norm_num) n hn h1 (by rw [hu]; norm_num; linarith)
  refine ⟨g, τ, a1, a2, a3, a4, a5.trans (mul_le_mul_of_nonneg_right (by rw [hu]; norm_num) (sq_nonneg _))⟩

theorem C99_f64 {L : Libm binary64} (hE : AccurateExp L 2) (n : Fl L) (hn : n.Finite) (h1 : 1 ≤ n.toReal) (h2 : n.toReal ≤ 1e12) :
    ∃ (g : Fl L) (τ : ℝ), SetsGain n g ∧ g.Finite ∧ 0 < τ ∧ g.toReal = Real.exp (-1 / τ) ∧ |τ - n.toReal| ≤ 5.4e-16 * n.toReal ^ 2 := by
  have hu : binary64.u = 1 / 2 ^ 53 := by simp [Fmt.u, binary64]
  obtain ⟨g, τ, a1, a2, a3, a4, -, a5⟩ := C99_time_constant binary64_ordinary hE (by norm_num) n hn h1 (by rw [hu]; norm_num at h2 ⊢; linarith)
  refine ⟨g, τ, a1, a2, a3, a4, a5.trans (mul_le_mul_of_nonneg_right (by rw [hu]; norm_num) (sq_nonneg _))⟩

/-! ## The hypotheses are met -/

theorem Libm.roundedExp_rounded (f : Fmt) : RoundedExp (Libm.roundedExp f) := by
  intro x hx h0
  obtain ⟨s, a, h, rfl⟩ := FP.finite_cases hx
  have h0' : FP.toReal (.fin s a h : FP f) ≤ 0 := h0
  exact FP.ofReal_of_noOvf (s := false) (FP.noOvf_of_le (isRep_one f) (FP.one_lt_lim f)
    (by rw [abs_of_pos (Real.exp_pos _), Real.exp_le_one_iff]; exact h0'))

theorem Libm.roundedExp_accurate (f : Fmt) : AccurateExp (Libm.roundedExp f) 1 := by
  refine ⟨fun x hx h0 => ?_, ?_⟩
  · obtain ⟨h1, h2⟩ := Libm.roundedExp_rounded f x hx h0
    refine ⟨h1, ?_⟩
    rw [h2, one_mul]
    have := abs_rnd_sub_le_u f (Real.exp x.toReal)
    rwa [abs_of_pos (Real.exp_pos _)] at this
  · exact ⟨(FP.ofReal_zero (f := f) false).1, (FP.ofReal_zero (f := f) false).2⟩

/-- Lengths of one second at 48 kHz and of `2^25` samples exist in f32. -/
example : AccurateExp (Libm.roundedExp binary32) 1 ∧ RoundedExp (Libm.roundedExp binary32) ∧ ∀ L : Libm binary32,
    (∃ n : Fl L, n.Finite ∧ n.toReal = 48000) ∧ (∃ n : Fl L, n.Finite ∧ 2 ^ (binary32.p + 1) ≤ n.toReal) ∧
    (PeakEnvDetector.new : PeakEnvDetector (Fl L)).lastOut.toReal = 0 ∧
    (PeakEnvDetector.new : PeakEnvDetector (Fl L)).getReleaseGain.Finite := by
  have hl : (2 : ℝ) ^ (101 : ℤ) ≤ binary32.lim := zpow_le_zpow_right₀ one_le_two (by decide)
  norm_num at hl
  refine ⟨Libm.roundedExp_accurate _, Libm.roundedExp_rounded _, fun L => ⟨?_, ?_, zero_toReal, zero_finite⟩⟩
  · exact exists_of_isRep L (isRep_nat (n := 48000) (by norm_num [binary32])) (by norm_num; linarith)
  · obtain ⟨n, h1, h2⟩ := exists_of_isRep L (isRep_two_zpow (f := binary32) (e := 25) (by decide))
      (by rw [abs_of_pos (by positivity)]; norm_num; linarith)
    exact ⟨n, h1, by rw [h2]; norm_num [binary32]⟩

end Rasp
