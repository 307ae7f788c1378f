import Verif.Spec.WindowedSinc
import Verif.Props.TapResponse
import Verif.Props.Cosines
import Verif.Props.LobesFloat
import Verif.Props.MetersFloat
import Mathlib.Analysis.Calculus.Deriv.MeanValue

/-!
# C158: low-pass filters designed with a window
-/

namespace Rasp
open FloatOps
variable {b : Build}

/-! ## Antiderivatives of a spectrum -/

/-- The spectrum of symmetric samples, counted from their middle. -/
noncomputable def cosSum (v : ℕ → ℝ) (M : ℕ) (θ : ℝ) : ℝ := ∑ k ∈ Finset.range (2 * M + 1), v k * Real.cos (θ * ((k : ℝ) - M))

/-- An antiderivative. -/
noncomputable def sinSum (v : ℕ → ℝ) (M : ℕ) (θ : ℝ) : ℝ :=
  ∑ k ∈ Finset.range (2 * M + 1), v k * if k = M then θ else Real.sin (θ * ((k : ℝ) - M)) / ((k : ℝ) - M)

theorem hasDerivAt_sinSum (v : ℕ → ℝ) (M : ℕ) (θ : ℝ) : HasDerivAt (sinSum v M) (cosSum v M θ) θ := by
  unfold sinSum cosSum
  refine HasDerivAt.fun_sum fun k _ => ?_
  by_cases h : k = M
  · subst h
    simp only [if_true, sub_self, mul_zero, Real.cos_zero]
    exact (hasDerivAt_id' θ).const_mul (v k)
  · simp only [if_neg h]
    have hk : (k : ℝ) - M ≠ 0 := sub_ne_zero.mpr (by exact_mod_cast h)
    have h1 : HasDerivAt (fun θ : ℝ => θ * ((k : ℝ) - M)) ((k : ℝ) - M) θ := hasDerivAt_mul_const _
    have := ((h1.sin).div_const ((k : ℝ) - M)).const_mul (v k)
    rwa [mul_div_cancel_right₀ _ hk] at this

theorem sin_int_shift (θ : ℝ) (k M : ℕ) : Real.sin ((θ + 2 * Real.pi) * ((k : ℝ) - M)) = Real.sin (θ * ((k : ℝ) - M)) := by
  have := Real.sin_add_int_mul_two_pi (θ * ((k : ℝ) - M)) ((k : ℤ) - M)
  rw [← this]
  congr 1
  push_cast
  ring

theorem sinSum_period (v : ℕ → ℝ) (M : ℕ) (θ : ℝ) : sinSum v M (θ + 2 * Real.pi) = sinSum v M θ + 2 * Real.pi * v M := by
  unfold sinSum
  have h : ∀ k ∈ Finset.range (2 * M + 1), v k * (if k = M then θ + 2 * Real.pi else Real.sin ((θ + 2 * Real.pi) * ((k : ℝ) - M)) / ((k : ℝ) - M)) =
      v k * (if k = M then θ else Real.sin (θ * ((k : ℝ) - M)) / ((k : ℝ) - M)) + if k = M then 2 * Real.pi * v M else 0 := by
    intro k _
    by_cases hk : k = M
    · subst hk; simp; ring
    · simp only [if_neg hk, sin_int_shift]; ring
  rw [Finset.sum_congr rfl h, Finset.sum_add_distrib, Finset.sum_ite_eq', if_pos (by simp; omega)]

theorem sinSum_neg (v : ℕ → ℝ) (M : ℕ) (θ : ℝ) : sinSum v M (-θ) = -sinSum v M θ := by
  unfold sinSum
  rw [← Finset.sum_neg_distrib]
  refine Finset.sum_congr rfl fun k _ => ?_
  split_ifs
  · ring
  · rw [neg_mul, Real.sin_neg]; ring

/-- The windowed ideal response, as a difference of the antiderivative. -/
theorem ideal_response (v : ℕ → ℝ) (M : ℕ) (Ω ω : ℝ) :
    cosSum (fun k => idealTap Ω (k - M) * v k) M ω = (sinSum v M (ω + Ω) - sinSum v M (ω - Ω)) / (2 * Real.pi) := by
  have hpi := Real.pi_pos
  unfold cosSum sinSum
  rw [← Finset.sum_sub_distrib, Finset.sum_div]
  refine Finset.sum_congr rfl fun k _ => ?_
  unfold idealTap
  by_cases h : k = M
  · subst h
    simp only [sub_self, if_true, mul_zero, Real.cos_zero]
    field_simp
    ring
  · have hk : (k : ℝ) - M ≠ 0 := sub_ne_zero.mpr (by exact_mod_cast h)
    have hz : (k : ℤ) - M ≠ 0 := sub_ne_zero.mpr (by exact_mod_cast h)
    simp only [if_neg h, if_neg hz]
    push_cast
    rw [add_mul, sub_mul, Real.sin_add, Real.sin_sub]
    field_simp
    ring

/-- If the spectrum is at most minus the derivative of `F` from `t` to `π`, the ideal response cut off by `v` is nearly ideal. -/
theorem nearlyIdeal_of {v : ℕ → ℝ} {M : ℕ} (h1 : v M = 1) {F F' : ℝ → ℝ} {t : ℝ} (ht0 : 0 ≤ t) (htpi : t ≤ Real.pi)
    (hF : ∀ θ ∈ Set.Icc t Real.pi, HasDerivAt F (F' θ) θ) (hv : ∀ θ ∈ Set.Icc t Real.pi, |cosSum v M θ| ≤ -F' θ) {Ω : ℝ} (hΩ0 : 0 ≤ Ω) (hΩ : Ω ≤ Real.pi - t)
    (ω : ℝ) : NearlyIdeal Ω t ((F t - F Real.pi) / Real.pi) ω (cosSum (fun k => idealTap Ω (k - M) * v k) M ω) := by
  have hpi := Real.pi_pos
  -- both `-F + V` and `-F - V` rise from `t` to `π`
  have up : ∀ s : ℝ, |s| ≤ 1 → MonotoneOn (fun θ => -F θ + s * sinSum v M θ) (Set.Icc t Real.pi) := by
    intro s hs
    have hd : ∀ θ ∈ Set.Icc t Real.pi, HasDerivAt (fun θ => -F θ + s * sinSum v M θ) (-F' θ + s * cosSum v M θ) θ := fun θ hθ =>
      (hF θ hθ).neg.add ((hasDerivAt_sinSum v M θ).const_mul s)
    refine monotoneOn_of_deriv_nonneg (convex_Icc _ _) (fun θ hθ => (hd θ hθ).continuousAt.continuousWithinAt)
      (fun θ hθ => (hd θ (interior_subset hθ)).differentiableAt.differentiableWithinAt) fun θ hθ => ?_
    have hθ' := interior_subset hθ
    rw [(hd θ hθ').deriv]
    have e1 := hv θ hθ'
    have e2 : |s * cosSum v M θ| ≤ |cosSum v M θ| := by rw [abs_mul]; exact mul_le_of_le_one_left (abs_nonneg _) hs
    have := neg_abs_le (s * cosSum v M θ)
    linarith
  have mono : ∀ α β, t ≤ α → α ≤ β → β ≤ Real.pi → |sinSum v M β - sinSum v M α| ≤ F α - F β := by
    intro α β h1 h2 h3
    have a1 := up 1 (by simp) ⟨h1, h2.trans h3⟩ ⟨h1.trans h2, h3⟩ h2
    have a2 := up (-1) (by simp) ⟨h1, h2.trans h3⟩ ⟨h1.trans h2, h3⟩ h2
    beta_reduce at a1 a2
    rw [abs_le]
    constructor <;> linarith
  have falls : ∀ α β, t ≤ α → α ≤ β → β ≤ Real.pi → F β ≤ F α := fun α β h1 h2 h3 => by
    have := (abs_nonneg _).trans (mono α β h1 h2 h3)
    linarith
  have flip : ∀ θ, sinSum v M (2 * Real.pi - θ) = 2 * Real.pi - sinSum v M θ := fun θ => by
    have e1 := sinSum_period v M (-θ)
    rw [sinSum_neg, h1] at e1
    rw [show 2 * Real.pi - θ = -θ + 2 * Real.pi by ring, e1]
    ring
  have key : ∀ α β, t ≤ α → α ≤ β → β ≤ 2 * Real.pi - t → |sinSum v M β - sinSum v M α| ≤ 2 * (F t - F Real.pi) := by
    intro α β h2 h3 h4
    have base := falls t Real.pi le_rfl htpi le_rfl
    rcases le_total β Real.pi with hb | hb
    · have e1 := mono α β h2 h3 hb
      have e2 := falls t α le_rfl h2 (h3.trans hb)
      have e3 := falls β Real.pi (h2.trans h3) hb le_rfl
      linarith
    · have hβ := flip (2 * Real.pi - β)
      rw [sub_sub_cancel] at hβ
      rcases le_total Real.pi α with ha | ha
      · have hα := flip (2 * Real.pi - α)
        rw [sub_sub_cancel] at hα
        have e1 := mono (2 * Real.pi - β) (2 * Real.pi - α) (by linarith) (by linarith) (by linarith)
        have e2 := falls t (2 * Real.pi - β) le_rfl (by linarith) (by linarith)
        have e3 := falls (2 * Real.pi - α) Real.pi (by linarith) (by linarith) le_rfl
        rw [hβ, hα]
        rw [show 2 * Real.pi - sinSum v M (2 * Real.pi - β) - (2 * Real.pi - sinSum v M (2 * Real.pi - α)) =
          sinSum v M (2 * Real.pi - α) - sinSum v M (2 * Real.pi - β) by ring]
        linarith
      · have e1 := mono α Real.pi h2 ha le_rfl
        have e2 := mono (2 * Real.pi - β) Real.pi (by linarith) (by linarith) le_rfl
        have e3 := falls t α le_rfl h2 ha
        have e4 := falls t (2 * Real.pi - β) le_rfl (by linarith) (by linarith)
        have hπ := flip Real.pi
        rw [show 2 * Real.pi - Real.pi = Real.pi by ring] at hπ
        rw [hβ, show 2 * Real.pi - sinSum v M (2 * Real.pi - β) - sinSum v M α =
          (sinSum v M Real.pi - sinSum v M (2 * Real.pi - β)) + (sinSum v M Real.pi - sinSum v M α) by linarith]
        refine (abs_add_le _ _).trans ?_
        linarith
  have scale : ∀ x : ℝ, |x| ≤ 2 * (F t - F Real.pi) → |x / (2 * Real.pi)| ≤ (F t - F Real.pi) / Real.pi := fun x hx => by
    rw [abs_div, abs_of_pos (by positivity : 0 < 2 * Real.pi), div_le_div_iff₀ (by positivity) hpi]
    nlinarith
  rw [ideal_response]
  constructor
  · intro hω
    have hω' := abs_le.mp hω
    have e := key (ω + Ω) (ω - Ω + 2 * Real.pi) (by linarith) (by linarith) (by linarith)
    have e2 := scale _ e
    rw [sinSum_period, h1, ← abs_neg] at e2
    convert e2 using 2
    field_simp
    ring
  · intro hω1 hω2
    have e : ∀ w, Ω + t ≤ w → w ≤ Real.pi → |(sinSum v M (w + Ω) - sinSum v M (w - Ω)) / (2 * Real.pi)| ≤ (F t - F Real.pi) / Real.pi :=
      fun w hw1 hw2 => scale _ (key (w - Ω) (w + Ω) (by linarith) (by linarith) (by linarith))
    rcases le_total 0 ω with h0 | h0
    · rw [abs_of_nonneg h0] at hω1 hω2
      exact e ω hω1 hω2
    · rw [abs_of_nonpos h0] at hω1 hω2
      have := e (-ω) hω1 hω2
      rw [show -ω + Ω = -(ω - Ω) by ring, show -ω - Ω = -(ω + Ω) by ring, sinSum_neg, sinSum_neg] at this
      convert this using 2
      ring

/-! ## The spectrum of symmetric samples -/

theorem centred_exp (v : ℕ → ℝ) (M : ℕ) (θ : ℝ) :
    centred (2 * M + 1) v θ = ∑ k ∈ Finset.range (2 * M + 1), (v k : ℂ) * Complex.exp (((-(θ * ((k : ℝ) - M)) : ℝ) : ℂ) * Complex.I) := by
  unfold centred dtft
  rw [Finset.mul_sum]
  refine Finset.sum_congr rfl fun k _ => ?_
  rw [mul_left_comm, ← Complex.exp_add]
  congr 2
  push_cast
  ring

theorem centred_re_cosSum (v : ℕ → ℝ) (M : ℕ) (θ : ℝ) : (centred (2 * M + 1) v θ).re = cosSum v M θ := by
  rw [centred_exp, Complex.re_sum]
  refine Finset.sum_congr rfl fun k _ => ?_
  rw [Complex.re_ofReal_mul, Complex.exp_ofReal_mul_I_re, Real.cos_neg]

theorem centred_im {v : ℕ → ℝ} {M : ℕ} (hv : ∀ k < 2 * M + 1, v (2 * M - k) = v k) (θ : ℝ) : (centred (2 * M + 1) v θ).im = 0 := by
  obtain ⟨S, hS⟩ : ∃ S, S = ∑ k ∈ Finset.range (2 * M + 1), v k * Real.sin (θ * ((k : ℝ) - M)) := ⟨_, rfl⟩
  have h1 : (centred (2 * M + 1) v θ).im = -S := by
    rw [centred_exp, Complex.im_sum, hS, ← Finset.sum_neg_distrib]
    refine Finset.sum_congr rfl fun k _ => ?_
    rw [Complex.im_ofReal_mul, Complex.exp_ofReal_mul_I_im, Real.sin_neg]
    ring
  have h2 : S = -S := by
    conv_lhs => rw [hS, ← Finset.sum_range_reflect]
    rw [hS, ← Finset.sum_neg_distrib]
    refine Finset.sum_congr rfl fun k hk => ?_
    have hk' : k < 2 * M + 1 := Finset.mem_range.1 hk
    rw [show 2 * M + 1 - 1 - k = 2 * M - k by omega, hv k hk', Nat.cast_sub (by omega)]
    push_cast
    rw [show θ * (2 * (M : ℝ) - k - M) = -(θ * (k - M)) by ring, Real.sin_neg]
    ring
  rw [h1]
  linarith

theorem dtft_symmetric {v : ℕ → ℝ} {M : ℕ} (hv : ∀ k < 2 * M + 1, v (2 * M - k) = v k) (θ : ℝ) :
    dtft (2 * M + 1) v θ = cosSum v M θ * Complex.exp (-(θ * M * Complex.I)) := by
  have h : centred (2 * M + 1) v θ = (cosSum v M θ : ℂ) := by
    apply Complex.ext
    · rw [centred_re_cosSum, Complex.ofReal_re]
    · rw [centred_im hv, Complex.ofReal_im]
  rw [← h]
  unfold centred
  rw [mul_right_comm, ← Complex.exp_add,
    show (θ : ℂ) * (((2 * M + 1 : ℕ) - 1) / 2) * Complex.I + -(θ * M * Complex.I) = 0 by push_cast; ring, Complex.exp_zero, one_mul]

theorem sum_map_range {R : Type} [AddCommMonoid R] (n : ℕ) (g : ℕ → R) : ((List.range n).map g).sum = ∑ k ∈ Finset.range n, g k := by
  induction n with
  | zero => simp
  | succ n ih => rw [List.range_succ, List.map_append, List.sum_append, ih, Finset.sum_range_succ]; simp

theorem tapsOf_response (cs : List ℝ) (ω : ℝ) : tapResponse (tapsOf cs) ω = dtft cs.length (fun k => cs.getD k 0) ω := by
  unfold tapResponse tapsOf dtft
  rw [List.map_map, sum_map_range]
  rfl

theorem tapsOf_le {T : Type} [FloatOps T] {cs : List T} {n : ℕ} (h : cs.length ≤ n + 1) : ∀ p ∈ tapsOf cs, p.2 ≤ n := by
  intro p hp
  obtain ⟨k, hk, rfl⟩ := List.mem_map.1 hp
  have := List.mem_range.1 hk
  show k ≤ n
  omega

theorem delayed_phasor (r ω A φ : ℝ) (M n : ℕ) :
    phasor (r * Complex.exp (-(ω * M * Complex.I)) * (A * Complex.exp (φ * Complex.I))) ω n = r * (A * Real.cos (ω * (n - M) + φ)) := by
  rw [mul_assoc, phasor_real_mul]
  congr 1
  have e : Complex.exp (-(ω * M * Complex.I)) * (A * Complex.exp (φ * Complex.I)) = A * Complex.exp (((φ - ω * M : ℝ) : ℂ) * Complex.I) := by
    rw [mul_left_comm, ← Complex.exp_add]
    congr 2
    push_cast
    ring
  rw [e, phasor_input]
  congr 2
  ring

/-- What comes out of symmetric taps. -/
theorem symmetric_output {σ : Type} [Processor σ ℝ] [TappableDelayLine σ ℝ] {s : σ} {cs : List ℝ} {M : ℕ} (hl : cs.length = 2 * M + 1)
    (hs : IsTapFir b (tapsOf cs) s) (hv : ∀ k < 2 * M + 1, cs.getD (2 * M - k) 0 = cs.getD k 0) (ω : ℝ) {A φ : ℝ} {x y : ℕ → ℝ}
    (hx : ∀ n : ℕ, x n = A * Real.cos (ω * n + φ)) (hy : Gathers b (tapsOf cs) s x y) {n : ℕ} (hn : 2 * M ≤ n) :
    y n = cosSum (fun k => cs.getD k 0) M ω * (A * Real.cos (ω * (n - M) + φ)) := by
  rw [(hs x y).mp hy, input_phasor hx, fir_phasor (tapsOf_le (by omega)), tapsOf_response, hl, dtft_symmetric hv, delayed_phasor]

/-! ## Hann and Blackman -/

/-- The antiderivative of the envelope of the spectrum of a sum of cosines. -/
noncomputable def logSum (a : List ℝ) (N : ℕ) (θ : ℝ) : ℝ :=
  ∑ k ∈ Finset.range a.length, a.getD k 0 * Real.log (Real.sin (θ / 2) ^ 2 - Real.sin (k * (Real.pi / N)) ^ 2)

theorem designRipple_eq (a : List ℝ) (N : ℕ) (t : ℝ) : designRipple a N t = (logSum a N t - logSum a N Real.pi) / Real.pi := by
  unfold designRipple logSum
  rw [← Finset.sum_sub_distrib]
  congr 1
  refine Finset.sum_congr rfl fun k _ => ?_
  rw [Real.sin_pi_div_two, one_pow, mul_sub]

theorem hasDerivAt_logSum {a : List ℝ} {N : ℕ} {θ : ℝ} (h : OffLines a N (θ / 2)) :
    HasDerivAt (logSum a N) (Real.sin θ / 2 * poles a N (θ / 2)) θ := by
  unfold logSum poles
  rw [Finset.mul_sum]
  refine HasDerivAt.fun_sum fun k hk => ?_
  have h1 : HasDerivAt (fun θ : ℝ => θ / 2) (1 / 2) θ := (hasDerivAt_id' θ).div_const 2
  have h2 := ((h1.sin).fun_pow 2).sub_const (Real.sin (k * (Real.pi / N)) ^ 2)
  have h3 := (h2.log (sub_ne_zero.mpr (h k (Finset.mem_range.1 hk)))).const_mul (a.getD k 0)
  refine h3.congr_deriv ?_
  have : Real.sin θ = 2 * Real.sin (θ / 2) * Real.cos (θ / 2) := by rw [← Real.sin_two_mul]; congr 1; ring
  rw [this]
  norm_num
  ring

/-- Four bins away from the middle of the main lobe. -/
theorem sin_four_sq (d : ℝ) : Real.sin (4 * d) ^ 2 = 16 * Real.sin d ^ 2 * (1 - Real.sin d ^ 2) * (1 - 2 * Real.sin d ^ 2) ^ 2 := by
  rw [show 4 * d = 2 * (2 * d) by ring, sin_two_sq, sin_two_sq]
  ring

theorem bins_facts {M : ℕ} (hM : 32 ≤ M) {c : ℝ} (hc : 4 * (Real.pi / (2 * M : ℕ)) ≤ c) (hc2 : c ≤ Real.pi / 2) :
    0 < Real.sin (Real.pi / (2 * M : ℕ)) ^ 2 ∧ Real.sin (Real.pi / (2 * M : ℕ)) ^ 2 ≤ 1 / 400 ∧
      15 * Real.sin (Real.pi / (2 * M : ℕ)) ^ 2 ≤ Real.sin c ^ 2 := by
  have hpi := Real.pi_pos
  have hM' : (32 : ℝ) ≤ M := by exact_mod_cast hM
  obtain ⟨d, hd⟩ : ∃ d, d = Real.pi / (2 * M : ℕ) := ⟨_, rfl⟩
  rw [← hd] at hc ⊢
  have hd0 : 0 < d := by rw [hd]; push_cast; positivity
  have hd1 : d ≤ 1 / 20 := by
    rw [hd]
    push_cast
    rw [div_le_iff₀ (by positivity)]
    have := Real.pi_lt_d2
    norm_num at this ⊢
    linarith
  have hs0 : 0 < Real.sin d := Real.sin_pos_of_pos_of_lt_pi hd0 (by linarith [Real.pi_gt_three])
  have hs1 : Real.sin d ≤ 1 / 20 := (Real.sin_le hd0.le).trans hd1
  have hsq : Real.sin d ^ 2 ≤ 1 / 400 := by nlinarith
  refine ⟨by positivity, hsq, ?_⟩
  have h4 : Real.sin (4 * d) ^ 2 ≤ Real.sin c ^ 2 := by
    have e1 : Real.sin (4 * d) ≤ Real.sin c := Real.sin_le_sin_of_le_of_le_pi_div_two (by linarith) hc2 hc
    have e2 : 0 ≤ Real.sin (4 * d) := Real.sin_nonneg_of_nonneg_of_le_pi (by linarith) (by linarith)
    exact pow_le_pow_left₀ e2 e1 2
  refine le_trans ?_ h4
  rw [sin_four_sq]
  obtain ⟨D, hD⟩ : ∃ D, D = Real.sin d ^ 2 := ⟨_, rfl⟩
  rw [← hD] at hsq ⊢
  have hD0 : 0 ≤ D := by rw [hD]; positivity
  have : 15 / 16 ≤ (1 - D) * (1 - 2 * D) ^ 2 := by nlinarith
  nlinarith

theorem poles_nonpos {kind : WindowKind} (hk : kind = .hann ∨ kind = .blackman) {M : ℕ} (hM : 32 ≤ M) {c : ℝ}
    (hc : 4 * (Real.pi / (2 * M : ℕ)) ≤ c) (hc2 : c ≤ Real.pi / 2) :
    OffLines (cosineCoefs kind) (2 * M) c ∧ poles (cosineCoefs kind) (2 * M) c ≤ 0 := by
  obtain ⟨f1, f2, f3⟩ := bins_facts hM hc hc2
  have hd0 : 0 < Real.pi / (2 * M : ℕ) := by
    have := Real.pi_pos
    have : (0 : ℝ) < (2 * M : ℕ) := by exact_mod_cast (by omega)
    positivity
  have hoff : OffLines (cosineCoefs kind) (2 * M) c := by
    refine offLines ?_ (by linarith) hc2
    rcases hk with rfl | rfl <;> norm_num [cosineCoefs] <;> push_cast at hc hd0 ⊢ <;> linarith
  refine ⟨hoff, ?_⟩
  have hs : 0 < Real.sin c ^ 2 := by linarith
  rcases hk with rfl | rfl
  · have h1 : Real.sin c ^ 2 - Real.sin (Real.pi / (2 * M : ℕ)) ^ 2 > 0 := by linarith
    have e : poles (cosineCoefs .hann) (2 * M) c = -(0.5 * Real.sin (Real.pi / (2 * M : ℕ)) ^ 2 / (Real.sin c ^ 2 * (Real.sin c ^ 2 - Real.sin (Real.pi / (2 * M : ℕ)) ^ 2))) := by
      have h1' := h1.ne'
      have hs' := hs.ne'
      simp only [poles, cosineCoefs, List.length_cons, List.length_nil, Finset.sum_range_succ, Finset.sum_range_zero, List.getD_cons_zero,
        List.getD_cons_succ, Nat.cast_zero, zero_mul, Real.sin_zero, Nat.cast_one, one_mul]
      norm_num
      norm_num at h1' hs'
      field_simp
      ring
    rw [e, neg_nonpos]
    positivity
  · have e := poles_blackman hoff
    have t2 := sin_two_sq (Real.pi / (2 * M : ℕ))
    obtain ⟨D, hD⟩ : ∃ D, D = Real.sin (Real.pi / (2 * M : ℕ)) ^ 2 := ⟨_, rfl⟩
    obtain ⟨s, hs'⟩ : ∃ s, s = Real.sin c ^ 2 := ⟨_, rfl⟩
    rw [← hD] at f1 f2 f3 t2 e
    rw [← hs'] at f3 hs e
    rw [t2] at e
    have n1 : D * (0.42 * (4 * D * (1 - D)) - (0.18 + 0.32 * D) * s) ≤ 0 := by
      refine mul_nonpos_of_nonneg_of_nonpos f1.le ?_
      nlinarith
    have p1 : 0 ≤ (s - D) * (s - 4 * D * (1 - D)) := mul_nonneg (by linarith) (by nlinarith)
    have := div_nonpos_of_nonpos_of_nonneg n1 p1
    rw [← e] at this
    by_contra hcon
    push Not at hcon
    nlinarith [mul_pos hs hcon]

theorem cosSum_shape_le [Target] {kind : WindowKind} (hk : kind = .hann ∨ kind = .blackman) {M : ℕ} (hM : 32 ≤ M) (hn : 2 * M + 1 < usizeMod)
    {o : ℕ → Option ℝ} (h : Yields b kind (2 * M + 1) o) {θ : ℝ} (h1 : 8 * (Real.pi / (2 * M : ℕ)) ≤ θ) (h2 : θ ≤ Real.pi) :
    HasDerivAt (logSum (cosineCoefs kind) (2 * M)) (Real.sin θ / 2 * poles (cosineCoefs kind) (2 * M) (θ / 2)) θ ∧
      |cosSum (items o) M θ| ≤ -(Real.sin θ / 2 * poles (cosineCoefs kind) (2 * M) (θ / 2)) := by
  obtain ⟨hoff, hp⟩ := poles_nonpos hk hM (c := θ / 2) (by linarith) (by linarith)
  refine ⟨hasDerivAt_logSum hoff, ?_⟩
  have hne : cosineCoefs kind ≠ [] := by rcases hk with rfl | rfl <;> simp [cosineCoefs]
  have h0 : items o 0 = 0 := by
    rcases hk with rfl | rfl
    · exact (C129_ends hn).1 h
    · exact (C129_ends hn).2.2.1 h
  have hsp := congrArg Complex.re (C129_spectrum hne (by omega) hn h hoff)
  rw [show 2 * (θ / 2) = θ by ring, centred_re_cosSum, Complex.ofReal_re, h0, zero_mul, zero_add] at hsp
  have hd0 : 0 ≤ Real.pi / (2 * M : ℕ) := by have := Real.pi_pos; positivity
  have hs : 0 ≤ Real.sin θ := Real.sin_nonneg_of_nonneg_of_le_pi (by linarith) h2
  rw [hsp, show Real.sin ((2 * M : ℕ) * (θ / 2)) * Real.sin θ / 2 * poles (cosineCoefs kind) (2 * M) (θ / 2) =
    Real.sin ((2 * M : ℕ) * (θ / 2)) * (Real.sin θ / 2 * poles (cosineCoefs kind) (2 * M) (θ / 2)) by ring, abs_mul]
  have hq : Real.sin θ / 2 * poles (cosineCoefs kind) (2 * M) (θ / 2) ≤ 0 := mul_nonpos_of_nonneg_of_nonpos (by linarith) hp
  rw [abs_of_nonpos hq]
  exact mul_le_of_le_one_left (by linarith) (Real.abs_sin_le_one _)

theorem getD_applied [Target] {kind : WindowKind} {xs cs : List ℝ} (hn : xs.length < usizeMod) {o : ℕ → Option ℝ} (h : Yields b kind xs.length o)
    (hc : applyWindow b xs (.shaped kind) = .ok cs) : cs.length = xs.length ∧ ∀ i < xs.length, cs.getD i 0 = xs.getD i 0 * items o i := by
  obtain ⟨ys, e1, e2, e3⟩ := C57_pointwise b kind xs hn o h
  obtain rfl := Except.ok.inj (hc.symm.trans e1)
  refine ⟨e2, fun i hi => ?_⟩
  obtain ⟨g, g1, g2⟩ := e3 i hi
  rw [List.getD_eq_getElem?_getD, g2, List.getD_eq_getElem?_getD, List.getElem?_eq_getElem hi, items, g1]
  exact mul_comm _ _

theorem idealTap_neg (Ω : ℝ) (m : ℤ) : idealTap Ω (-m) = idealTap Ω m := by
  unfold idealTap
  simp only [neg_eq_zero]
  split_ifs
  · rfl
  · push_cast
    rw [mul_neg, Real.sin_neg, mul_neg, neg_div_neg_eq]

theorem idealTaps_getD {M : ℕ} (Ω : ℝ) {k : ℕ} (hk : k < 2 * M + 1) : (idealTaps M Ω).getD k 0 = idealTap Ω (k - M) := by
  unfold idealTaps
  rw [List.getD_eq_getElem?_getD, List.getElem?_map, List.getElem?_range hk]
  rfl

/-- The weights of the design: symmetric, and their centred spectrum is that of `nearlyIdeal_of`. -/
theorem design_facts [Target] {kind : WindowKind} {M : ℕ} (hM : 1 ≤ M) (hn : 2 * M + 1 < usizeMod) {o : ℕ → Option ℝ} (h : Yields b kind (2 * M + 1) o) {Ω : ℝ}
    {cs : List ℝ} (hc : applyWindow b (idealTaps M Ω) (.shaped kind) = .ok cs) :
    cs.length = 2 * M + 1 ∧ (∀ k < 2 * M + 1, cs.getD (2 * M - k) 0 = cs.getD k 0) ∧ (∀ k < 2 * M + 1, cs.getD k 0 = idealTap Ω (k - M) * items o k) ∧
      ∀ ω, cosSum (fun k => cs.getD k 0) M ω = cosSum (fun k => idealTap Ω (k - M) * items o k) M ω := by
  have hl : (idealTaps M Ω).length = 2 * M + 1 := by simp [idealTaps]
  rw [← hl] at h hn
  obtain ⟨e1, e2⟩ := getD_applied hn h hc
  rw [hl] at e1 e2 hn h
  have e3 : ∀ k < 2 * M + 1, cs.getD k 0 = idealTap Ω (k - M) * items o k := fun k hk => by rw [e2 k hk, idealTaps_getD Ω hk]
  refine ⟨e1, fun k hk => ?_, e3, fun ω => Finset.sum_congr rfl fun k hk => by beta_reduce; rw [e3 k (Finset.mem_range.1 hk)]⟩
  have hsym : items o (2 * M - k) = items o k := by
    unfold items
    rw [C58_symmetric b kind (2 * M + 1) (by omega) hn o h k hk]
    congr 2
  rw [e3 k hk, e3 (2 * M - k) (by omega), hsym, Nat.cast_sub (by omega), ← idealTap_neg Ω (k - M)]
  congr 2
  push_cast
  ring

/-- **C158.** The ideal low-pass response with edge `Ω`, cut off by a Hann or Blackman window of `2M + 1` points, as the taps of a delay line: `apply_window` makes
the weights, and a sinusoid of any frequency comes out delayed by exactly `M` samples, multiplied by a gain that is within `designRipple` of one below
`Ω - t` and of zero above `Ω + t`, for every `t` of at least four bins. -/
theorem C158_lowpass [Target] {kind : WindowKind} (hk : kind = .hann ∨ kind = .blackman) {M : ℕ} (hM : 32 ≤ M) (hn : 2 * M + 1 < usizeMod)
    {Ω : ℝ} (hΩ : 0 ≤ Ω) : ∃ cs, applyWindow b (idealTaps M Ω) (.shaped kind) = .ok cs ∧ cs.length = 2 * M + 1 ∧
      ∀ (σ : Type) [Processor σ ℝ] [TappableDelayLine σ ℝ] (s : σ), IsTapFir b (tapsOf cs) s → ∀ ω, ∃ r,
        (∀ t, 4 * (2 * Real.pi / (2 * M : ℕ)) ≤ t → t ≤ Real.pi → Ω ≤ Real.pi - t → NearlyIdeal Ω t (designRipple (cosineCoefs kind) (2 * M) t) ω r) ∧
        ∀ A φ x y, (∀ n : ℕ, x n = A * Real.cos (ω * n + φ)) → Gathers b (tapsOf cs) s x y → ∀ n ≥ 2 * M, y n = r * (A * Real.cos (ω * (n - M) + φ)) := by
  have hpi := Real.pi_pos
  obtain ⟨o, h⟩ := (C55_exactly_size_items (T := ℝ) b kind (2 * M + 1) hn).1
  have hl : (idealTaps M Ω).length = 2 * M + 1 := by simp [idealTaps]
  obtain ⟨cs, hc, -⟩ := C57_pointwise b kind (idealTaps M Ω) (by rw [hl]; exact hn) o (by rw [hl]; exact h)
  obtain ⟨f1, f2, -, f4⟩ := design_facts (by omega) hn h hc
  refine ⟨cs, hc, f1, fun σ _ _ s hs ω => ⟨cosSum (fun k => cs.getD k 0) M ω, fun t ht1 ht2 hΩ2 => ?_, fun A φ x y hx hy n hn' =>
    symmetric_output f1 hs f2 ω hx hy hn'⟩⟩
  have ht1' : 8 * (Real.pi / (2 * M : ℕ)) ≤ t := le_trans (le_of_eq (by ring)) ht1
  have hd0 : 0 ≤ Real.pi / (2 * M : ℕ) := by positivity
  rw [f4, designRipple_eq]
  refine nearlyIdeal_of (F' := fun θ => Real.sin θ / 2 * poles (cosineCoefs kind) (2 * M) (θ / 2)) ?_ (by linarith) ht2
    (fun θ hθ => (cosSum_shape_le hk hM hn h (ht1'.trans hθ.1) hθ.2).1) (fun θ hθ => (cosSum_shape_le hk hM hn h (ht1'.trans hθ.1) hθ.2).2) hΩ hΩ2 ω
  unfold items
  rw [C60_centre b kind M (by omega) hn o h]
  rfl

theorem ripple_hann {D s : ℝ} (h0 : 0 < D) (h1 : D ≤ 1 / 400) (h2 : 15 * D ≤ s) :
    0.5 * (Real.log (s - 0 ^ 2) - Real.log (1 - 0 ^ 2)) + -0.5 * (Real.log (s - D) - Real.log (1 - D)) ≤ 0.171 * Real.pi * (D / s) := by
  have hs : 0 < s := by linarith
  have e : Real.log s - Real.log (s - D) ≤ D / (s - D) := by
    have hpos : 0 < s / (s - D) := div_pos hs (by linarith)
    have := Real.log_le_sub_one_of_pos hpos
    rw [Real.log_div hs.ne' (by linarith : s - D ≠ 0)] at this
    refine this.trans (le_of_eq ?_)
    have : s - D ≠ 0 := by linarith
    field_simp
    ring
  have e2 : D / (s - D) ≤ 15 / 14 * (D / s) := by
    rw [div_le_iff₀ (by linarith : 0 < s - D)]
    have : 15 / 14 * (D / s) * (s - D) = 15 / 14 * D * ((s - D) / s) := by ring
    rw [this]
    have h3 : 14 / 15 ≤ (s - D) / s := by rw [le_div_iff₀ hs]; linarith
    nlinarith
  have h3 : Real.log (1 - D) ≤ 0 := Real.log_nonpos (by linarith) (by linarith)
  have hx : 0 ≤ D / s := by positivity
  have hpi := Real.pi_gt_d4
  norm_num at hpi ⊢
  nlinarith

theorem ripple_blackman {D s E : ℝ} (h0 : 0 < D) (h1 : D ≤ 1 / 400) (h2 : 15 * D ≤ s) (hE : E = 4 * D * (1 - D)) :
    0.42 * (Real.log (s - 0 ^ 2) - Real.log (1 - 0 ^ 2)) + -0.5 * (Real.log (s - D) - Real.log (1 - D)) + 0.08 * (Real.log (s - E) - Real.log (1 - E)) ≤
      0.069 * Real.pi * (D / s) := by
  have hs : 0 < s := by linarith
  have hE1 : E ≤ 4 * D := by rw [hE]; nlinarith
  have hE0 : 3.99 * D ≤ E := by rw [hE]; norm_num; nlinarith
  have e : Real.log s - Real.log (s - D) ≤ D / (s - D) := by
    have hpos : 0 < s / (s - D) := div_pos hs (by linarith)
    have := Real.log_le_sub_one_of_pos hpos
    rw [Real.log_div hs.ne' (by linarith : s - D ≠ 0)] at this
    refine this.trans (le_of_eq ?_)
    have : s - D ≠ 0 := by linarith
    field_simp
    ring
  have e2 : D / (s - D) ≤ 15 / 14 * (D / s) := by
    rw [div_le_iff₀ (by linarith : 0 < s - D)]
    have : 15 / 14 * (D / s) * (s - D) = 15 / 14 * D * ((s - D) / s) := by ring
    rw [this]
    have h3 : 14 / 15 ≤ (s - D) / s := by rw [le_div_iff₀ hs]; linarith
    nlinarith
  have e3 : Real.log (s - E) - Real.log s ≤ -(3.99 * (D / s)) := by
    have hpos : 0 < (s - E) / s := div_pos (by linarith) hs
    have := Real.log_le_sub_one_of_pos hpos
    rw [Real.log_div (by linarith : s - E ≠ 0) hs.ne'] at this
    refine this.trans ?_
    rw [show (s - E) / s - 1 = -(E / s) by field_simp; ring, neg_le_neg_iff, show 3.99 * (D / s) = (3.99 * D) / s by ring]
    exact div_le_div_of_nonneg_right hE0 hs.le
  have e4 : 0.5 * Real.log (1 - D) ≤ 0.08 * Real.log (1 - E) := by
    have a1 := Real.log_le_sub_one_of_pos (show 0 < 1 - D by linarith)
    have a2 := Real.one_sub_inv_le_log_of_pos (show 0 < 1 - E by linarith)
    have a3 : 1 - (1 - E)⁻¹ ≥ -(1.02 * E) := by
      have : (1 - E)⁻¹ ≤ 1 + 1.02 * E := by
        rw [inv_le_iff_one_le_mul₀ (by linarith)]
        norm_num
        nlinarith
      linarith
    norm_num at a3 ⊢
    linarith
  have hx : 0 ≤ D / s := by positivity
  have hpi := Real.pi_gt_d4
  norm_num at hpi e3 e4 ⊢
  nlinarith

/-- **C158.** How small the ripple is: it falls with the square of the distance from the edge, and at four bins it is 0.0114 for Hann and 0.0046 for Blackman at most. -/
theorem C158_ripple {M : ℕ} (hM : 32 ≤ M) {t : ℝ} (ht : 4 * (2 * Real.pi / (2 * M : ℕ)) ≤ t) (ht2 : t ≤ Real.pi) :
    designRipple (cosineCoefs .hann) (2 * M) t ≤ 0.171 * (Real.sin (Real.pi / (2 * M : ℕ)) ^ 2 / Real.sin (t / 2) ^ 2) ∧
    designRipple (cosineCoefs .blackman) (2 * M) t ≤ 0.069 * (Real.sin (Real.pi / (2 * M : ℕ)) ^ 2 / Real.sin (t / 2) ^ 2) ∧
    Real.sin (Real.pi / (2 * M : ℕ)) ^ 2 / Real.sin (t / 2) ^ 2 ≤ 1 / 15 := by
  have hpi := Real.pi_pos
  obtain ⟨f1, f2, f3⟩ := bins_facts hM (c := t / 2) (by rw [show 2 * Real.pi / (2 * M : ℕ) = 2 * (Real.pi / (2 * M : ℕ)) by ring] at ht; linarith) (by linarith)
  have t2 := sin_two_sq (Real.pi / (2 * M : ℕ))
  refine ⟨?_, ?_, ?_⟩
  · unfold designRipple
    rw [div_le_iff₀ hpi]
    simp only [cosineCoefs, List.length_cons, List.length_nil, Finset.sum_range_succ, Finset.sum_range_zero, List.getD_cons_zero, List.getD_cons_succ,
      Nat.cast_zero, zero_mul, Real.sin_zero, Nat.cast_one, one_mul, zero_add]
    exact (ripple_hann f1 f2 f3).trans (le_of_eq (by ring))
  · unfold designRipple
    rw [div_le_iff₀ hpi]
    simp only [cosineCoefs, List.length_cons, List.length_nil, Finset.sum_range_succ, Finset.sum_range_zero, List.getD_cons_zero, List.getD_cons_succ,
      Nat.cast_zero, zero_mul, Real.sin_zero, Nat.cast_one, one_mul, zero_add]
    exact (ripple_blackman f1 f2 f3 t2).trans (le_of_eq (by ring))
  · rw [div_le_iff₀ (by linarith)]
    linarith

/-- A filter of 65 taps that keeps what is below a quarter of the sample rate, in a `Delay`: half the sample rate is damped to less than one part in eighty. -/
example [Target] (hm : Allocatable ℝ 64) (hn : 65 < usizeMod) : ∃ cs, applyWindow b (idealTaps 32 (Real.pi / 2)) (.shaped .hann) = .ok cs ∧
    ∃ s : Delay ℝ, Delay.new b 0 64 = .ok s ∧ ∀ y, Gathers b (tapsOf cs) s (fun n : ℕ => Real.cos (Real.pi * n)) y → ∀ n ≥ 64, |y n| ≤ 1 / 80 := by
  have hpi := Real.pi_pos
  obtain ⟨cs, h1, hl, h2⟩ := C158_lowpass (b := b) (kind := .hann) (.inl rfl) (M := 32) le_rfl hn (Ω := Real.pi / 2) (by positivity)
  have ht : ∀ p ∈ tapsOf cs, p.2 ≤ 64 := tapsOf_le (by omega)
  obtain ⟨s, hs, -⟩ := C116_delay_gather (b := b) (d := 0) hm (tapsOf cs) ht (fun _ => 0)
  obtain ⟨r, h3, h4⟩ := h2 _ s (C155_delay hm ht hs) Real.pi
  have h5 := (h3 (4 * (2 * Real.pi / (2 * 32 : ℕ))) le_rfl (by norm_num; linarith) (by norm_num; linarith)).2
    (by rw [abs_of_pos hpi]; norm_num; linarith) (by rw [abs_of_pos hpi])
  obtain ⟨c1, -, c2⟩ := C158_ripple (M := 32) le_rfl (t := 4 * (2 * Real.pi / (2 * 32 : ℕ))) le_rfl (by norm_num; linarith)
  refine ⟨cs, h1, s, hs, fun y hy n hn' => ?_⟩
  rw [h4 1 0 _ y (fun n => by rw [one_mul, add_zero]) hy n hn', abs_mul, one_mul]
  refine (mul_le_of_le_one_right (abs_nonneg _) (Real.abs_cos_le_one _)).trans (h5.trans (c1.trans ?_))
  norm_num at c2 ⊢
  linarith

/-! ## Floating point -/

section float
variable {f : Fmt} {L : Libm f} {k : ℝ}

theorem abs_idealTap_le {Ω : ℝ} (h0 : 0 ≤ Ω) (h1 : Ω ≤ Real.pi) (m : ℤ) : |idealTap Ω m| ≤ 1 := by
  have hpi := Real.pi_pos
  unfold idealTap
  split_ifs with h
  · rw [abs_of_nonneg (by positivity), div_le_one hpi]; exact h1
  · have hm : (m : ℝ) ≠ 0 := by exact_mod_cast h
    rw [abs_div, div_le_one (abs_pos.mpr (mul_ne_zero hpi.ne' hm))]
    refine (Real.abs_sin_le_abs).trans ?_
    rw [abs_mul, abs_mul, abs_of_nonneg h0, abs_of_pos hpi]
    exact mul_le_mul_of_nonneg_right h1 (abs_nonneg _)

theorem exactTaps_tapsOf (cs : List (Fl L)) : exactTaps (tapsOf cs) = tapsOf (cs.map Fl.toReal) := by
  unfold exactTaps tapsOf
  rw [List.map_map, List.length_map]
  refine List.map_congr_left fun i hi => ?_
  have hi' := List.mem_range.1 hi
  simp [List.getD_eq_getElem?_getD, List.getElem?_eq_getElem hi']

theorem weight_tapsOf_le {cs : List ℝ} {B : ℝ} (h : ∀ i < cs.length, |cs.getD i 0| ≤ B) : weight (tapsOf cs) ≤ cs.length * B := by
  unfold weight tapsOf
  rw [List.map_map, sum_map_range]
  refine (Finset.sum_le_sum fun i hi => h i (Finset.mem_range.1 hi)).trans_eq ?_
  rw [Finset.sum_const, Finset.card_range, nsmul_eq_mul]

/-- **C158**, floating point. The design computed with `apply_window` from samples of the ideal response that are off by at most `ε`, and the filter run in floating point on a
sinusoid sampled up to `η`: the output is that of a filter as good as in exact arithmetic, up to the rounding errors of weights and sums. -/
theorem C158_float [Target] (hf : f.Ordinary) (hL : AccurateCos L k) (hk0 : 0 ≤ k) (hk : (k + 120) * f.u ≤ 1 / 8) {kind : WindowKind}
    (hkind : kind = .hann ∨ kind = .blackman) {M : ℕ} (hM : 32 ≤ M) (hn : 2 * M + 1 < usizeMod) (hN : 4 * ((2 * M + 1 : ℕ) * f.u) ≤ 1) {Ω ε : ℝ} (hΩ : 0 ≤ Ω)
    (hΩ1 : Ω ≤ Real.pi) (hε : 1 + ε ≤ 2 ^ (f.emax - 1)) {hs : List (Fl L)} (hl : hs.length = 2 * M + 1)
    (hh : ∀ i (hi : i < hs.length), hs[i].Finite ∧ |hs[i].toReal - idealTap Ω ((i : ℤ) - M)| ≤ ε) {δ W : ℝ} (hδ : δ = (k + 52) * f.u * (1 + ε) + f.tiny + ε)
    (hW : W = (2 * M + 1 : ℕ) * (1 + δ)) :
    ∃ cs, applyWindow b hs (.shaped kind) = .ok cs ∧ cs.length = 2 * M + 1 ∧
      ∀ (σ : Type) [Processor σ (Fl L)] [TappableDelayLine σ (Fl L)] (s : σ), IsTapFir b (tapsOf cs) s → ∀ ω, ∃ r,
        (∀ t, 4 * (2 * Real.pi / (2 * M : ℕ)) ≤ t → t ≤ Real.pi → Ω ≤ Real.pi - t → NearlyIdeal Ω t (designRipple (cosineCoefs kind) (2 * M) t) ω r) ∧
        ∀ A φ η x y, 0 ≤ A → SampledSine x A ω φ η → 5 * (W * (A + η) + (2 * M + 1 : ℕ) * f.tiny) ≤ 2 ^ f.emax → Gathers b (tapsOf cs) s x y →
          ∀ n ≥ 2 * M, (y n).Finite ∧ |(y n).toReal - r * (A * Real.cos (ω * (n - M) + φ))| ≤
            (2 * M + 1 : ℕ) * δ * A + (W * η + 4 * (2 * M + 1 : ℕ) * (f.u * (W * (A + η)) + f.tiny)) := by
  have hpi := Real.pi_pos
  have hu := f.u_pos
  have ht := f.tiny_pos
  have hε0 : 0 ≤ ε := (abs_nonneg _).trans (hh 0 (by omega)).2
  have hδ0 : 0 ≤ δ := by rw [hδ]; positivity
  obtain ⟨o, h⟩ := (C55_exactly_size_items (T := ℝ) b kind (2 * M + 1) hn).1
  obtain ⟨ds, hds, -, -⟩ := C158_lowpass (b := b) hkind hM hn hΩ
  obtain ⟨f1, f2, f3, f4⟩ := design_facts (by omega) hn h hds
  have hlev : ∀ i (hi : i < hs.length), |hs[i].toReal| ≤ 1 + ε := fun i hi => by
    have e1 := (hh i hi).2
    have e2 := abs_idealTap_le hΩ hΩ1 ((i : ℤ) - M)
    have e3 := abs_sub_abs_le_abs_sub hs[i].toReal (idealTap Ω ((i : ℤ) - M))
    linarith
  obtain ⟨cs, g1, g2, g3⟩ := C97_apply hf hL hk0 hk b kind hs (by omega) (by omega) (fun x hx' => by
    obtain ⟨i, hi, rfl⟩ := List.mem_iff_getElem.mp hx'
    exact ⟨(hh i hi).1, (hlev i hi).trans hε⟩)
  have hcl : ∀ i < 2 * M + 1, (cs.getD i zero).Finite ∧ |(cs.map Fl.toReal).getD i 0 - ds.getD i 0| ≤ δ ∧ |ds.getD i 0| ≤ 1 := by
    intro i hi
    obtain ⟨y, q1, q2, q3⟩ := g3 i (by omega)
    have e0 : (cs.map Fl.toReal).getD i 0 = y.toReal := by
      rw [List.getD_eq_getElem?_getD, List.getElem?_map, q1]; rfl
    have e1 : cs.getD i zero = y := by rw [List.getD_eq_getElem?_getD, q1]; rfl
    rw [e0, e1, f3 i hi, items_eq hn h hi, mul_comm (idealTap Ω _)]
    have q3 : |y.toReal - shape kind (2 * M + 1 : ℕ) i * hs[i].toReal| ≤ (k + 52) * f.u * |hs[i].toReal| + f.tiny := by
      have e : (hs.length : ℝ) = (2 * M + 1 : ℕ) := by rw [hl]
      rwa [e] at q3
    have s1 := abs_shape_le (kind := kind) (show 2 ≤ 2 * M + 1 by omega) hi
    have s2 := (hh i (by omega)).2
    have s3 := hlev i (by omega)
    have s4 : |shape kind (2 * M + 1 : ℕ) i * hs[i].toReal - shape kind (2 * M + 1 : ℕ) i * idealTap Ω ((i : ℤ) - M)| ≤ ε := by
      rw [← mul_sub, abs_mul]
      exact (mul_le_of_le_one_left (abs_nonneg _) s1).trans s2
    have s5 : (k + 52) * f.u * |hs[i].toReal| ≤ (k + 52) * f.u * (1 + ε) := mul_le_mul_of_nonneg_left s3 (by positivity)
    have s6 := abs_sub_le y.toReal (shape kind (2 * M + 1 : ℕ) i * hs[i].toReal) (shape kind (2 * M + 1 : ℕ) i * idealTap Ω ((i : ℤ) - M))
    refine ⟨q2, by rw [hδ]; linarith, ?_⟩
    rw [abs_mul]
    exact mul_le_one₀ s1 (abs_nonneg _) (abs_idealTap_le hΩ hΩ1 _)
  have hcl2 : cs.length = 2 * M + 1 := by rw [g2, hl]
  have hfin : ∀ p ∈ tapsOf cs, p.1.Finite := by
    intro p hp
    obtain ⟨i, hi, rfl⟩ := List.mem_map.1 hp
    exact (hcl i (by rw [← hcl2]; exact List.mem_range.1 hi)).1
  have hwt : weight (exactTaps (tapsOf cs)) ≤ W := by
    rw [exactTaps_tapsOf, hW, ← hcl2, ← List.length_map (f := Fl.toReal)]
    refine weight_tapsOf_le fun i hi => ?_
    rw [List.length_map, hcl2] at hi
    obtain ⟨-, a1, a2⟩ := hcl i hi
    have := abs_sub_abs_le_abs_sub ((cs.map Fl.toReal).getD i 0) (ds.getD i 0)
    linarith
  have htl : (tapsOf cs).length = 2 * M + 1 := by rw [tapsOf, List.length_map, List.length_range, hcl2]
  refine ⟨cs, g1, hcl2, fun σ _ _ s hs' ω => ⟨cosSum (fun k => ds.getD k 0) M ω, ?_, ?_⟩⟩
  · intro t ht1 ht2 hΩ2
    have ht1' : 8 * (Real.pi / (2 * M : ℕ)) ≤ t := le_trans (le_of_eq (by ring)) ht1
    have hd0 : 0 ≤ Real.pi / (2 * M : ℕ) := by positivity
    rw [f4, designRipple_eq]
    refine nearlyIdeal_of (F' := fun θ => Real.sin θ / 2 * poles (cosineCoefs kind) (2 * M) (θ / 2)) ?_ (by linarith) ht2
      (fun θ hθ => (cosSum_shape_le hkind hM hn h (ht1'.trans hθ.1) hθ.2).1) (fun θ hθ => (cosSum_shape_le hkind hM hn h (ht1'.trans hθ.1) hθ.2).2) hΩ hΩ2 ω
    unfold items
    rw [C60_centre b kind M (by omega) hn o h]
    rfl
  · intro A φ η x y hA hx hov hy n hn'
    have hη : 0 ≤ η := (abs_nonneg _).trans (hx 0).2
    have hWA : weight (exactTaps (tapsOf cs)) * (A + η) ≤ W * (A + η) := mul_le_mul_of_nonneg_right hwt (by linarith)
    obtain ⟨r1, r2⟩ := C155_float_sine hs' hfin hA hx (by rw [htl]; exact hN) (by rw [htl]; linarith) hy (tapsOf_le (by omega) : ∀ p ∈ tapsOf cs, p.2 ≤ n)
    refine ⟨r1, ?_⟩
    rw [← phasor_gain, htl] at r2
    have hrd := delayed_phasor (cosSum (fun k => ds.getD k 0) M ω) ω A φ M n
    rw [← dtft_symmetric f2] at hrd
    have hdiff : |phasor (tapResponse (exactTaps (tapsOf cs)) ω * (A * Complex.exp (φ * Complex.I))) ω n -
        phasor (dtft (2 * M + 1) (fun k => ds.getD k 0) ω * (A * Complex.exp (φ * Complex.I))) ω n| ≤ (2 * M + 1 : ℕ) * δ * A := by
      rw [phasor_sub, ← sub_mul]
      refine (abs_phasor_le _ _ _).trans ?_
      rw [norm_mul, norm_mul, Complex.norm_exp_ofReal_mul_I, mul_one, Complex.norm_real, Real.norm_eq_abs, abs_of_nonneg hA]
      refine mul_le_mul_of_nonneg_right ?_ hA
      rw [exactTaps_tapsOf, tapsOf_response, List.length_map, hcl2]
      exact norm_dtft_sub_le (fun i hi => (hcl i hi).2.1) ω
    rw [← hrd]
    have e1 := abs_sub_le (y n).toReal (phasor (tapResponse (exactTaps (tapsOf cs)) ω * (A * Complex.exp (φ * Complex.I))) ω n)
      (phasor (dtft (2 * M + 1) (fun k => ds.getD k 0) ω * (A * Complex.exp (φ * Complex.I))) ω n)
    have e2 : weight (exactTaps (tapsOf cs)) * η ≤ W * η := mul_le_mul_of_nonneg_right hwt hη
    have e3 : 4 * ((2 * M + 1 : ℕ) : ℝ) * (f.u * (weight (exactTaps (tapsOf cs)) * (A + η)) + f.tiny) ≤ 4 * ((2 * M + 1 : ℕ) : ℝ) * (f.u * (W * (A + η)) + f.tiny) := by
      gcongr
    linarith

/-- In single precision, with a correctly rounded cosine and the ideal response rounded: a Blackman filter of 65 taps damps half the sample rate to less than
one part in 160. -/
example [Target] (hm : Allocatable (Fl (Libm.roundedCos binary32)) 64) (hn : 65 < usizeMod) : ∃ (hs cs : List (Fl (Libm.roundedCos binary32))),
    applyWindow b hs (.shaped .blackman) = .ok cs ∧ ∃ s : Delay (Fl (Libm.roundedCos binary32)), Delay.new b 0 64 = .ok s ∧
      ∀ y, Gathers b (tapsOf cs) s (fun n => if Even n then one else neg one) y → ∀ n ≥ 64, (y n).Finite ∧ |(y n).toReal| ≤ 1 / 160 := by
  have hpi := Real.pi_pos
  have hv : ∀ i : ℕ, ∃ v : Fl (Libm.roundedCos binary32), v.Finite ∧ |v.toReal - idealTap (Real.pi / 4) ((i : ℤ) - (32 : ℕ))| ≤ 1 / 2 ^ 23 := by
    intro i
    have a1 := abs_idealTap_le (Ω := Real.pi / 4) (by positivity) (by linarith) ((i : ℤ) - (32 : ℕ))
    obtain ⟨b1, b2⟩ := FP.ofReal_of_noOvf (f := binary32) (s := false) (noOvf32 (a1.trans (by norm_num)))
    refine ⟨FP.ofReal binary32 false _, b1, ?_⟩
    change |FP.toReal (FP.ofReal binary32 false _) - _| ≤ _
    rw [b2]
    refine (abs_rnd_sub_le_u _ _).trans ?_
    have c1 : binary32.u = 1 / 2 ^ 24 := by norm_num [Fmt.u, binary32]
    have c2 : binary32.tiny ≤ 1 / 2 ^ 24 := by norm_num [Fmt.tiny, binary32]
    rw [c1]
    norm_num at c2 ⊢
    linarith
  choose v hv1 hv2 using hv
  have hu : binary32.u = 1 / 2 ^ 24 := by norm_num [Fmt.u, binary32]
  have htn : binary32.tiny ≤ 1 / 2 ^ 100 := by norm_num [Fmt.tiny, binary32]
  have htn0 := binary32.tiny_pos
  obtain ⟨cs, h1, hl, h2⟩ := C158_float (b := b) (δ := _) (W := _) binary32_ordinary (Libm.roundedCos_accurate binary32_ordinary) (by norm_num) (by norm_num [hu]) (kind := .blackman)
    (.inr rfl) (M := 32) le_rfl hn (by norm_num [hu]) (Ω := Real.pi / 4) (ε := 1 / 2 ^ 23) (by positivity) (by linarith) (by norm_num [binary32])
    (hs := (List.range 65).map v) (by simp) (fun i hi => by
      rw [List.getElem_map, List.getElem_range]
      exact ⟨hv1 i, hv2 i⟩) rfl rfl
  have ht : ∀ p ∈ tapsOf cs, p.2 ≤ 64 := tapsOf_le (by omega)
  obtain ⟨s, hs, -⟩ := C116_delay_gather (b := b) (d := 0) hm (tapsOf cs) ht (fun _ => zero)
  obtain ⟨r, h3, h4⟩ := h2 _ s (C155_delay hm ht hs) Real.pi
  have h5 := (h3 (4 * (2 * Real.pi / (2 * 32 : ℕ))) le_rfl (by norm_num; linarith) (by norm_num; linarith)).2
    (by rw [abs_of_pos hpi]; norm_num; linarith) (by rw [abs_of_pos hpi])
  obtain ⟨-, c1, c2⟩ := C158_ripple (M := 32) le_rfl (t := 4 * (2 * Real.pi / (2 * 32 : ℕ))) le_rfl (by norm_num; linarith)
  refine ⟨_, cs, h1, s, hs, fun y hy n hn' => ?_⟩
  obtain ⟨d1, d2⟩ := h4 1 0 0 _ y zero_le_one alternating_sine (by
    have he : (2 : ℝ) ^ binary32.emax = 2 ^ (127 : ℤ) := rfl
    rw [hu, he]
    norm_num at htn ⊢
    linarith) hy n hn'
  refine ⟨d1, ?_⟩
  have e1 : |r * (1 * Real.cos (Real.pi * (n - (32 : ℕ)) + 0))| ≤ 0.069 / 15 := by
    rw [abs_mul, one_mul]
    refine (mul_le_of_le_one_right (abs_nonneg _) (Real.abs_cos_le_one _)).trans (h5.trans (c1.trans ?_))
    norm_num at c2 ⊢
    linarith
  have e2 := abs_sub_abs_le_abs_sub (y n).toReal (r * (1 * Real.cos (Real.pi * (n - (32 : ℕ)) + 0)))
  rw [hu] at d2
  norm_num at d2 e1 e2 htn ⊢
  linarith

end float

end Rasp
