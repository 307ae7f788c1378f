import Verif.Props.Pluck
import Verif.Props.Headroom
import Verif.Props.Periodic
import Verif.Spec.Resonance

/-!
# C131: frequency responses of feedback loops
-/

namespace Rasp
open Filter

/-! ## Sinusoids as complex amplitudes -/

/-- The sinusoid with complex amplitude `z` and angle `ω` per sample. -/
noncomputable def phasor (z : ℂ) (ω : ℝ) (n : ℕ) : ℝ := z.re * Real.cos (ω * n) - z.im * Real.sin (ω * n)

theorem phasor_polar (z : ℂ) (ω : ℝ) (n : ℕ) : phasor z ω n = ‖z‖ * Real.cos (ω * n + z.arg) := (norm_mul_cos_add_arg z _).symm

theorem abs_phasor_le (z : ℂ) (ω : ℝ) (n : ℕ) : |phasor z ω n| ≤ ‖z‖ := by
  rw [phasor_polar, abs_mul, abs_norm]
  exact mul_le_of_le_one_right (norm_nonneg _) (Real.abs_cos_le_one _)

theorem phasor_sub (z z' : ℂ) (ω : ℝ) (n : ℕ) : phasor z ω n - phasor z' ω n = phasor (z - z') ω n := by
  unfold phasor; rw [Complex.sub_re, Complex.sub_im]; ring

theorem phasor_add (z z' : ℂ) (ω : ℝ) (n : ℕ) : phasor (z + z') ω n = phasor z ω n + phasor z' ω n := by
  unfold phasor; rw [Complex.add_re, Complex.add_im]; ring

theorem phasor_real_mul (a : ℝ) (z : ℂ) (ω : ℝ) (n : ℕ) : phasor (a * z) ω n = a * phasor z ω n := by
  unfold phasor; rw [Complex.re_ofReal_mul, Complex.im_ofReal_mul]; ring

/-- A sinusoid of amplitude `A` and phase `φ`, multiplied by `‖H‖` and shifted by `arg H`. -/
theorem phasor_gain (H : ℂ) (A φ ω : ℝ) (n : ℕ) :
    phasor (H * (A * Complex.exp (φ * Complex.I))) ω n = ‖H‖ * A * Real.cos (ω * n + φ + H.arg) := by
  have h := norm_mul_cos_add_arg H (ω * n + φ)
  rw [show ‖H‖ * A * Real.cos (ω * n + φ + H.arg) = A * (‖H‖ * Real.cos (ω * n + φ + H.arg)) by ring, h]
  unfold phasor
  rw [Real.cos_add, Real.sin_add, Complex.mul_re H, Complex.mul_im H, Complex.re_ofReal_mul, Complex.im_ofReal_mul, Complex.exp_ofReal_mul_I_re,
    Complex.exp_ofReal_mul_I_im]
  ring

theorem phasor_input (A φ ω : ℝ) (n : ℕ) : phasor (A * Complex.exp (φ * Complex.I)) ω n = A * Real.cos (ω * n + φ) := by
  have := phasor_gain 1 A φ ω n
  rwa [one_mul, norm_one, one_mul, Complex.arg_one, add_zero] at this

theorem phasor_shift (z : ℂ) (ω : ℝ) {k n : ℕ} (h : k ≤ n) : phasor z ω (n - k) = phasor (Complex.exp (-(ω * k * Complex.I)) * z) ω n := by
  unfold phasor
  rw [show (-(ω * k * Complex.I) : ℂ) = ((-(ω * k) : ℝ) : ℂ) * Complex.I by push_cast; ring, Complex.mul_re, Complex.mul_im,
    Complex.exp_ofReal_mul_I_re, Complex.exp_ofReal_mul_I_im, Nat.cast_sub h, mul_sub, Real.cos_sub, Real.sin_sub, Real.cos_neg, Real.sin_neg]
  ring

/-! ## Limits through a convolution -/

theorem convolve_sub (h x y : ℕ → ℝ) (n : ℕ) : convolve h x n - convolve h y n = convolve h (fun k => x k - y k) n := by
  unfold convolve
  rw [← Finset.sum_sub_distrib]
  exact Finset.sum_congr rfl fun _ _ => by ring

theorem eventually_convolve {h e : ℕ → ℝ} {G M B δ : ℝ} (hG : HasSum (fun n => |h n|) G) (hB : ∀ n, |e n| ≤ B)
    (hM : ∀ᶠ n in atTop, |e n| ≤ M) (hδ : 0 < δ) : ∀ᶠ n in atTop, |convolve h e n| ≤ G * M + δ := by
  have hB0 : 0 ≤ B := (abs_nonneg _).trans (hB 0)
  obtain ⟨N, hN⟩ := eventually_atTop.mp hM
  have hM0 : 0 ≤ M := (abs_nonneg _).trans (hN N le_rfl)
  have hlim := hG.tendsto_sum_nat
  obtain ⟨J, hJ⟩ := eventually_atTop.mp (hlim.eventually (lt_mem_nhds (show G - δ / (B + 1) < G by
    have : 0 < δ / (B + 1) := by positivity
    linarith)))
  refine eventually_atTop.mpr ⟨N + J, fun n hn => ?_⟩
  have htot : ∑ k ∈ Finset.range (n + 1), |h k| ≤ G := sum_le_hasSum _ (fun _ _ => abs_nonneg _) hG
  have hsplit := Finset.sum_range_add_sum_Ico (fun k => |h k|) (show J ≤ n + 1 by omega)
  have h1 : |convolve h e n| ≤ (∑ k ∈ Finset.range J, |h k|) * M + (∑ k ∈ Finset.Ico J (n + 1), |h k|) * B := by
    unfold convolve
    refine (Finset.abs_sum_le_sum_abs _ _).trans ?_
    rw [← Finset.sum_range_add_sum_Ico _ (show J ≤ n + 1 by omega), Finset.sum_mul, Finset.sum_mul]
    refine add_le_add (Finset.sum_le_sum fun k hk => ?_) (Finset.sum_le_sum fun k hk => ?_)
    · rw [abs_mul]
      exact mul_le_mul_of_nonneg_left (hN _ (by have := Finset.mem_range.mp hk; omega)) (abs_nonneg _)
    · rw [abs_mul]
      exact mul_le_mul_of_nonneg_left (hB _) (abs_nonneg _)
  have h2 := hJ J le_rfl
  have h3 : ∑ k ∈ Finset.Ico J (n + 1), |h k| ≤ δ / (B + 1) := by linarith
  have h4 : (∑ k ∈ Finset.Ico J (n + 1), |h k|) * B ≤ δ := by
    refine (mul_le_mul_of_nonneg_right h3 hB0).trans ?_
    rw [div_mul_eq_mul_div, div_le_iff₀ (by linarith)]
    nlinarith
  have h5 : ∑ k ∈ Finset.range J, |h k| ≤ G := sum_le_hasSum _ (fun _ _ => abs_nonneg _) hG
  have h6 := mul_le_mul_of_nonneg_right h5 hM0
  linarith

theorem tendsto_zero_of_eventually {e : ℕ → ℝ} (h : ∀ ε > 0, ∀ᶠ n in atTop, |e n| ≤ ε) : Tendsto e atTop (nhds 0) := by
  rw [Metric.tendsto_nhds]
  intro ε hε
  filter_upwards [h (ε / 2) (by linarith)] with n hn
  rw [Real.dist_eq, sub_zero]
  linarith

theorem eventually_of_tendsto_zero {e : ℕ → ℝ} (h : Tendsto e atTop (nhds 0)) {ε : ℝ} (hε : 0 < ε) : ∀ᶠ n in atTop, |e n| ≤ ε := by
  filter_upwards [Metric.tendsto_nhds.mp h ε hε] with n hn
  rw [Real.dist_eq, sub_zero] at hn
  exact hn.le

/-! ## The loop -/

theorem loop_converges {h x u v w : ℕ → ℝ} {g G ω B : ℝ} {P K X : ℂ} (hG : HasSum (fun n => |h n|) G) (hq : |g| * G < 1) (hP : ‖P‖ ≤ 1)
    (hK : ‖K‖ ≤ G) (hw : w = convolve h v) (hx : ∀ n, x n = phasor X ω n) (hu : ∀ n, u n = x n + g * w n) (hB : ∀ n, |u n| ≤ B)
    (hBv : ∀ n, |v n| ≤ B)
    (hv : ∀ z M, (∀ᶠ n in atTop, |u n - phasor z ω n| ≤ M) → ∀ᶠ n in atTop, |v n - phasor (P * z) ω n| ≤ M)
    (hs : ∀ z, Tendsto (fun n => convolve h (phasor z ω) n - phasor (K * z) ω n) atTop (nhds 0)) :
    Tendsto (fun n => u n - phasor ((1 - g * (K * P))⁻¹ * X) ω n) atTop (nhds 0) ∧
    Tendsto (fun n => v n - phasor (P * ((1 - g * (K * P))⁻¹ * X)) ω n) atTop (nhds 0) := by
  have hG0 : 0 ≤ G := hG.nonneg fun _ => abs_nonneg _
  have hne : 1 - (g : ℂ) * (K * P) ≠ 0 := by
    intro h0
    have h1 : ‖(g : ℂ) * (K * P)‖ = 1 := by rw [← sub_eq_zero.mp h0, norm_one]
    rw [norm_mul, norm_mul, Complex.norm_real, Real.norm_eq_abs] at h1
    have h2 : ‖K‖ * ‖P‖ ≤ G := (mul_le_of_le_one_right (norm_nonneg _) hP).trans hK
    have := mul_le_mul_of_nonneg_left h2 (abs_nonneg g)
    linarith
  obtain ⟨U, hU⟩ : ∃ U, U = (1 - g * (K * P))⁻¹ * X := ⟨_, rfl⟩
  have hfix : X + g * (K * (P * U)) = U := by
    have : (1 - g * (K * P)) * U = X := by rw [hU, ← mul_assoc, mul_inv_cancel₀ hne, one_mul]
    rw [← this]; ring
  rw [← hU]
  have step : ∀ M δ, 0 < δ → (∀ᶠ n in atTop, |u n - phasor U ω n| ≤ M) → ∀ᶠ n in atTop, |u n - phasor U ω n| ≤ |g| * G * M + δ := by
    intro M δ hδ hM
    have hδ' : 0 < δ / (2 * (|g| + 1)) := by positivity
    have h1 := eventually_convolve (e := fun n => v n - phasor (P * U) ω n) (B := B + ‖P * U‖) hG
      (fun n => (abs_sub _ _).trans (add_le_add (hBv n) (abs_phasor_le _ _ _))) (hv U M hM) hδ'
    have h2 := eventually_of_tendsto_zero (hs (P * U)) hδ'
    filter_upwards [h1, h2] with n e1 e2
    have e3 : u n - phasor U ω n = g * (convolve h (fun k => v k - phasor (P * U) ω k) n +
        (convolve h (phasor (P * U) ω) n - phasor (K * (P * U)) ω n)) := by
      have e4 : phasor U ω n = phasor X ω n + g * phasor (K * (P * U)) ω n := by
        rw [← phasor_real_mul, ← phasor_add, hfix]
      rw [hu, hx, hw, ← convolve_sub, e4]; ring
    rw [e3, abs_mul]
    have e5 : |convolve h (fun k => v k - phasor (P * U) ω k) n + (convolve h (phasor (P * U) ω) n - phasor (K * (P * U)) ω n)| ≤
        G * M + 2 * (δ / (2 * (|g| + 1))) := (abs_add_le _ _).trans (by linarith)
    refine (mul_le_mul_of_nonneg_left e5 (abs_nonneg g)).trans ?_
    have e6 : |g| * (2 * (δ / (2 * (|g| + 1)))) ≤ δ := by
      rw [show |g| * (2 * (δ / (2 * (|g| + 1)))) = |g| / (|g| + 1) * δ by field_simp]
      refine mul_le_of_le_one_left hδ.le ?_
      rw [div_le_one (by positivity)]; linarith
    linarith
  have hq0 : 0 ≤ |g| * G := by positivity
  have main : ∀ ε > 0, ∀ᶠ n in atTop, |u n - phasor U ω n| ≤ ε := by
    intro ε hε
    obtain ⟨q, hqd⟩ : ∃ q, q = |g| * G := ⟨_, rfl⟩
    rw [← hqd] at hq hq0 step
    have hind : ∀ k : ℕ, ∀ᶠ n in atTop, |u n - phasor U ω n| ≤ q ^ k * (B + ‖U‖) + ε / 2 := by
      intro k
      induction k with
      | zero =>
        refine Eventually.of_forall fun n => (abs_sub _ _).trans ?_
        have := hB n
        have := abs_phasor_le U ω n
        rw [pow_zero, one_mul]; linarith
      | succ k ih =>
        filter_upwards [step _ (ε / 2 * (1 - q)) (by have : 0 < 1 - q := by linarith
                                                     positivity) ih] with n hn
        refine hn.trans (le_of_eq ?_)
        ring
    have hpow := (tendsto_pow_atTop_nhds_zero_of_lt_one hq0 hq).mul_const (B + ‖U‖)
    rw [zero_mul] at hpow
    obtain ⟨k, hk⟩ := (hpow.eventually (gt_mem_nhds (show 0 < ε / 2 by linarith))).exists
    filter_upwards [hind k] with n hn
    linarith
  exact ⟨tendsto_zero_of_eventually main, tendsto_zero_of_eventually fun ε hε => hv U ε (main ε hε)⟩

theorem convolve_phasor (h : ℕ → ℝ) (z : ℂ) (ω : ℝ) (n : ℕ) :
    convolve h (phasor z ω) n = z.re * convolve h (phasor 1 ω) n + z.im * convolve h (phasor Complex.I ω) n := by
  unfold convolve
  rw [Finset.mul_sum, Finset.mul_sum, ← Finset.sum_add_distrib]
  refine Finset.sum_congr rfl fun k _ => ?_
  unfold phasor
  simp only [Complex.one_re, Complex.one_im, Complex.I_re, Complex.I_im]
  ring

theorem abs_convolve_phasor {h : ℕ → ℝ} {G : ℝ} (hG : HasSum (fun n => |h n|) G) (z : ℂ) (ω : ℝ) (n : ℕ) : |convolve h (phasor z ω) n| ≤ G * ‖z‖ :=
  (abs_convolve_le (fun k => abs_phasor_le z ω k) n).trans
    (mul_le_mul_of_nonneg_right (sum_le_hasSum _ (fun _ _ => abs_nonneg _) hG) (norm_nonneg _))

/-- No frequency is amplified beyond the peak gain. -/
theorem norm_response_le {h : ℕ → ℝ} {G ω : ℝ} {K : ℂ} (hG : HasSum (fun n => |h n|) G)
    (hs : ∀ z, Tendsto (fun n => convolve h (phasor z ω) n - phasor (K * z) ω n) atTop (nhds 0)) : ‖K‖ ≤ G := by
  refine le_of_forall_pos_le_add fun ε hε => ?_
  obtain ⟨n, h1, h2⟩ := ((eventually_of_tendsto_zero (hs 1) (half_pos hε)).and (eventually_of_tendsto_zero (hs Complex.I) (half_pos hε))).exists
  obtain ⟨z, hz⟩ : ∃ z, z = Complex.exp ((-(ω * n + K.arg) : ℝ) * Complex.I) := ⟨_, rfl⟩
  have hz1 : ‖z‖ = 1 := by rw [hz, Complex.norm_exp_ofReal_mul_I]
  have hzr : |z.re| ≤ 1 := hz1 ▸ Complex.abs_re_le_norm z
  have hzi : |z.im| ≤ 1 := hz1 ▸ Complex.abs_im_le_norm z
  have e1 : phasor (K * z) ω n = ‖K‖ := by
    have := phasor_gain K 1 (-(ω * n + K.arg)) ω n
    rw [Complex.ofReal_one, one_mul, ← hz] at this
    rw [this, show ω * n + -(ω * n + K.arg) + K.arg = 0 by ring, Real.cos_zero]; ring
  have e2 : phasor (K * z) ω n = z.re * phasor (K * 1) ω n + z.im * phasor (K * Complex.I) ω n := by
    rw [← phasor_real_mul, ← phasor_real_mul, ← phasor_add]
    congr 1
    conv_lhs => rw [← Complex.re_add_im z]
    ring
  have e3 := abs_convolve_phasor hG z ω n
  rw [hz1, mul_one, convolve_phasor] at e3
  rw [e1] at e2
  have e4 : ‖K‖ = (z.re * convolve h (phasor 1 ω) n + z.im * convolve h (phasor Complex.I ω) n) -
      (z.re * (convolve h (phasor 1 ω) n - phasor (K * 1) ω n) + z.im * (convolve h (phasor Complex.I ω) n - phasor (K * Complex.I) ω n)) := by
    rw [e2]; ring
  have e5 : |z.re * (convolve h (phasor 1 ω) n - phasor (K * 1) ω n)| ≤ ε / 2 := by
    rw [abs_mul]; exact (mul_le_of_le_one_left (abs_nonneg _) hzr).trans h1
  have e6 : |z.im * (convolve h (phasor Complex.I ω) n - phasor (K * Complex.I) ω n)| ≤ ε / 2 := by
    rw [abs_mul]; exact (mul_le_of_le_one_left (abs_nonneg _) hzi).trans h2
  have a := abs_le.mp e3
  have b := abs_le.mp e5
  have c := abs_le.mp e6
  linarith [a.2, b.1, c.1]

/-! ## The lines -/

theorem norm_lineResponse_le {d : ℝ} (hd : 0 ≤ d) (ω : ℝ) : ‖lineResponse d ω‖ ≤ 1 := by
  have h1 := Nat.floor_le hd
  have h2 := Nat.lt_floor_add_one d
  unfold lineResponse
  refine (norm_add_le _ _).trans ?_
  rw [norm_mul, norm_mul, Complex.norm_real, Complex.norm_real, Real.norm_eq_abs, Real.norm_eq_abs, abs_of_nonneg (by linarith), abs_of_nonneg (by linarith),
    show (-(ω * ⌊d⌋₊ * Complex.I) : ℂ) = ((-(ω * ⌊d⌋₊) : ℝ) : ℂ) * Complex.I by push_cast; ring,
    show (-(ω * (⌊d⌋₊ + 1) * Complex.I) : ℂ) = ((-(ω * (⌊d⌋₊ + 1)) : ℝ) : ℂ) * Complex.I by push_cast; ring,
    Complex.norm_exp_ofReal_mul_I, Complex.norm_exp_ofReal_mul_I]
  linarith

theorem lineResponse_nat (k : ℕ) (ω : ℝ) : lineResponse k ω = Complex.exp (-(ω * k * Complex.I)) := by
  unfold lineResponse
  rw [Nat.floor_natCast, sub_self]
  simp

theorem interp_phasor {d : ℝ} (z : ℂ) (ω : ℝ) {n : ℕ} (hn : ⌊d⌋₊ + 1 ≤ n) : interp d [] (phasor z ω) n = phasor (lineResponse d ω * z) ω n := by
  have e : ∀ k, k ≤ n → delayedBy k ([] : List ℝ) (phasor z ω) n = phasor z ω (n - k) := fun k hk => by
    unfold delayedBy; rw [if_pos hk]
  unfold interp lineResponse
  rw [e _ (by omega), e _ hn, phasor_shift z ω (by omega), phasor_shift z ω hn, add_mul, mul_assoc ((1 - (d - ⌊d⌋₊) : ℝ) : ℂ), mul_assoc ((d - ⌊d⌋₊ : ℝ) : ℂ),
    phasor_add, phasor_real_mul, phasor_real_mul, Nat.cast_add, Nat.cast_one]

theorem eventually_interp {d : ℝ} (hd : 0 ≤ d) {e : ℕ → ℝ} {M : ℝ} (h : ∀ᶠ n in atTop, |e n| ≤ M) : ∀ᶠ n in atTop, |interp d [] e n| ≤ M := by
  have h1 := Nat.floor_le hd
  have h2 := Nat.lt_floor_add_one d
  obtain ⟨N, hN⟩ := eventually_atTop.mp h
  refine eventually_atTop.mpr ⟨N + ⌊d⌋₊ + 1, fun n hn => ?_⟩
  have e1 : ∀ k, k ≤ n → delayedBy k ([] : List ℝ) e n = e (n - k) := fun k hk => by
    unfold delayedBy; rw [if_pos hk]
  unfold interp
  rw [e1 _ (by omega), e1 _ (by omega)]
  have a1 := hN (n - ⌊d⌋₊) (by omega)
  have a2 := hN (n - (⌊d⌋₊ + 1)) (by omega)
  refine (abs_add_le _ _).trans ?_
  rw [abs_mul, abs_mul, abs_of_nonneg (show 0 ≤ 1 - (d - ⌊d⌋₊) by linarith), abs_of_nonneg (show 0 ≤ d - ⌊d⌋₊ by linarith)]
  have b1 := mul_le_mul_of_nonneg_left a1 (show 0 ≤ 1 - (d - ⌊d⌋₊) by linarith)
  have b2 := mul_le_mul_of_nonneg_left a2 (show 0 ≤ d - ⌊d⌋₊ by linarith)
  linarith

theorem line_follows {d : ℝ} (hd : 0 ≤ d) {u : ℕ → ℝ} {ω : ℝ} (z : ℂ) (M : ℝ) (h : ∀ᶠ n in atTop, |u n - phasor z ω n| ≤ M) :
    ∀ᶠ n in atTop, |interp d [] u n - phasor (lineResponse d ω * z) ω n| ≤ M := by
  filter_upwards [eventually_interp hd h, eventually_ge_atTop (⌊d⌋₊ + 1)] with n h1 h2
  rwa [← interp_phasor z ω h2, interp_sub]

theorem interp_nat (k : ℕ) (u : ℕ → ℝ) : interp k [] u = lag u k := by
  funext n
  unfold interp lag delayedBy
  rw [Nat.floor_natCast, sub_self]
  simp [real_zero]

/-! ## Loops -/

variable {b : Build} {τ : Type} [Processor τ ℝ] {p : τ} {g G ω A φ : ℝ} {K : ℂ} {x u v w r : ℕ → ℝ}

theorem SinusoidGain.convolves {h : ℕ → ℝ} (hh : ∀ x y, Responds b p x y ↔ y = convolve h x) (hK : SinusoidGain p ω K) (z : ℂ) :
    Tendsto (fun n => convolve h (phasor z ω) n - phasor (K * z) ω n) atTop (nhds 0) := by
  have h1 := (hK ‖z‖ z.arg).2 b _ ((hh _ _).mpr rfl)
  have e : (fun n : ℕ => ‖z‖ * Real.cos (ω * n + z.arg)) = phasor z ω := funext fun n => (phasor_polar z ω n).symm
  rw [e] at h1
  refine h1.congr fun n => ?_
  beta_reduce
  rw [← phasor_gain, Complex.norm_mul_exp_arg_mul_I]

theorem damped_responds {d : ℝ} (hd : 1 ≤ d) (hc : IsConvolution b p) (hG : HasPeakGain b p G) (hK : SinusoidGain p ω K) (hg : |g| * G < 1)
    (hx : ∀ n, x n = A * Real.cos (ω * n + φ)) (hv : v = interp d [] u) (hw : Responds b p v w) (hu : ∀ n, u n = x n + g * w n) :
    RespondsWith u A ω φ (loopResponse g (lineResponse d ω) K) ∧ RespondsWith v A ω φ (lineResponse d ω * loopResponse g (lineResponse d ω) K) := by
  subst hv
  obtain ⟨h, -, hh⟩ := hc
  rw [hasPeakGain_iff hh] at hG
  have hs := fun z => SinusoidGain.convolves hh hK z
  have hlev : GainAtMost b p G := by
    refine ⟨fun x => ⟨_, (hh _ _).mpr rfl⟩, (hh _ _).mpr ?_, fun x x' y y' D hy hy' hD n => ?_⟩
    · funext n; simp [convolve]
    · rw [(hh _ _).mp hy, (hh _ _).mp hy', convolve_sub]
      exact (abs_convolve_le hD n).trans (mul_le_mul_of_nonneg_right (sum_le_hasSum _ (fun _ _ => abs_nonneg _) hG) ((abs_nonneg _).trans (hD 0)))
  have hx' : ∀ n, x n = phasor (A * Complex.exp (φ * Complex.I)) ω n := fun n => by rw [phasor_input, hx]
  have hxB : ∀ n, |x n| ≤ |A| := fun n => by
    rw [hx, abs_mul]; exact mul_le_of_le_one_right (abs_nonneg _) (Real.abs_cos_le_one _)
  have hb := damped_bounded hlev hg hw hu (fun n M hM hj => interp_le hd hM hj) hxB
  have hB0 : 0 ≤ |A| / (1 - |g| * G) := (abs_nonneg _).trans (hb 0).1
  obtain ⟨h1, h2⟩ := loop_converges hG hg (norm_lineResponse_le (by linarith) ω) (norm_response_le hG hs) ((hh _ _).mp hw) hx' hu (fun n => (hb n).1)
    (fun n => interp_le hd hB0 fun j _ => (hb j).1) (fun z M hz => line_follows (by linarith) z M hz) hs
  constructor
  · refine h1.congr fun n => ?_
    rw [phasor_gain, loopResponse, add_assoc]
  · refine h2.congr fun n => ?_
    rw [← mul_assoc, phasor_gain, loopResponse, add_assoc]

/-- **C131**. A `Delay` with a filter in the feedback path, driven by a sinusoid: with `K` the response of the filter and `P` that of
the line, the loop settles to `1 / (1 - g K P)` times the sinusoid, what the line returns to `P / (1 - g K P)` times. -/
theorem C131_delay [Target] {d m : ℕ} (hm : Allocatable ℝ m) (hd : 1 ≤ d) (hdm : d ≤ m) (hp : NeverPanics τ (T := ℝ)) (hc : IsConvolution b p)
    (hG : HasPeakGain b p G) (hK : SinusoidGain p ω K) (hg : |g| * G < 1) {s : Delay ℝ} (hs : Delay.new b d m = .ok s)
    (hx : ∀ n, x n = A * Real.cos (ω * n + φ)) (hl : DampedLoop b Delay.announce (fun a c => a + g * c) s p x u v w r) :
    RespondsWith u A ω φ (loopResponse g (lineResponse d ω) K) ∧ RespondsWith v A ω φ (lineResponse d ω * loopResponse g (lineResponse d ω) K) := by
  obtain ⟨s', hs', -, hiff⟩ := C125_loop (b := b) (d := d) hm hp p (fun a c => a + g * c) x
  obtain rfl := Except.ok.inj (hs.symm.trans hs')
  obtain ⟨hv, hw, hu, -⟩ := (hiff u v w r).mp hl
  rw [min_eq_left hdm, if_neg (by omega)] at hv
  exact damped_responds (by exact_mod_cast hd) hc hG hK hg hx (by rw [hv, interp_nat]) hw hu

/-- **C131**. The same with a `LinearDelay` of any length from one sample on. -/
theorem C131_linearDelay [Target] {m : ℕ} (hm : Allocatable ℝ m) {d : ℝ} (hd : 1 ≤ d) (hdm : d ≤ m) (hp : NeverPanics τ (T := ℝ))
    (hc : IsConvolution b p) (hG : HasPeakGain b p G) (hK : SinusoidGain p ω K) (hg : |g| * G < 1) {s : LinearDelay ℝ ℝ}
    (hs : LinearDelay.new b d m = .ok s) (hx : ∀ n, x n = A * Real.cos (ω * n + φ))
    (hl : DampedLoop b (LinearDelay.nextOut b) (fun a c => a + g * c) s p x u v w r) :
    RespondsWith u A ω φ (loopResponse g (lineResponse d ω) K) ∧ RespondsWith v A ω φ (lineResponse d ω * loopResponse g (lineResponse d ω) K) := by
  have hm1 : 1 ≤ m := by exact_mod_cast hd.trans hdm
  obtain ⟨s', hs', -, hiff⟩ := C125_linear_loop (b := b) hm hm1 hd hp p (fun a c => a + g * c) x
  obtain rfl := Except.ok.inj (hs.symm.trans hs')
  obtain ⟨hv, hw, hu, -⟩ := (hiff u v w r).mp hl
  rw [min_eq_left hdm] at hv
  exact damped_responds hd hc hG hK hg hx hv hw hu

/-- **C131**. Whatever the line and the frequency, the loop amplifies by at least `1 / (1 + |g| G)` and at most `1 / (1 - |g| G)`. -/
theorem C131_range {d : ℝ} (hd : 0 ≤ d) (hc : IsConvolution b p) (hG : HasPeakGain b p G) (hK : SinusoidGain p ω K) (hg : |g| * G < 1) :
    1 / (1 + |g| * G) ≤ ‖loopResponse g (lineResponse d ω) K‖ ∧ ‖loopResponse g (lineResponse d ω) K‖ ≤ 1 / (1 - |g| * G) := by
  obtain ⟨h, -, hh⟩ := hc
  rw [hasPeakGain_iff hh] at hG
  have h1 := norm_response_le hG fun z => SinusoidGain.convolves hh hK z
  have h2 := norm_lineResponse_le hd ω
  have hG0 : 0 ≤ G := hG.nonneg fun _ => abs_nonneg _
  have h3 : ‖(g : ℂ) * (K * lineResponse d ω)‖ ≤ |g| * G := by
    rw [norm_mul, norm_mul, Complex.norm_real, Real.norm_eq_abs]
    exact mul_le_mul_of_nonneg_left ((mul_le_of_le_one_right (norm_nonneg _) h2).trans h1) (abs_nonneg g)
  have h4 : ‖1 - (g : ℂ) * (K * lineResponse d ω)‖ ≤ 1 + |g| * G := (norm_sub_le _ _).trans (by rw [norm_one]; linarith)
  have h5 : 1 - |g| * G ≤ ‖1 - (g : ℂ) * (K * lineResponse d ω)‖ := by
    have := norm_sub_norm_le (1 : ℂ) ((g : ℂ) * (K * lineResponse d ω))
    rw [norm_one] at this
    linarith
  unfold loopResponse
  rw [norm_inv, ← one_div]
  exact ⟨one_div_le_one_div_of_le (by linarith) h4, one_div_le_one_div_of_le (by linarith) h5⟩

theorem norm_loopResponse {P : ℂ} {a t : ℝ} (h : K * P = a * Complex.exp (-(t * Complex.I))) :
    ‖loopResponse g P K‖ = 1 / √(1 - 2 * (g * a) * Real.cos t + (g * a) ^ 2) := by
  have e : ‖1 - (g : ℂ) * (K * P)‖ = √(1 - 2 * (g * a) * Real.cos t + (g * a) ^ 2) := by
    rw [h, show (-(t * Complex.I) : ℂ) = ((-t : ℝ) : ℂ) * Complex.I by push_cast; ring, ← mul_assoc, ← Complex.ofReal_mul, Complex.norm_eq_sqrt_sq_add_sq]
    congr 1
    rw [Complex.sub_re, Complex.sub_im, Complex.re_ofReal_mul, Complex.im_ofReal_mul, Complex.exp_ofReal_mul_I_re, Complex.exp_ofReal_mul_I_im,
      Complex.one_re, Complex.one_im, Real.cos_neg, Real.sin_neg]
    have := Real.sin_sq_add_cos_sq t
    linear_combination (g * a) ^ 2 * this
  rw [loopResponse, norm_inv, e, one_div]

theorem respondsWith_iff {y : ℕ → ℝ} {H : ℂ} :
    RespondsWith y A ω φ H ↔ Tendsto (fun n => y n - phasor (H * (A * Complex.exp (φ * Complex.I))) ω n) atTop (nhds 0) := by
  unfold RespondsWith SettlesTo
  refine Iff.of_eq ?_
  congr 1
  funext n
  rw [phasor_gain, add_assoc]

theorem feedback_responds {d : ℝ} (hd : 1 ≤ d) (hg : |g| < 1) (hx : ∀ n, x n = A * Real.cos (ω * n + φ)) (hv : v = interp d [] u)
    (hu : ∀ n, u n = x n + g * v n) : RespondsWith u A ω φ (loopResponse g (lineResponse d ω) 1) ∧
      RespondsWith (fun n => v n - g * u n) A ω φ ((lineResponse d ω - g) * loopResponse g (lineResponse d ω) 1) := by
  let p : OneZero ℝ := { x_z1 := 0, b0 := 1, b1 := 0, output := 0 }
  have hG : HasPeakGain ⟨true⟩ p.clear 1 := by simpa [p] using (C107_filters ⟨true⟩).1 p
  have hK : SinusoidGain p.clear ω 1 := by
    have := (C69_frequency_response ω).2.1 p.clear
    rwa [show freqResponse p.clear.b0 p.clear.b1 0 0 0 ω = 1 by simp [freqResponse, p, OneZero.clear]] at this
  have hw : Responds ⟨true⟩ p.clear v v := (C30_cleared_solve_difference_equation.2.1 p ⟨true⟩ v v).mpr fun n => by simp [p]
  obtain ⟨h1, h2⟩ := damped_responds hd ((C87_filters ⟨true⟩).2.1 p) hG hK (by rwa [mul_one]) hx hv hw hu
  refine ⟨h1, ?_⟩
  rw [respondsWith_iff] at h1 h2 ⊢
  have h3 := h2.sub (h1.const_mul g)
  rw [mul_zero, sub_zero] at h3
  refine h3.congr fun n => ?_
  rw [sub_mul, sub_mul, ← phasor_sub, mul_assoc (g : ℂ), phasor_real_mul]
  ring

/-- **C131**. The comb around a new `Delay`: the gain at `ω` is `1 / √(1 - 2 g cos (ω d) + g²)`; and the loop with output `v - g u` is an
all-pass, sinusoids of every frequency keep their amplitude. -/
theorem C131_comb [Target] {d m : ℕ} (hm : Allocatable ℝ m) (hd : 1 ≤ d) (hdm : d ≤ m) (hg : |g| < 1) {s : Delay ℝ} (hs : Delay.new b d m = .ok s)
    (hx : ∀ n, x n = A * Real.cos (ω * n + φ)) (hl : FeedbackLoop b Delay.announce (fun a c => a + g * c) s x u v r) :
    (∃ H, RespondsWith u A ω φ H ∧ ‖H‖ = 1 / √(1 - 2 * g * Real.cos (ω * d) + g ^ 2)) ∧
    ∃ H, RespondsWith (fun n => v n - g * u n) A ω φ H ∧ ‖H‖ = 1 := by
  obtain ⟨s', hs', -, hiff⟩ := C92_delay (b := b) (d := d) hm (fun a c => a + g * c) x
  obtain rfl := Except.ok.inj (hs.symm.trans hs')
  have h := (hiff u v r).mp hl
  rw [min_eq_left hdm, if_neg (by omega)] at h
  have hv : v = interp d [] u := by rw [interp_nat]; exact funext fun n => (h n).1
  obtain ⟨h1, h2⟩ := feedback_responds (d := d) (by exact_mod_cast hd) hg hx hv fun n => (h n).2.1
  have e : (1 : ℂ) * lineResponse d ω = (1 : ℝ) * Complex.exp (-((ω * d : ℝ) * Complex.I)) := by
    rw [lineResponse_nat]; push_cast; ring
  refine ⟨⟨_, h1, ?_⟩, _, h2, ?_⟩
  · have := norm_loopResponse (g := g) e
    rwa [mul_one] at this
  · have hP : ‖lineResponse d ω‖ = 1 := by
      rw [lineResponse_nat, show (-(ω * d * Complex.I) : ℂ) = ((-(ω * d) : ℝ) : ℂ) * Complex.I by push_cast; ring, Complex.norm_exp_ofReal_mul_I]
    have hne : ‖1 - (g : ℂ) * lineResponse d ω‖ ≠ 0 := by
      intro h0
      have h3 : (1 : ℂ) = g * lineResponse d ω := sub_eq_zero.mp (norm_eq_zero.mp h0)
      have h4 := congrArg norm h3
      rw [norm_one, norm_mul, hP, Complex.norm_real, Real.norm_eq_abs, mul_one] at h4
      linarith
    have e3 : ‖lineResponse d ω - g‖ = ‖1 - (g : ℂ) * lineResponse d ω‖ := by
      have h5 : lineResponse d ω - g = lineResponse d ω * (starRingEnd ℂ) (1 - g * lineResponse d ω) := by
        rw [map_sub, map_mul, map_one, Complex.conj_ofReal, mul_sub, mul_one]
        have : lineResponse d ω * (starRingEnd ℂ) (lineResponse d ω) = 1 := by
          rw [Complex.mul_conj, Complex.normSq_eq_norm_sq, hP]; norm_num
        linear_combination (g : ℂ) * this
      rw [h5, norm_mul, hP, one_mul, Complex.norm_conj]
    rw [loopResponse, one_mul, norm_mul, norm_inv, e3, mul_inv_cancel₀ hne]

/-- **C131**. The tuning of the plucked string with the averaging filter `(v[n] + v[n-1]) / 2`, fed back with `g`: the gain at `ω` is
`1 / √(1 - 2 c cos (ω (d + 1/2)) + c²)`, `c = g cos (ω/2)`; it is never more than `1 / (1 - |c|)`, and it is that much at the multiples of
`1 / (d + 1/2)` of the sample rate. -/
theorem C131_string [Target] {d m : ℕ} (hm : Allocatable ℝ m) (hd : 1 ≤ d) (hdm : d ≤ m) (hg : |g| < 1) {p : OneZero ℝ} (h0 : p.b0 = 1 / 2)
    (h1 : p.b1 = 1 / 2) {s : Delay ℝ} (hs : Delay.new b d m = .ok s) (hx : ∀ n, x n = A * Real.cos (ω * n + φ))
    (hl : DampedLoop b Delay.announce (fun a c => a + g * c) s p.clear x u v w r) :
    ∃ H, RespondsWith u A ω φ H ∧
      ‖H‖ = 1 / √(1 - 2 * (g * Real.cos (ω / 2)) * Real.cos (ω * (d + 1 / 2)) + (g * Real.cos (ω / 2)) ^ 2) ∧
      ‖H‖ ≤ 1 / (1 - |g * Real.cos (ω / 2)|) ∧
      ∀ j : ℤ, ω * (d + 1 / 2) = 2 * Real.pi * j → 0 ≤ g * Real.cos (ω / 2) → ‖H‖ = 1 / (1 - g * Real.cos (ω / 2)) := by
  have hG : HasPeakGain b p.clear 1 := by
    have := (C107_filters b).1 p
    rw [h0, h1] at this
    norm_num at this
    exact this
  have hK := (C69_frequency_response ω).2.1 p.clear
  have key := (C131_delay (s := s) (r := r) (w := w) hm hd hdm (C03_filters_and_analysers_never_panic ℝ).2.1 ((C87_filters b).2.1 p) hG hK
    (by rwa [mul_one]) hs hx hl).1
  have hcos : (Real.cos (ω / 2) : ℂ) = (Complex.exp ((ω / 2 : ℝ) * Complex.I) + Complex.exp (-((ω / 2 : ℝ) * Complex.I))) / 2 := by
    rw [Complex.ofReal_cos, Complex.cos, neg_mul]
  have e : freqResponse p.clear.b0 p.clear.b1 0 0 0 ω * lineResponse d ω =
      (Real.cos (ω / 2) : ℝ) * Complex.exp (-((ω * (d + 1 / 2) : ℝ) * Complex.I)) := by
    have e1 : Complex.exp (-((ω * (d + 1 / 2) : ℝ) * Complex.I)) = Complex.exp (-((ω / 2 : ℝ) * Complex.I)) * Complex.exp (-(ω * d * Complex.I)) := by
      rw [← Complex.exp_add]; congr 1; push_cast; ring
    have e2 : Complex.exp ((ω / 2 : ℝ) * Complex.I) * Complex.exp (-((ω / 2 : ℝ) * Complex.I)) = 1 := by
      rw [← Complex.exp_add, add_neg_cancel, Complex.exp_zero]
    have e3 : Complex.exp (-(ω * Complex.I)) = Complex.exp (-((ω / 2 : ℝ) * Complex.I)) * Complex.exp (-((ω / 2 : ℝ) * Complex.I)) := by
      rw [← Complex.exp_add]; congr 1; push_cast; ring
    rw [lineResponse_nat, hcos, e1]
    unfold freqResponse
    rw [show p.clear.b0 = 1 / 2 from h0, show p.clear.b1 = 1 / 2 from h1, e3]
    generalize Complex.exp (-((ω / 2 : ℝ) * Complex.I)) = q at *
    generalize Complex.exp ((ω / 2 : ℝ) * Complex.I) = q' at *
    push_cast
    linear_combination (-1 / 2 * Complex.exp (-(ω * d * Complex.I))) * e2
  have e4 := norm_loopResponse (g := g) e
  obtain ⟨c, hc⟩ : ∃ c, c = g * Real.cos (ω / 2) := ⟨_, rfl⟩
  rw [← hc] at e4 ⊢
  have hc1 : |c| < 1 := by
    rw [hc, abs_mul]
    exact (mul_le_of_le_one_right (abs_nonneg _) (Real.abs_cos_le_one _)).trans_lt hg
  refine ⟨_, key, e4, ?_, fun j hj hc0 => ?_⟩
  · rw [e4]
    refine one_div_le_one_div_of_le (by linarith) (Real.le_sqrt_of_sq_le ?_)
    have h2 : c * Real.cos (ω * (d + 1 / 2)) ≤ |c| := by
      refine (le_abs_self _).trans ?_
      rw [abs_mul]; exact mul_le_of_le_one_right (abs_nonneg _) (Real.abs_cos_le_one _)
    have h3 := sq_abs c
    nlinarith
  · rw [e4, hj, show 2 * Real.pi * (j : ℝ) = j * (2 * Real.pi) by ring, Real.cos_int_mul_two_pi, show 1 - 2 * c * 1 + c ^ 2 = (1 - c) ^ 2 by ring,
      Real.sqrt_sq (by rw [abs_of_nonneg hc0] at hc1; linarith)]

/-- A string of 100 samples that keeps 99 % per round, driven at its second harmonic (`4π / 100.5` per sample), answers with more than 80
times the amplitude. -/
example [Target] : ∃ (s : Delay ℝ) (u v w r : ℕ → ℝ) (H : ℂ), Delay.new b 100 100 = .ok s ∧
    DampedLoop b Delay.announce (fun a c => a + 0.99 * c) s ({ x_z1 := 0, b0 := 1 / 2, b1 := 1 / 2, output := 0 } : OneZero ℝ).clear
      (fun n => 1 * Real.cos (4 * Real.pi / 100.5 * n + 0)) u v w r ∧
    RespondsWith u 1 (4 * Real.pi / 100.5) 0 H ∧ 80 ≤ ‖H‖ := by
  have hm : Allocatable ℝ 100 := by show (100 + 1) * 8 ≤ isizeMax; have := target; omega
  obtain ⟨s, hs, ⟨u, v, w, r, hl⟩, -⟩ := C125_loop (b := b) (d := 100) hm (C03_filters_and_analysers_never_panic ℝ).2.1
    ({ x_z1 := 0, b0 := 1 / 2, b1 := 1 / 2, output := 0 } : OneZero ℝ).clear (fun a c => a + 0.99 * c) (fun n => 1 * Real.cos (4 * Real.pi / 100.5 * n + 0))
  obtain ⟨H, h1, -, -, h2⟩ := C131_string hm (by norm_num) le_rfl (by rw [abs_of_pos] <;> norm_num) rfl rfl hs (fun _ => rfl) hl
  have hpi := Real.pi_lt_d2
  have hpi0 := Real.pi_pos
  have hc : 1 - (2 * Real.pi / 100.5) ^ 2 / 2 ≤ Real.cos (4 * Real.pi / 100.5 / 2) := by
    rw [show 4 * Real.pi / 100.5 / 2 = 2 * Real.pi / 100.5 by ring]
    exact Real.one_sub_sq_div_two_le_cos
  have h3 : (2 * Real.pi / 100.5) ^ 2 ≤ 0.004 := by
    have : 2 * Real.pi / 100.5 ≤ 0.0627 := by rw [div_le_iff₀ (by norm_num)]; linarith
    have := pow_le_pow_left₀ (by positivity) this 2
    linarith
  have h4 : (0.998 : ℝ) ≤ Real.cos (4 * Real.pi / 100.5 / 2) := by linarith
  have h5 := Real.cos_le_one (4 * Real.pi / 100.5 / 2)
  refine ⟨s, u, v, w, r, H, hs, hl, h1, ?_⟩
  rw [h2 2 (by push_cast; ring) (by linarith), le_div_iff₀ (by linarith)]
  linarith

end Rasp
