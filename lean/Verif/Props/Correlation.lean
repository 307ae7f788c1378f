import Verif.Spec.Correlation
import Verif.Props.Noise
import Verif.Props.LoopGain

/-!
# C148: noise as a measuring signal
-/

namespace Rasp
open Filter MeasureTheory
variable {σ : Type} [Processor σ ℝ] {b : Build} {s : σ} {b0 b1 b2 a1 a2 : ℝ} {h : ℕ → ℝ}

/-! ## Input against output -/

theorem IsConvolution.of_response (hc : IsConvolution b s) (hh : Responds b s unitImpulse h) (x y : ℕ → ℝ) : Responds b s x y ↔ y = convolve h x := by
  obtain ⟨k, hk, hi⟩ := hc
  obtain rfl := hh.unique hk
  exact hi x y

/-- **C148**: correlating the output with white noise at the input gives the impulse response, stable or not. -/
theorem C148_cross (hc : IsConvolution b s) (hh : Responds b s unitImpulse h) : CrossCorrelates b s h := by
  intro Ω _ μ P x y hx hy
  have hyn : ∀ n ω, y n ω = ∑ i ∈ Finset.range (n + 1), h i * x (n - i) ω := fun n ω => congrFun ((hc.of_response hh _ _).mp (hy ω)) n
  have key : ∀ m n, ∫ ω, x m ω * y n ω ∂μ = ∑ i ∈ Finset.range (n + 1), if m = n - i then P * h i else 0 := by
    intro m n
    have e1 : ∀ ω, x m ω * y n ω = ∑ i ∈ Finset.range (n + 1), h i * (x m ω * x (n - i) ω) := by
      intro ω
      rw [hyn, Finset.mul_sum]
      exact Finset.sum_congr rfl fun i _ => by ring
    simp only [e1]
    rw [integral_finsetSum _ fun i _ => ((hx _ _).1.const_mul _)]
    refine Finset.sum_congr rfl fun i hi => ?_
    rw [integral_const_mul, (hx _ _).2]
    split_ifs
    · ring
    · ring
  intro n k
  rw [key, key]
  constructor
  · rw [Finset.sum_eq_single k]
    · rw [if_pos (by omega)]
    · intro i hi hne
      rw [Finset.mem_range] at hi
      rw [if_neg (by omega)]
    · intro hk
      rw [Finset.mem_range] at hk
      omega
  · refine Finset.sum_eq_zero fun i hi => ?_
    rw [if_neg (by omega)]

/-- **C148**: so the impulse response is all that noise can tell, and noise tells all of it. -/
theorem C148_identifies (hh : CrossCorrelates b s h) {h' : ℕ → ℝ} (hh' : CrossCorrelates b s h') (ht : Total (T := ℝ) s) : h = h' := by
  have hx := coin_whiteNoise
  choose y hy using fun ω : ℕ → Bool => ht b fun n => if ω n then (1 : ℝ) else -1
  funext k
  have h1 := (hh _ _ _ _ _ (fun n ω => y ω n) hx hy 0 k).1
  have h2 := (hh' _ _ _ _ _ (fun n ω => y ω n) hx hy 0 k).1
  rw [one_mul] at h1 h2
  rw [← h1, h2]

/-- **C148**, delay lines: one peak at the delay, or two neighbouring ones that share it. -/
theorem C148_delays [Target] {m : ℕ} (hm : Allocatable ℝ m) :
    (∀ (d : ℕ) (s : Delay ℝ), Delay.new b d m = .ok s → CrossCorrelates b s fun k => if k = min d m then 1 else 0) ∧
    (∀ (d : ℝ) (s : LinearDelay ℝ ℝ), LinearDelay.new b d m = .ok s → CrossCorrelates b s fun k =>
      if k = ⌊s.getDelay⌋₊ then 1 - (s.getDelay - ⌊s.getDelay⌋₊) else if k = ⌊s.getDelay⌋₊ + 1 then s.getDelay - ⌊s.getDelay⌋₊ else 0) := by
  refine ⟨fun d s hs => C148_cross ((C87_delays hm).1 d s hs) ?_, fun d s hs => C148_cross ((C87_delays hm).2.2.1 d s hs) ?_⟩
  · obtain ⟨s', hs', h⟩ := C07_new_delay_is_pure_delay (b := b) (d := d) hm
    rw [hs'] at hs
    cases hs
    refine (h _ _).mpr ?_
    funext n
    rw [real_zero]
    unfold unitImpulse
    split_ifs <;> first | rfl | omega
  · obtain ⟨s', hs', hg, h⟩ := C20_new_interpolates (b := b) hm d
    rw [hs'] at hs
    cases hs
    rw [← hg] at h
    refine (h _ _).mpr ?_
    rw [← convolve_tent, convolve_impulse]
    funext k
    unfold tent
    split_ifs <;> first | omega | simp

/-! ## The output against itself -/

theorem summable_shift_mul (hs : Summable fun n => |h n|) (k : ℕ) : Summable fun i => h i * h (i + k) := by
  have h1 := (hs.mul_of_nonneg hs (fun _ => abs_nonneg _) (fun _ => abs_nonneg _)).comp_injective
    (i := fun i : ℕ => (i, i + k)) (fun i j hij => (Prod.mk.inj hij).1)
  refine Summable.of_norm (h1.congr fun i => ?_)
  simp

theorem IsConvolution.colours (hc : IsConvolution b s) (hh : Responds b s unitImpulse h) {R : ℕ → ℝ} (hR : ∀ k, HasSum (fun i => h i * h (i + k)) (R k)) :
    Colours b s R := by
  intro Ω _ μ P x y hx hy k
  have hyn : ∀ n ω, y n ω = ∑ i ∈ Finset.range (n + 1), h i * x (n - i) ω := fun n ω => congrFun ((hc.of_response hh _ _).mp (hy ω)) n
  have key : ∀ n, ∫ ω, y n ω * y (n + k) ω ∂μ = P * ∑ i ∈ Finset.range (n + 1), h i * h (i + k) := by
    intro n
    have e1 : ∀ ω, y n ω * y (n + k) ω = ∑ i ∈ Finset.range (n + 1), ∑ j ∈ Finset.range (n + k + 1), h i * h j * (x (n - i) ω * x (n + k - j) ω) := by
      intro ω
      rw [hyn, hyn, Finset.sum_mul_sum]
      exact Finset.sum_congr rfl fun i _ => Finset.sum_congr rfl fun j _ => by ring
    simp only [e1]
    rw [integral_finsetSum _ fun i _ => integrable_finsetSum _ fun j _ => ((hx _ _).1.const_mul _), Finset.mul_sum]
    refine Finset.sum_congr rfl fun i hi => ?_
    rw [Finset.mem_range] at hi
    rw [integral_finsetSum _ fun j _ => ((hx _ _).1.const_mul _), Finset.sum_eq_single (i + k)]
    · rw [integral_const_mul, (hx _ _).2, if_pos (by omega)]; ring
    · intro j hj hne
      rw [Finset.mem_range] at hj
      rw [integral_const_mul, (hx _ _).2, if_neg (by omega), mul_zero]
    · intro hk
      rw [Finset.mem_range] at hk
      omega
  simp only [key]
  exact ((tendsto_add_atTop_iff_nat 1).2 (hR k).tendsto_sum_nat).const_mul P

/-- The correlations of the output determine `R`. -/
theorem Colours.unique {R R' : ℕ → ℝ} (h : Colours b s R) (h' : Colours b s R') (ht : Total (T := ℝ) s) : R = R' := by
  have hx := coin_whiteNoise
  choose y hy using fun ω : ℕ → Bool => ht b fun n => if ω n then (1 : ℝ) else -1
  funext k
  have := tendsto_nhds_unique (h _ _ _ _ _ (fun n ω => y ω n) hx hy k) (h' _ _ _ _ _ (fun n ω => y ω n) hx hy k)
  simpa using this

/-! ## Power spectra -/

/-- The response at the angle `ω` is the sum of the impulse response against a rotating phase. -/
theorem SinusoidGain.hasSum {ω : ℝ} {K : ℂ} (hi : ∀ x y, Responds b s x y ↔ y = convolve h x) (hs : Summable fun n => |h n|) (hK : SinusoidGain s ω K) :
    HasSum (fun k : ℕ => (h k : ℂ) * Complex.exp (-(ω * k * Complex.I))) K := by
  have hn : ∀ k : ℕ, ‖(h k : ℂ) * Complex.exp (-(ω * k * Complex.I))‖ = |h k| := by
    intro k
    rw [norm_mul, show -((ω : ℂ) * k * Complex.I) = ((-(ω * k) : ℝ) : ℂ) * Complex.I by push_cast; ring, Complex.norm_exp_ofReal_mul_I, mul_one,
      Complex.norm_real, Real.norm_eq_abs]
  have hS : Summable fun k : ℕ => (h k : ℂ) * Complex.exp (-(ω * k * Complex.I)) := Summable.of_norm (by simpa only [hn] using hs)
  obtain ⟨L, hL⟩ := hS
  have e : ∀ (z : ℂ) (n : ℕ), convolve h (phasor z ω) n = phasor ((∑ k ∈ Finset.range (n + 1), (h k : ℂ) * Complex.exp (-(ω * k * Complex.I))) * z) ω n := by
    intro z n
    have e1 : ∀ (t : Finset ℕ) (f : ℕ → ℂ), phasor (∑ k ∈ t, f k) ω n = ∑ k ∈ t, phasor (f k) ω n := by
      intro t f
      simp only [phasor, Complex.re_sum, Complex.im_sum, Finset.sum_mul, Finset.sum_sub_distrib]
    rw [Finset.sum_mul, e1, convolve]
    refine Finset.sum_congr rfl fun k hk => ?_
    rw [Finset.mem_range] at hk
    rw [phasor_shift z ω (by omega), ← phasor_real_mul, mul_assoc (h k : ℂ)]
  have t1 : ∀ z : ℂ, Tendsto (fun n => phasor (((∑ k ∈ Finset.range (n + 1), (h k : ℂ) * Complex.exp (-(ω * k * Complex.I))) - K) * z) ω n) atTop (nhds 0) := by
    intro z
    refine (hK.convolves hi z).congr fun n => ?_
    rw [e, phasor_sub, sub_mul]
  have t2 : Tendsto (fun n => (∑ k ∈ Finset.range (n + 1), (h k : ℂ) * Complex.exp (-(ω * k * Complex.I))) - L) atTop (nhds 0) := by
    have := ((tendsto_add_atTop_iff_nat 1).2 hL.tendsto_sum_nat).sub_const L
    rwa [sub_self] at this
  have t3 : ∀ z : ℂ, Tendsto (fun n => phasor ((L - K) * z) ω n) atTop (nhds 0) := by
    intro z
    have h1 : Tendsto (fun n => phasor (((∑ k ∈ Finset.range (n + 1), (h k : ℂ) * Complex.exp (-(ω * k * Complex.I))) - L) * z) ω n) atTop (nhds 0) := by
      refine squeeze_zero_norm (fun n => (abs_phasor_le _ _ _).trans (norm_mul _ _).le) ?_
      have := (t2.norm).mul_const ‖z‖
      simpa using this
    have h2 := (t1 z).sub h1
    rw [sub_zero] at h2
    refine h2.congr fun n => ?_
    rw [phasor_sub]
    congr 1
    ring
  have : L = K := by
    by_contra hne
    have hne' : L - K ≠ 0 := sub_ne_zero.mpr hne
    have h1 := t3 (L - K)⁻¹
    have h2 := t3 ((L - K)⁻¹ * Complex.I)
    rw [← mul_assoc, mul_inv_cancel₀ hne', one_mul] at h2
    rw [mul_inv_cancel₀ hne'] at h1
    exact phasor_not_tendsto h1 h2
  rwa [← this]

/-- The correlations and the response at one frequency. -/
theorem hasSum_spectrum {ω : ℝ} {K : ℂ} {R : ℕ → ℝ} (hs : Summable fun n => |h n|) (hK : HasSum (fun k : ℕ => (h k : ℂ) * Complex.exp (-(ω * k * Complex.I))) K)
    (hR : ∀ k, HasSum (fun i => h i * h (i + k)) (R k)) : HasSum (fun k : ℕ => 2 * R (k + 1) * Real.cos (ω * (k + 1))) (‖K‖ ^ 2 - R 0) := by
  have hsp := hs.mul_of_nonneg hs (fun _ => abs_nonneg _) (fun _ => abs_nonneg _)
  have hre : ∀ k : ℕ, ((h k : ℂ) * Complex.exp (-(ω * k * Complex.I))).re = h k * Real.cos (ω * k) ∧
      ((h k : ℂ) * Complex.exp (-(ω * k * Complex.I))).im = -(h k * Real.sin (ω * k)) := by
    intro k
    rw [show -((ω : ℂ) * k * Complex.I) = ((-(ω * k) : ℝ) : ℂ) * Complex.I by push_cast; ring, Complex.re_ofReal_mul, Complex.im_ofReal_mul,
      Complex.exp_ofReal_mul_I_re, Complex.exp_ofReal_mul_I_im, Real.cos_neg, Real.sin_neg]
    exact ⟨rfl, by ring⟩
  have hr := Complex.hasSum_re hK
  have hi := Complex.hasSum_im hK
  simp only [hre] at hr hi
  have sm : ∀ (f g : ℕ → ℝ), (∀ k, |f k| ≤ |h k|) → (∀ k, |g k| ≤ |h k|) → Summable fun p : ℕ × ℕ => f p.1 * g p.2 := by
    intro f g hf hg
    refine hsp.of_norm_bounded fun p => ?_
    rw [Real.norm_eq_abs, abs_mul]
    exact mul_le_mul (hf _) (hg _) (abs_nonneg _) (abs_nonneg _)
  obtain ⟨c, hc⟩ : ∃ c : ℕ → ℝ, c = fun k : ℕ => h k * Real.cos (ω * k) := ⟨_, rfl⟩
  obtain ⟨d, hd⟩ : ∃ d : ℕ → ℝ, d = fun k : ℕ => -(h k * Real.sin (ω * k)) := ⟨_, rfl⟩
  rw [← hc] at hr
  rw [← hd] at hi
  have bc : ∀ k : ℕ, |c k| ≤ |h k| := fun k => by
    rw [hc, abs_mul]; exact mul_le_of_le_one_right (abs_nonneg _) (Real.abs_cos_le_one _)
  have bs : ∀ k : ℕ, |d k| ≤ |h k| := fun k => by
    rw [hd, abs_neg, abs_mul]; exact mul_le_of_le_one_right (abs_nonneg _) (Real.abs_sin_le_one _)
  -- all pairs
  have tot : HasSum (fun p : ℕ × ℕ => h p.1 * h p.2 * Real.cos (ω * p.1 - ω * p.2)) (‖K‖ ^ 2) := by
    have := (hr.mul hr (sm c c bc bc)).add (hi.mul hi (sm d d bs bs))
    rw [← Complex.normSq_apply, ← Complex.sq_norm] at this
    refine (congrArg (fun f => HasSum f (‖K‖ ^ 2)) (funext fun p => ?_)).mpr this
    rw [hc, hd, Real.cos_sub]
    ring
  -- the pairs in order
  obtain ⟨G, hG⟩ : ∃ G : ℕ × ℕ → ℝ, G = fun p => if p.2 < p.1 then h p.1 * h p.2 * Real.cos (ω * p.1 - ω * p.2) else 0 := ⟨_, rfl⟩
  have sG : Summable G := by
    refine hsp.of_norm_bounded fun p => ?_
    rw [hG, Real.norm_eq_abs]
    beta_reduce
    split_ifs
    · rw [abs_mul, abs_mul]
      exact mul_le_of_le_one_right (by positivity) (Real.abs_cos_le_one _)
    · rw [abs_zero]; positivity
  obtain ⟨V, hV⟩ := sG
  have hV' : HasSum (fun p : ℕ × ℕ => G p.swap) V := (Equiv.prodComm ℕ ℕ).hasSum_iff.mpr hV
  have diag : HasSum (fun p : ℕ × ℕ => if p.1 = p.2 then h p.1 * h p.2 else 0) (R 0) := by
    have inj : Function.Injective fun i : ℕ => (i, i) := fun i j hij => (Prod.mk.inj hij).1
    rw [← inj.hasSum_iff]
    · simpa [Function.comp_def] using hR 0
    · rintro ⟨i, j⟩ hp
      rw [if_neg]
      intro hij
      exact hp ⟨i, Prod.ext rfl hij⟩
  have e : ‖K‖ ^ 2 = R 0 + (V + V) := by
    refine tot.unique ((congrArg (fun f => HasSum f (R 0 + (V + V))) (funext fun p => ?_)).mpr (diag.add (hV.add hV')))
    rw [hG]
    simp only [Prod.fst_swap, Prod.snd_swap]
    rcases lt_trichotomy p.1 p.2 with h1 | h1 | h1
    · rw [if_neg h1.ne, if_neg (by omega), if_pos h1, ← Real.cos_neg]; ring_nf
    · rw [if_pos h1, if_neg (by omega), if_neg (by omega), h1, sub_self, Real.cos_zero]; ring
    · rw [if_neg h1.ne', if_pos h1, if_neg (by omega)]; ring
  -- by difference
  have hk : HasSum (fun p : ℕ × ℕ => h p.2 * h (p.2 + (p.1 + 1)) * Real.cos (ω * (p.1 + 1))) V := by
    have inj : Function.Injective fun p : ℕ × ℕ => (p.2 + (p.1 + 1), p.2) := by
      rintro ⟨i, j⟩ ⟨i', j'⟩ hp
      simp only [Prod.mk.injEq] at hp ⊢
      omega
    rw [← inj.hasSum_iff] at hV
    · refine (congrArg (fun f => HasSum f V) (funext fun p => ?_)).mpr hV
      rw [hG]
      simp only [Function.comp_def]
      rw [if_pos (by omega)]
      push_cast
      ring_nf
    · rintro ⟨i, j⟩ hp
      rw [hG]
      beta_reduce
      rw [if_neg]
      intro hlt
      exact hp ⟨(i - j - 1, j), by simp only [Prod.mk.injEq, and_true] at hlt ⊢; omega⟩
  have fin := hk.prod_fiberwise (g := fun k => R (k + 1) * Real.cos (ω * (k + 1))) fun k => (hR (k + 1)).mul_right _
  have := fin.mul_left 2
  rw [show ‖K‖ ^ 2 - R 0 = 2 * V by rw [e]; ring]
  refine (congrArg (fun f => HasSum f (2 * V)) (funext fun k => ?_)).mpr this
  ring

/-- **C148**: the correlations of the output are a power spectrum. -/
theorem C148_spectrum (hc : IsConvolution b s) (hg : IsBoundedGain s) : HasPowerSpectrum b s := by
  obtain ⟨h, hh, hi⟩ := id hc
  obtain ⟨G, hG⟩ := C107_exists (b := b) hg
  have hs := ((C107_peak_gain hc hh).mp hG).summable
  have hR := fun k => (summable_shift_mul hs k).hasSum
  refine ⟨_, hc.colours hh hR, ⟨h, hh, ?_⟩, fun ω K hK => hasSum_spectrum hs (hK.hasSum hi hs) hR⟩
  simpa [sq] using hR 0

/-! ## Second order filters -/

/-- They have one solution. -/
theorem YuleWalker.unique (hs : StablePair a1 a2) {R R' : ℕ → ℝ} (h : YuleWalker b0 b1 b2 a1 a2 R) (h' : YuleWalker b0 b1 b2 a1 a2 R') : R = R' := by
  obtain ⟨h2, h1⟩ := hs
  rw [abs_lt] at h2 h1
  have p : (1 - a2) * ((1 + a2) ^ 2 - a1 ^ 2) ≠ 0 := mul_ne_zero (by linarith) (by nlinarith)
  have e0 : R 0 = R' 0 := by
    refine mul_left_cancel₀ p ?_
    linear_combination (1 + a2) * (h.zero - h'.zero) - (a1 - a1 * a2) * (h.one - h'.one) - a2 * (1 + a2) * (h.two - h'.two)
  have e1 : R 1 = R' 1 := by
    refine mul_left_cancel₀ (show 1 + a2 ≠ 0 by linarith) ?_
    linear_combination h.one - h'.one - a1 * e0
  have e2 : R 2 = R' 2 := by linear_combination h.two - h'.two - a1 * e1 - a2 * e0
  have key : ∀ k, R (k + 1) = R' (k + 1) ∧ R (k + 2) = R' (k + 2) := by
    intro k
    induction k with
    | zero => exact ⟨e1, e2⟩
    | succ k ih => exact ⟨ih.2, by linear_combination h.next k - h'.next k - a1 * ih.2 - a2 * ih.1⟩
  funext k
  cases k with
  | zero => exact e0
  | succ k => exact (key k).1

theorem Implements.yuleWalker (hi : Implements s b0 b1 b2 a1 a2) (hh : Responds b s unitImpulse h) {R : ℕ → ℝ}
    (hR : ∀ k, HasSum (fun i => h i * h (i + k)) (R k)) : YuleWalker b0 b1 b2 a1 a2 R := by
  obtain ⟨d0, d1, d2, dn⟩ := hi.impulse hh
  -- without the first sample
  have h0 : HasSum (fun i => h (i + 1) * h (i + 1)) (R 0 - h 0 * h 0) := by
    have := (hasSum_nat_add_iff' (f := fun i => h i * h (i + 0)) 1).mpr (hR 0)
    simpa using this
  have h00 : HasSum (fun i => h (i + 2) * h (i + 2)) (R 0 - (h 0 * h 0 + h 1 * h 1)) := by
    have := (hasSum_nat_add_iff' (f := fun i => h i * h (i + 0)) 2).mpr (hR 0)
    simpa [Finset.sum_range_succ] using this
  have h000 : HasSum (fun i => h (i + 3) * h (i + 3)) (R 0 - (h 0 * h 0 + h 1 * h 1 + h 2 * h 2)) := by
    have := (hasSum_nat_add_iff' (f := fun i => h i * h (i + 0)) 3).mpr (hR 0)
    simpa [Finset.sum_range_succ] using this
  have h11 : HasSum (fun i => h (i + 1) * h (i + 2)) (R 1 - h 0 * h 1) := by
    have := (hasSum_nat_add_iff' (f := fun i => h i * h (i + 1)) 1).mpr (hR 1)
    simpa using this
  have h111 : HasSum (fun i => h (i + 2) * h (i + 3)) (R 1 - (h 0 * h 1 + h 1 * h 2)) := by
    have := (hasSum_nat_add_iff' (f := fun i => h i * h (i + 1)) 2).mpr (hR 1)
    simpa [Finset.sum_range_succ] using this
  have h21 : HasSum (fun i => h (i + 1) * h (i + 3)) (R 2 - h 0 * h 2) := by
    have := (hasSum_nat_add_iff' (f := fun i => h i * h (i + 2)) 1).mpr (hR 2)
    simpa using this
  have z : ∀ {f : ℕ → ℝ} {v : ℝ}, HasSum f v → (∀ i, f i = 0) → v = 0 := fun hf h => by
    rw [funext h] at hf
    exact hf.unique hasSum_zero
  refine ⟨?_, ?_, ?_, fun k => ?_⟩
  · have := z ((h000.add (h111.mul_left a1)).add (h21.mul_left a2)) fun i => by rw [dn i]; ring
    rw [d2, d1, d0] at this
    linear_combination this
  · have := z ((h111.add (h00.mul_left a1)).add (h11.mul_left a2)) fun i => by rw [dn i]; ring
    rw [d2, d1, d0] at this
    linear_combination this
  · have := z ((h21.add (h11.mul_left a1)).add (h0.mul_left a2)) fun i => by rw [dn i]; ring
    linear_combination this + h 0 * d2 + b2 * d0
  · refine z (((hR (k + 3)).add ((hR (k + 2)).mul_left a1)).add ((hR (k + 1)).mul_left a2)) fun i => ?_
    have := dn (i + k)
    rw [show i + k + 3 = i + (k + 3) by ring, show i + k + 2 = i + (k + 2) by ring, show i + k + 1 = i + (k + 1) by ring] at this
    rw [this]; ring

/-- **C148**: a stable filter of this order turns white noise into noise whose correlations are the solution of the Yule–Walker equations. -/
theorem C148_yule_walker (hi : Implements s b0 b1 b2 a1 a2) (hs : StablePair a1 a2) (R : ℕ → ℝ) : Colours b s R ↔ YuleWalker b0 b1 b2 a1 a2 R := by
  obtain ⟨h, hh, hc⟩ := hi.isConvolution b
  obtain ⟨G, hG⟩ := C107_exists (b := b) (hi.isBoundedGain hs)
  have hsum := ((C107_peak_gain (hi.isConvolution b) hh).mp hG).summable
  have hR := fun k => (summable_shift_mul hsum k).hasSum
  have c := (hi.isConvolution b).colours hh hR
  have y := hi.yuleWalker hh hR
  constructor
  · intro c'
    rwa [c'.unique c hi.from.total]
  · intro y'
    rwa [y'.unique hs y]

/-- **C148**, basic filters. -/
theorem C148_filters (b : Build) :
    (∀ s : OneZero ℝ, Colours b s.clear fun k => if k = 0 then s.b0 ^ 2 + s.b1 ^ 2 else if k = 1 then s.b0 * s.b1 else 0) ∧
    (∀ s : TwoZero ℝ, Colours b s.clear fun k => if k = 0 then s.b0 ^ 2 + s.b1 ^ 2 + s.b2 ^ 2 else if k = 1 then s.b0 * s.b1 + s.b1 * s.b2
      else if k = 2 then s.b0 * s.b2 else 0) ∧
    (∀ s : OnePole ℝ, |s.a1| < 1 → Colours b s.clear fun k => s.b0 ^ 2 / (1 - s.a1 ^ 2) * (-s.a1) ^ k) ∧
    (∀ s : TwoPole ℝ, StablePair s.a1 s.a2 → ∀ R, Colours b s.clear R ↔ YuleWalker s.b0 0 0 s.a1 s.a2 R) ∧
    (∀ s : Biquad1 ℝ, StablePair s.a1 s.a2 → ∀ R, Colours b s.clear R ↔ YuleWalker s.b0 s.b1 s.b2 s.a1 s.a2 R) ∧
    (∀ s : Biquad2 ℝ, StablePair s.a1 s.a2 → ∀ R, Colours b s.clear R ↔ YuleWalker s.b0 s.b1 s.b2 s.a1 s.a2 R) := by
  obtain ⟨h1, h2, h3, h4, h5, h6⟩ := C30_cleared_solve_difference_equation
  refine ⟨fun s => ?_, fun s => ?_, fun s h => ?_, fun s h => C148_yule_walker (h3 s) h, fun s h => C148_yule_walker (h5 s) h,
    fun s h => C148_yule_walker (h6 s) h⟩
  · refine (C148_yule_walker (h2 s) stablePair_zero _).mpr ⟨?_, ?_, ?_, fun k => ?_⟩ <;> simp <;> ring
  · refine (C148_yule_walker (h4 s) stablePair_zero _).mpr ⟨?_, ?_, ?_, fun k => ?_⟩ <;> simp <;> ring_nf
  · have p : (1 : ℝ) - s.a1 ^ 2 ≠ 0 := by
      have := (sq_lt_one_iff_abs_lt_one s.a1).2 h
      linarith
    refine (C148_yule_walker (h1 s) (stablePair_one h) _).mpr ⟨?_, ?_, ?_, fun k => ?_⟩
    · field_simp; ring
    · field_simp; ring
    · field_simp; ring
    · ring

/-- **C148**, rbj filters with valid parameters: the correlations at the output are the power spectrum, the square of the gain at every frequency. -/
theorem C148_rbj (b : Build) {sr f q S : ℝ} (h : ValidParams sr f q) (h' : ValidShelf sr f S) (db : ℝ) :
    (∀ s : LowPass ℝ, HasPowerSpectrum b (s.setCoefficients sr f q)) ∧ (∀ s : HighPass ℝ, HasPowerSpectrum b (s.setCoefficients sr f q)) ∧
    (∀ s : BandPass1 ℝ, HasPowerSpectrum b (s.setCoefficients sr f q)) ∧ (∀ s : BandPass2 ℝ, HasPowerSpectrum b (s.setCoefficients sr f q)) ∧
    (∀ s : BandStop ℝ, HasPowerSpectrum b (s.setCoefficients sr f q)) ∧ (∀ s : AllPass ℝ, HasPowerSpectrum b (s.setCoefficients sr f q)) ∧
    (∀ s : Peak ℝ, HasPowerSpectrum b (s.setCoefficients sr f db q)) ∧ (∀ s : LowShelf ℝ, HasPowerSpectrum b (s.setCoefficients sr f db S)) ∧
    (∀ s : HighShelf ℝ, HasPowerSpectrum b (s.setCoefficients sr f db S)) := by
  obtain ⟨c1, c2, c3, c4, c5, c6, c7, c8, c9⟩ := C87_rbj b sr f q db S
  obtain ⟨s1, s2, s3, s4, s5, s6, s7⟩ := C38_stable h
  obtain ⟨s8, s9⟩ := C38_shelves_stable h' db
  exact ⟨fun s => C148_spectrum (c1 s) (s1 s).1, fun s => C148_spectrum (c2 s) (s2 s).1, fun s => C148_spectrum (c3 s) (s3 s).1,
    fun s => C148_spectrum (c4 s) (s4 s).1, fun s => C148_spectrum (c5 s) (s5 s).1, fun s => C148_spectrum (c6 s) (s6 s).1,
    fun s => C148_spectrum (c7 s) (s7 s db).1, fun s => C148_spectrum (c8 s) (s8 s).1, fun s => C148_spectrum (c9 s) (s9 s).1⟩

/-- **C148**, linear prediction: the correlations of the output of a `TwoPole` at the distances 0, 1 and 2 give its feedback coefficients. -/
theorem C148_linear_prediction {s : TwoPole ℝ} (hs : StablePair s.a1 s.a2) (h0 : s.b0 ≠ 0) {Ω : Type} [MeasurableSpace Ω] {μ : Measure Ω} {P : ℝ}
    {x y : ℕ → Ω → ℝ} (hx : WhiteNoise μ x P) (hP : P ≠ 0) (hy : ∀ ω, Responds b s.clear (fun n => x n ω) (fun n => y n ω)) {r : ℕ → ℝ}
    (hr : ∀ k, Tendsto (fun n => ∫ ω, y n ω * y (n + k) ω ∂μ) atTop (nhds (r k))) :
    |r 1| < |r 0| ∧ s.a1 = r 1 * (r 2 - r 0) / (r 0 ^ 2 - r 1 ^ 2) ∧ s.a2 = (r 1 ^ 2 - r 0 * r 2) / (r 0 ^ 2 - r 1 ^ 2) := by
  have hi := C30_cleared_solve_difference_equation.2.2.1 s
  obtain ⟨R, hR, hg, -⟩ := C148_spectrum (hi.isConvolution b) (hi.isBoundedGain hs)
  have hy' := (C148_yule_walker hi hs R).mp hR
  have e : ∀ k, r k = P * R k := fun k => tendsto_nhds_unique (hr k) (hR _ _ _ _ _ _ hx hy k)
  have o : r 1 + s.a1 * r 0 + s.a2 * r 1 = 0 := by rw [e, e]; linear_combination P * hy'.one
  have t : r 2 + s.a1 * r 1 + s.a2 * r 0 = 0 := by rw [e, e, e]; linear_combination P * hy'.two
  have hR0 : R 0 ≠ 0 := by
    intro hz
    obtain ⟨h, hh, hE⟩ := hg
    have := sum_le_hasSum {0} (fun i _ => sq_nonneg _) hE
    rw [Finset.sum_singleton, hz, (hi.impulse hh).1] at this
    have : 0 < s.b0 ^ 2 := by positivity
    linarith
  have hr0 : 0 < |r 0| := by rw [e]; exact abs_pos.mpr (mul_ne_zero hP hR0)
  obtain ⟨h2, h1⟩ := hs
  have h2' := abs_lt.mp h2
  have lt : |r 1| < |r 0| := by
    have e1 : |r 1| * (1 + s.a2) = |s.a1| * |r 0| := by
      rw [← abs_of_pos (show 0 < 1 + s.a2 by linarith), ← abs_mul, ← abs_mul, ← abs_neg (s.a1 * r 0)]
      congr 1
      linear_combination o
    nlinarith
  have hd : r 0 ^ 2 - r 1 ^ 2 ≠ 0 := by
    have := sq_lt_sq.mpr lt
    linarith
  refine ⟨lt, ?_, ?_⟩
  · rw [eq_div_iff hd]
    linear_combination r 0 * o - r 1 * t
  · rw [eq_div_iff hd]
    linear_combination r 0 * t - r 1 * o

/-- **C148**: the output of an `AllPass` with valid parameters for white noise is white noise again. -/
theorem C148_allPass (b : Build) {sr f q : ℝ} (h : ValidParams sr f q) (s : AllPass ℝ) : Colours b (s.setCoefficients sr f q) fun k => if k = 0 then 1 else 0 := by
  have h0 := h.alphaQ_pos
  have p : 1 + alphaQ sr f q ≠ 0 := by linarith
  refine (C148_yule_walker (s.implements sr f q) h.stableQ _).mpr ⟨?_, ?_, ?_, fun k => ?_⟩
  · simp; field_simp; ring
  · simp; field_simp; ring
  · simp; field_simp
  · simp

/-! ## Examples -/

/-- The three correlations 16/9, −8/9, 4/9 of a `TwoPole` are noticed. -/
example : StablePair (1 / 2) 0 ∧ (1 / 2 : ℝ) = (-8 / 9) * (4 / 9 - 16 / 9) / ((16 / 9) ^ 2 - (-8 / 9) ^ 2) := by
  refine ⟨⟨by norm_num, ?_⟩, by norm_num⟩
  rw [abs_of_pos] <;> norm_num

/-- Fair signs through an `AllPass`: there is such a `y`, and its samples end up uncorrelated. -/
example (b : Build) (s : AllPass ℝ) : ∃ y : ℕ → (ℕ → Bool) → ℝ, (∀ ω, Responds b (s.setCoefficients 4 1 1) (fun n => if ω n then 1 else -1) fun n => y n ω) ∧
    Tendsto (fun n => ∫ ω, y n ω * y (n + 1) ω ∂(Measure.infinitePi fun _ : ℕ => coin)) atTop (nhds 0) := by
  have h : ValidParams 4 1 1 := by norm_num [ValidParams]
  choose y hy using fun ω : ℕ → Bool => (s.implements 4 1 1).from.total b fun n => if ω n then (1 : ℝ) else -1
  refine ⟨fun n ω => y ω n, hy, ?_⟩
  simpa using C148_allPass b h s _ _ _ _ _ _ coin_whiteNoise hy 1

/-- Even an unstable filter is measured this way. -/
example (b : Build) (s : OnePole ℝ) : ∃ h, CrossCorrelates b s.clear h := by
  obtain ⟨h, hh, -⟩ := (C87_filters b).1 s
  exact ⟨h, C148_cross ((C87_filters b).1 s) hh⟩

end Rasp
