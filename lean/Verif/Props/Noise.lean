import Verif.Spec.Noise
import Verif.Props.Convolution
import Verif.Props.Rbj
import Verif.Props.RbjRange
import Mathlib.Tactic.FieldSimp
import Mathlib.Tactic.LinearCombination
import Mathlib.Topology.Algebra.InfiniteSum.NatInt
import Mathlib.Topology.Algebra.InfiniteSum.Real
import Mathlib.Probability.Independence.InfinitePi
import Mathlib.Probability.Independence.Integration

/-!
# C106: noise gain
-/

namespace Rasp
open FloatOps Filter MeasureTheory
variable {σ : Type} [Processor σ ℝ] {b : Build} {s : σ} {b0 b1 b2 a1 a2 E : ℝ}

/-! ## The energy of an impulse response -/

/-- A telescoping sum. -/
theorem hasSum_telescope {g Q : ℕ → ℝ} (hg : ∀ n, 0 ≤ g n) (h : ∀ n, Q n - Q (n + 1) = g n) (hQ : Tendsto Q atTop (nhds 0)) : HasSum g (Q 0) := by
  rw [hasSum_iff_tendsto_nat_of_nonneg hg]
  have e : ∀ n, ∑ i ∈ Finset.range n, g i = Q 0 - Q n := by
    intro n
    induction n with
    | zero => simp
    | succ n ih => rw [Finset.sum_range_succ, ih, ← h n]; ring
  simp only [e]
  simpa using hQ.const_sub (Q 0)

/-- The energy of a free second order solution, from its first two values. -/
theorem recur_energy (hs : StablePair a1 a2) {v : ℕ → ℝ} (hv : ∀ n, v (n + 2) = -a1 * v (n + 1) - a2 * v n) :
    HasSum (fun n => v n ^ 2) (v 0 ^ 2 + (1 + a2) / ((1 - a2) * ((1 + a2) ^ 2 - a1 ^ 2)) *
      (a2 ^ 2 * v 0 ^ 2 + 2 * (a1 * a2 / (1 + a2)) * v 0 * v 1 + v 1 ^ 2)) := by
  have ht : Tendsto v atTop (nhds 0) := second_order_tendsto hs (w := fun _ => 0) (fun n => by rw [hv n]; ring) tendsto_const_nhds
  have ht1 := (tendsto_add_atTop_iff_nat 1).2 ht
  obtain ⟨h2, h1⟩ := hs
  rw [abs_lt] at h2 h1
  have p1 : (1 : ℝ) + a2 ≠ 0 := by linarith
  have p2 : (1 : ℝ) - a2 ≠ 0 := by linarith
  have p3 : (1 + a2) ^ 2 - a1 ^ 2 ≠ 0 := by nlinarith
  refine hasSum_telescope (Q := fun n => v n ^ 2 + (1 + a2) / ((1 - a2) * ((1 + a2) ^ 2 - a1 ^ 2)) *
      (a2 ^ 2 * v n ^ 2 + 2 * (a1 * a2 / (1 + a2)) * v n * v (n + 1) + v (n + 1) ^ 2)) (fun n => sq_nonneg _) (fun n => ?_) ?_
  · rw [hv n]; field_simp; ring
  · have := (ht.pow 2).add ((((ht.pow 2).const_mul (a2 ^ 2)).add ((ht.const_mul (2 * (a1 * a2 / (1 + a2)))).mul ht1)).add (ht1.pow 2)
      |>.const_mul ((1 + a2) / ((1 - a2) * ((1 + a2) ^ 2 - a1 ^ 2))))
    simpa using this

/-- The general formula, for coefficients in normal form. -/
theorem Implements.noiseGain (hi : Implements s b0 b1 b2 a1 a2) (hs : StablePair a1 a2) : HasNoiseGain b s
    (((b0 ^ 2 + b1 ^ 2 + b2 ^ 2) * (1 + a2) - 2 * (b0 * b1 + b1 * b2) * a1 + 2 * b0 * b2 * (a1 ^ 2 - a2 - a2 ^ 2)) /
      ((1 - a2) * ((1 + a2) ^ 2 - a1 ^ 2))) := by
  obtain ⟨h, hh⟩ := hi.from.total b unitImpulse
  refine ⟨h, hh, ?_⟩
  have hd := (hi b _ _).mp hh
  have d0 : h 0 = b0 := by rw [hd 0]; simp [lag, real_zero, unitImpulse]
  have d1 : h 1 = b1 - a1 * b0 := by rw [hd 1]; simp [lag, real_zero, unitImpulse, d0]
  have d2 : h 2 = b2 - a1 * (b1 - a1 * b0) - a2 * b0 := by rw [hd 2]; simp [lag, unitImpulse, d0, d1]
  have dn : ∀ n, h (n + 3) = -a1 * h (n + 2) - a2 * h (n + 1) := by
    intro n; rw [hd (n + 3)]; simp [lag, unitImpulse]
  have := recur_energy hs (v := fun n => h (n + 1)) dn
  rw [hasSum_nat_add_iff (f := fun n => h n ^ 2) 1] at this
  rw [Finset.sum_range_one, d0, zero_add, d1, d2] at this
  refine (congrArg (HasSum fun n => h n ^ 2) ?_).mpr this
  obtain ⟨h2, h1⟩ := hs
  rw [abs_lt] at h2 h1
  have p1 : (1 : ℝ) + a2 ≠ 0 := by linarith
  have p2 : (1 : ℝ) - a2 ≠ 0 := by linarith
  have p3 : (1 + a2) ^ 2 - a1 ^ 2 ≠ 0 := by nlinarith
  field_simp
  ring

/-! ## White noise -/

/-- What the noise gain is: the power at the output for white noise of power one. -/
theorem HasNoiseGain.power (hg : HasNoiseGain b s E) (hc : IsConvolution b s) : NoisePower b s E := by
  intro Ω _ μ P x y hx hy
  obtain ⟨h, hh, hE⟩ := hg
  obtain ⟨k, hk, hci⟩ := hc
  have e : k = h := hk.unique hh
  subst e
  have hyn : ∀ n ω, y n ω = ∑ i ∈ Finset.range (n + 1), k i * x (n - i) ω := fun n ω => congrFun ((hci _ _).mp (hy ω)) n
  have key : ∀ n, ∫ ω, y n ω ^ 2 ∂μ = P * ∑ i ∈ Finset.range (n + 1), k i ^ 2 := by
    intro n
    have e1 : ∀ ω, y n ω ^ 2 = ∑ i ∈ Finset.range (n + 1), ∑ j ∈ Finset.range (n + 1), k i * k j * (x (n - i) ω * x (n - j) ω) := by
      intro ω
      rw [hyn, sq, Finset.sum_mul_sum]
      exact Finset.sum_congr rfl fun i _ => Finset.sum_congr rfl fun j _ => by ring
    simp only [e1]
    rw [integral_finsetSum _ fun i _ => integrable_finsetSum _ fun j _ => ((hx _ _).1.const_mul _), Finset.mul_sum]
    refine Finset.sum_congr rfl fun i hi => ?_
    rw [integral_finsetSum _ fun j _ => ((hx _ _).1.const_mul _), Finset.sum_eq_single i]
    · rw [integral_const_mul, (hx _ _).2, if_pos rfl]; ring
    · intro j hj hne
      rw [Finset.mem_range] at hi hj
      rw [integral_const_mul, (hx _ _).2, if_neg (by omega), mul_zero]
    · exact fun h => absurd hi h
  have hP : 0 ≤ P := by
    have := (hx 0 0).2
    rw [if_pos rfl] at this
    rw [← this]
    exact integral_nonneg fun ω => mul_self_nonneg _
  refine ⟨fun n => ?_, ?_⟩
  · rw [key, mul_comm E P]
    exact mul_le_mul_of_nonneg_left (sum_le_hasSum _ (fun i _ => sq_nonneg _) hE) hP
  · simp only [key]
    rw [mul_comm E P]
    exact ((tendsto_add_atTop_iff_nat 1).2 hE.tendsto_sum_nat).const_mul P

theorem HasNoiseGain.amplifies (hg : HasNoiseGain b s E) (hc : IsConvolution b s) : AmplifiesNoise b s E := ⟨hg, hg.power hc⟩

theorem Implements.amplifies (hi : Implements s b0 b1 b2 a1 a2) (hs : StablePair a1 a2) {E : ℝ}
    (hE : (b0 ^ 2 + b1 ^ 2 + b2 ^ 2) * (1 + a2) - 2 * (b0 * b1 + b1 * b2) * a1 + 2 * b0 * b2 * (a1 ^ 2 - a2 - a2 ^ 2) =
      E * ((1 - a2) * ((1 + a2) ^ 2 - a1 ^ 2))) : AmplifiesNoise b s E := by
  refine HasNoiseGain.amplifies ?_ (hi.isConvolution b)
  have := hi.noiseGain (b := b) hs
  obtain ⟨h2, h1⟩ := hs
  rw [abs_lt] at h2 h1
  have p2 : (0 : ℝ) < 1 - a2 := by linarith
  have p3 : 0 < (1 + a2) ^ 2 - a1 ^ 2 := by nlinarith
  rwa [hE, mul_div_cancel_right₀ _ (mul_pos p2 p3).ne'] at this

theorem Implements.amplifies_div {a0 : ℝ} (hi : Implements s (b0 / a0) (b1 / a0) (b2 / a0) (a1 / a0) (a2 / a0)) (hs : StablePair (a1 / a0) (a2 / a0))
    (h0 : 0 < a0) {E : ℝ} (hE : ((b0 ^ 2 + b1 ^ 2 + b2 ^ 2) * (a0 + a2) * a0 - 2 * (b0 * b1 + b1 * b2) * a1 * a0 +
      2 * b0 * b2 * (a1 ^ 2 - a2 * a0 - a2 ^ 2)) = E * (a0 * (a0 - a2) * ((a0 + a2) ^ 2 - a1 ^ 2))) : AmplifiesNoise b s E := by
  refine hi.amplifies hs ?_
  field_simp
  linear_combination hE

/-- **C106**, basic filters whose poles are inside the unit circle. -/
theorem C106_filters (b : Build) :
    (∀ s : OneZero ℝ, AmplifiesNoise b s.clear (s.b0 ^ 2 + s.b1 ^ 2)) ∧
    (∀ s : TwoZero ℝ, AmplifiesNoise b s.clear (s.b0 ^ 2 + s.b1 ^ 2 + s.b2 ^ 2)) ∧
    (∀ s : OnePole ℝ, |s.a1| < 1 → AmplifiesNoise b s.clear (s.b0 ^ 2 / (1 - s.a1 ^ 2))) ∧
    (∀ s : TwoPole ℝ, StablePair s.a1 s.a2 →
      AmplifiesNoise b s.clear (s.b0 ^ 2 * (1 + s.a2) / ((1 - s.a2) * ((1 + s.a2) ^ 2 - s.a1 ^ 2)))) ∧
    (∀ s : Biquad1 ℝ, StablePair s.a1 s.a2 → AmplifiesNoise b s.clear
      (((s.b0 ^ 2 + s.b1 ^ 2 + s.b2 ^ 2) * (1 + s.a2) - 2 * (s.b0 * s.b1 + s.b1 * s.b2) * s.a1 + 2 * s.b0 * s.b2 * (s.a1 ^ 2 - s.a2 - s.a2 ^ 2)) /
        ((1 - s.a2) * ((1 + s.a2) ^ 2 - s.a1 ^ 2)))) ∧
    (∀ s : Biquad2 ℝ, StablePair s.a1 s.a2 → AmplifiesNoise b s.clear
      (((s.b0 ^ 2 + s.b1 ^ 2 + s.b2 ^ 2) * (1 + s.a2) - 2 * (s.b0 * s.b1 + s.b1 * s.b2) * s.a1 + 2 * s.b0 * s.b2 * (s.a1 ^ 2 - s.a2 - s.a2 ^ 2)) /
        ((1 - s.a2) * ((1 + s.a2) ^ 2 - s.a1 ^ 2)))) := by
  obtain ⟨h1, h2, h3, h4, h5, h6⟩ := C30_cleared_solve_difference_equation
  have z : StablePair 0 0 := by simp [StablePair]
  refine ⟨fun s => (h2 s).amplifies z (by ring), fun s => (h4 s).amplifies z (by ring), fun s h => ?_, fun s h => ?_,
    fun s h => ((h5 s).noiseGain h).amplifies ((h5 s).isConvolution b), fun s h => ((h6 s).noiseGain h).amplifies ((h6 s).isConvolution b)⟩
  · have p : (1 : ℝ) - s.a1 ^ 2 ≠ 0 := by
      have := (sq_lt_one_iff_abs_lt_one s.a1).2 h
      linarith
    exact (h1 s).amplifies (by simpa [StablePair] using h) (by field_simp; ring)
  · refine (h3 s).amplifies h ?_
    obtain ⟨h2, h1⟩ := h
    rw [abs_lt] at h2 h1
    have p2 : (1 : ℝ) - s.a2 ≠ 0 := by linarith
    have p3 : (1 + s.a2) ^ 2 - s.a1 ^ 2 ≠ 0 := by nlinarith
    field_simp
    ring

/-- **C106**: a pole on or outside the unit circle has no noise gain. -/
theorem C106_onePole_unstable (b : Build) (s : OnePole ℝ) (h0 : s.b0 ≠ 0) (h1 : 1 ≤ |s.a1|) (E : ℝ) : ¬ HasNoiseGain b s.clear E := by
  intro hg
  obtain ⟨h, hh, hE⟩ := hg
  have hd := (C30_cleared_solve_difference_equation.1 s _ _ _).mp hh
  have hge : ∀ n, s.b0 ^ 2 ≤ h n ^ 2 := by
    intro n
    induction n with
    | zero => rw [hd 0]; simp [lag, real_zero, unitImpulse]
    | succ n ih =>
      have e : h (n + 1) = -s.a1 * h n := by rw [hd (n + 1)]; simp [lag, unitImpulse]
      have : 1 ≤ s.a1 ^ 2 := (one_le_sq_iff_one_le_abs s.a1).2 h1
      rw [e, mul_pow, neg_sq]
      nlinarith [sq_nonneg (h n)]
  have := ge_of_tendsto hE.summable.tendsto_atTop_zero (Eventually.of_forall hge)
  have : 0 < s.b0 ^ 2 := by positivity
  linarith

/-- **C106**, `LeakyIntegrator` with a coefficient between −1 and 1. -/
theorem C106_leakyIntegrator (b : Build) (s : LeakyIntegrator ℝ) (h : |s.getAlpha| < 1) : AmplifiesNoise b s.clear ((1 - s.getAlpha) / (1 + s.getAlpha)) := by
  obtain ⟨h1, h2⟩ := (C106_filters b).2.2.1 { y_z1 := 0, b0 := 1 - s.getAlpha, a1 := -s.getAlpha } (by simpa using h)
  rw [abs_lt] at h
  have e : (1 - s.getAlpha) ^ 2 / (1 - (-s.getAlpha) ^ 2) = (1 - s.getAlpha) / (1 + s.getAlpha) := by
    have p1 : 1 + s.getAlpha ≠ 0 := by linarith
    have p2 : 1 - (-s.getAlpha) ^ 2 ≠ 0 := by nlinarith
    rw [div_eq_div_iff p2 p1]
    ring
  simp only [e] at h1 h2
  refine HasNoiseGain.amplifies ?_ ((C87_filters b).2.2.2.2.2.2 s)
  obtain ⟨g, hg, hE⟩ := h1
  exact ⟨g, (C48_is_onePole s.clear b _ _).mpr hg, hE⟩

variable {sr f q db S : ℝ}

/-- **C106**, rbj filters with valid parameters; `c` and `α` are the cosine and the bandwidth of the cookbook. -/
theorem C106_rbj (b : Build) (h : ValidParams sr f q) {c α A : ℝ} (hc : c = Real.cos (angle sr f)) (hα : α = Real.sin (angle sr f) / (2 * q))
    (hA : A = 10 ^ (db / 40)) :
    (∀ s : LowPass ℝ, AmplifiesNoise b (s.setCoefficients sr f q) ((1 - c) * (1 + c + 2 * α) / (4 * α * (1 + α)))) ∧
    (∀ s : HighPass ℝ, AmplifiesNoise b (s.setCoefficients sr f q) ((1 + c) * (1 - c + 2 * α) / (4 * α * (1 + α)))) ∧
    (∀ s : BandPass1 ℝ, AmplifiesNoise b (s.setCoefficients sr f q) (q ^ 2 * (α / (1 + α)))) ∧
    (∀ s : BandPass2 ℝ, AmplifiesNoise b (s.setCoefficients sr f q) (α / (1 + α))) ∧
    (∀ s : BandStop ℝ, AmplifiesNoise b (s.setCoefficients sr f q) (1 / (1 + α))) ∧
    (∀ s : AllPass ℝ, AmplifiesNoise b (s.setCoefficients sr f q) 1) ∧
    (∀ s : Peak ℝ, AmplifiesNoise b (s.setCoefficients sr f db q) ((1 + A ^ 3 * α) / (1 + α / A))) := by
  have hs := h.stableQ
  have hp := h.stablePeak db
  have h0 := h.alphaQ_pos
  have hA0 := gainA_pos db
  have hq := h.2.2
  rw [← show alphaQ sr f q = α from hα.symm]
  rw [← show gainA db = A from hA.symm]
  subst hc
  have i1 := fun s => LowPass.implements s sr f q
  have i2 := fun s => HighPass.implements s sr f q
  have i3 := fun s => BandPass1.implements s sr f q
  have i4 := fun s => BandPass2.implements s sr f q
  have i5 := fun s => BandStop.implements s sr f q
  have i6 := fun s => AllPass.implements s sr f q
  have i7 := fun s => Peak.implements s sr f db q
  generalize alphaQ sr f q = α at *
  generalize gainA db = A at *
  generalize Real.cos (angle sr f) = c at *
  refine ⟨fun s => (i1 s).amplifies_div hs (by linarith) ?_, fun s => (i2 s).amplifies_div hs (by linarith) ?_,
    fun s => (i3 s).amplifies_div hs (by linarith) ?_, fun s => (i4 s).amplifies_div hs (by linarith) ?_,
    fun s => (i5 s).amplifies_div hs (by linarith) ?_, fun s => (i6 s).amplifies_div hs (by linarith) ?_,
    fun s => (i7 s).amplifies_div hp (by positivity) ?_⟩ <;> (field_simp; ring)

/-- **C106**, shelving filters with valid parameters. -/
theorem C106_shelves (b : Build) (h : ValidShelf sr f S) {c A v P P' : ℝ} (hc : c = Real.cos (angle sr f)) (hA : A = 10 ^ (db / 40))
    (hv : v = Real.sin (angle sr f) * Real.sqrt ((A ^ 2 + 1) * (1 / S - 1) + 2 * A))
    (hP : P = A + 1 + (A - 1) * c) (hP' : P' = A + 1 - (A - 1) * c) :
    (∀ s : LowShelf ℝ, AmplifiesNoise b (s.setCoefficients sr f db S)
      (A * ((A ^ 2 - 1) ^ 2 * (1 - c ^ 2) + (P' * (A ^ 2 + 1) - A * P) * v + A * v ^ 2) / (v * (P + v)))) ∧
    (∀ s : HighShelf ℝ, AmplifiesNoise b (s.setCoefficients sr f db S)
      (A * ((A ^ 2 - 1) ^ 2 * (1 - c ^ 2) + (P * (A ^ 2 + 1) - A * P') * v + A * v ^ 2) / (v * (P' + v)))) := by
  have hA0 := gainA_pos db
  have hp := h.product_pos (db := db)
  obtain ⟨c1, c2⟩ := cos_lt_one_of_sin_pos h.params.sin_pos
  rw [← show gainA db = A from hA.symm] at *
  have e : 2 * Real.sqrt (gainA db) * alphaS sr f (gainA db) S = v := by
    have hr := h.sqrt_arg_pos hA0
    rw [hv, alphaS, show (gainA db ^ 2 + 1) * (1 / S - 1) + 2 * gainA db = gainA db * ((gainA db + 1 / gainA db) * (1 / S - 1) + 2) by field_simp,
      Real.sqrt_mul hA0.le]
    ring
  subst hc
  have i1 := fun s => LowShelf.implements s sr f db S
  have i2 := fun s => HighShelf.implements s sr f db S
  rw [e] at hp
  simp only [e] at i1 i2
  clear hv e hA
  generalize gainA db = A at *
  generalize Real.cos (angle sr f) = c at *
  have d1 := lowShelf_den_pos hA0 c1 c2 hp
  have d2 := highShelf_den_pos hA0 c1 c2 hp
  subst hP hP'
  refine ⟨fun s => (i1 s).amplifies_div (lowShelf_stable hA0 c1 c2 hp) d1 ?_, fun s => (i2 s).amplifies_div (highShelf_stable hA0 c1 c2 hp) d2 ?_⟩
  · field_simp; ring
  · field_simp; ring

/-- **C106**, delay lines: a whole delay keeps the power of noise, interpolation lowers it with the fraction `r` of the distance. -/
theorem C106_delays [Target] (b : Build) {m : ℕ} (hm : Allocatable ℝ m) :
    (∀ (d : ℕ) (s : Delay ℝ), Delay.new b d m = .ok s → AmplifiesNoise b s 1) ∧
    (∀ (d : ℝ) (s : LinearDelay ℝ ℝ), LinearDelay.new b d m = .ok s →
      AmplifiesNoise b s (1 - 2 * (s.getDelay - ⌊s.getDelay⌋₊) * (1 - (s.getDelay - ⌊s.getDelay⌋₊)))) := by
  refine ⟨fun d s hs => HasNoiseGain.amplifies ?_ ((C87_delays hm).1 d s hs), fun d s hs => HasNoiseGain.amplifies ?_ ((C87_delays hm).2.2.1 d s hs)⟩
  · obtain ⟨s', hs', h⟩ := C07_new_delay_is_pure_delay (b := b) (d := d) hm
    rw [hs'] at hs
    cases hs
    refine ⟨fun k => if k = min d m then 1 else 0, (h _ _).mpr ?_, ?_⟩
    · funext n
      rw [real_zero]
      unfold unitImpulse
      split_ifs <;> first | rfl | omega
    · convert hasSum_ite_eq (min d m) (1 : ℝ) using 2 with n
      split_ifs with h <;> simp [h]
  · obtain ⟨s', hs', hg, h⟩ := C20_new_interpolates (b := b) hm d
    rw [hs'] at hs
    cases hs
    rw [← hg] at h
    refine ⟨tent s.getDelay, (h _ _).mpr ?_, ?_⟩
    · rw [← convolve_tent, convolve_impulse]
    · generalize s.getDelay = d'
      have := (hasSum_ite_eq ⌊d'⌋₊ ((1 - (d' - ⌊d'⌋₊)) ^ 2)).add (hasSum_ite_eq (⌊d'⌋₊ + 1) ((d' - ⌊d'⌋₊) ^ 2))
      convert this using 1
      · funext n
        unfold tent
        split_ifs <;> first | omega | simp
      · ring

/-! ## Examples -/

/-- A fair coin. -/
noncomputable def coin : Measure Bool := (2⁻¹ : ENNReal) • Measure.dirac true + (2⁻¹ : ENNReal) • Measure.dirac false

instance : IsProbabilityMeasure coin := ⟨by simp [coin, ENNReal.inv_two_add_inv_two]⟩

/-- Independent fair signs are white noise of power one. -/
theorem coin_whiteNoise : WhiteNoise (Measure.infinitePi fun _ : ℕ => coin) (fun i ω => if ω i then 1 else -1) 1 := by
  let g : Bool → ℝ := fun c => if c then 1 else -1
  have hm : Measurable g := measurable_from_top
  have hmi : ∀ i, Measurable fun ω : ℕ → Bool => g (ω i) := fun i => hm.comp (measurable_pi_apply i)
  have hz : ∫ c, g c ∂coin = 0 := by
    rw [coin, integral_add_measure ((integrable_dirac (by simp)).smul_measure (by simp)) ((integrable_dirac (by simp)).smul_measure (by simp))]
    simp [g]
  have hb : ∀ c, ‖g c‖ ≤ 1 := by intro c; cases c <;> simp [g]
  intro i j
  refine ⟨?_, ?_⟩
  · refine Integrable.of_bound ((hmi i).mul (hmi j)).aestronglyMeasurable 1 (.of_forall fun ω => ?_)
    rw [norm_mul]
    exact mul_le_one₀ (hb _) (norm_nonneg _) (hb _)
  · split_ifs with h
    · subst h
      have : ∀ ω : ℕ → Bool, (if ω i then (1 : ℝ) else -1) * (if ω i then 1 else -1) = 1 := by intro ω; split_ifs <;> norm_num
      simp [this]
    · have hi := (ProbabilityTheory.iIndepFun_infinitePi (P := fun _ : ℕ => coin) (X := fun _ => g) fun _ => hm).indepFun h
      have := hi.integral_fun_mul_eq_mul_integral (hmi i).aestronglyMeasurable (hmi j).aestronglyMeasurable
      refine this.trans ?_
      have e : ∫ ω, g (ω i) ∂(Measure.infinitePi fun _ : ℕ => coin) = ∫ c, g c ∂coin := by
        have mp := measurePreserving_eval_infinitePi (fun _ : ℕ => coin) i
        have e2 := integral_map (μ := Measure.infinitePi fun _ : ℕ => coin) mp.measurable.aemeasurable (f := g) hm.aestronglyMeasurable
        rw [mp.map_eq] at e2
        exact e2.symm
      rw [e, hz, zero_mul]

/-- A `LowPass` at a quarter of the sample rate: 3/8 of the power with `q = 1/2`. -/
example (b : Build) (s : LowPass ℝ) : AmplifiesNoise b (s.setCoefficients 4 1 (1 / 2)) (3 / 8) := by
  have h : ValidParams 4 1 (1 / 2) := by norm_num [ValidParams]
  have e : angle 4 1 = Real.pi / 2 := by unfold angle; ring
  have := (C106_rbj (db := 0) b h (c := 0) (α := 1) (A := 1) (by rw [e, Real.cos_pi_div_two]) (by rw [e, Real.sin_pi_div_two]; norm_num) (by norm_num)).1 s
  norm_num at this
  exact this

example (b : Build) (s : HighShelf ℝ) : ∃ E, AmplifiesNoise b (s.setCoefficients 48 12 6 1) E :=
  ⟨_, (C106_shelves b (by norm_num [ValidShelf] : ValidShelf 48 12 1) rfl rfl rfl rfl rfl).2 s⟩

end Rasp
