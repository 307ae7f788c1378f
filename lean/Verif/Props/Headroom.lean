import Verif.Spec.Headroom
import Verif.Props.Convolution
import Verif.Props.Step
import Mathlib.Analysis.SpecificLimits.Basic
import Mathlib.Topology.Algebra.InfiniteSum.Real

/-!
# C107: headroom
-/

namespace Rasp
open FloatOps Filter
variable {σ : Type} [Processor σ ℝ] {b : Build} {s : σ} {b0 b1 b2 a1 a2 G : ℝ}

/-! ## The peak gain is the sum of the magnitudes of the impulse response -/

theorem abs_convolve_le {h x : ℕ → ℝ} {X : ℝ} (hx : ∀ k, |x k| ≤ X) (n : ℕ) : |convolve h x n| ≤ (∑ k ∈ Finset.range (n + 1), |h k|) * X := by
  unfold convolve
  refine (Finset.abs_sum_le_sum_abs _ _).trans ?_
  rw [Finset.sum_mul]
  refine Finset.sum_le_sum fun k _ => ?_
  rw [abs_mul]
  exact mul_le_mul_of_nonneg_left (hx _) (abs_nonneg _)

/-- The input that makes the `n`-th output largest. -/
theorem convolve_worst (h : ℕ → ℝ) (n : ℕ) : ∃ x : ℕ → ℝ, (∀ k, |x k| ≤ 1) ∧ convolve h x n = ∑ k ∈ Finset.range (n + 1), |h k| := by
  refine ⟨fun j => if 0 ≤ h (n - j) then 1 else -1, fun k => ?_, ?_⟩
  · beta_reduce; split_ifs <;> simp
  · unfold convolve
    refine Finset.sum_congr rfl fun k hk => ?_
    rw [Finset.mem_range] at hk
    beta_reduce
    rw [show n - (n - k) = k by omega]
    split_ifs with h0
    · rw [abs_of_nonneg h0, mul_one]
    · rw [abs_of_neg (not_le.mp h0)]; ring

theorem hasPeakGain_iff {h : ℕ → ℝ} (hc : ∀ x y, Responds b s x y ↔ y = convolve h x) : HasPeakGain b s G ↔ HasSum (fun n => |h n|) G := by
  have hle : ∀ G, HasSum (fun n => |h n|) G → HasPeakGain b s G := by
    intro G hG
    constructor
    · rintro v ⟨x, y, n, hx, hy, rfl⟩
      rw [(hc _ _).mp hy]
      have := abs_convolve_le (h := h) hx n
      rw [mul_one] at this
      exact this.trans (sum_le_hasSum _ (fun _ _ => abs_nonneg _) hG)
    · intro M hM
      refine le_of_tendsto hG.tendsto_sum_nat (Eventually.of_forall fun n => ?_)
      obtain ⟨x, hx, he⟩ := convolve_worst h n
      have h1 : |convolve h x n| ≤ M := hM ⟨x, _, n, hx, (hc _ _).mpr rfl, rfl⟩
      rw [he, abs_of_nonneg (Finset.sum_nonneg fun _ _ => abs_nonneg _), Finset.sum_range_succ] at h1
      linarith [abs_nonneg (h n)]
  refine ⟨fun hG => ?_, hle G⟩
  have hs : Summable fun n => |h n| := by
    refine summable_of_sum_range_le (c := G) (fun _ => abs_nonneg _) fun n => ?_
    obtain ⟨x, hx, he⟩ := convolve_worst h n
    have h1 : |convolve h x n| ≤ G := hG.1 ⟨x, _, n, hx, (hc _ _).mpr rfl, rfl⟩
    rw [he, abs_of_nonneg (Finset.sum_nonneg fun _ _ => abs_nonneg _), Finset.sum_range_succ] at h1
    linarith [abs_nonneg (h n)]
  have := hle _ hs.hasSum
  rw [hG.unique this]
  exact hs.hasSum

/-- **C107**: what the peak gain is, for everything that convolves (C87). -/
theorem C107_peak_gain (hc : IsConvolution b s) {h : ℕ → ℝ} (hh : Responds b s unitImpulse h) : HasPeakGain b s G ↔ HasSum (fun n => |h n|) G := by
  obtain ⟨k, hk, hi⟩ := hc
  rw [hh.unique hk]
  exact hasPeakGain_iff hi

/-- **C107**: stable filters have one. -/
theorem C107_exists (hs : IsBoundedGain s) : ∃ G, HasPeakGain b s G := by
  obtain ⟨ht, G, hG⟩ := hs
  refine Real.exists_isLUB ?_ ⟨G, ?_⟩
  · obtain ⟨y, hy⟩ := ht b fun _ => 0
    exact ⟨_, _, y, 0, fun _ => by simp, hy, rfl⟩
  · rintro v ⟨x, y, n, hx, hy, rfl⟩
    have := hG b x y 1 hy hx n
    rwa [mul_one] at this

/-! ## Responses that do not change sign -/

theorem Implements.impulse (hi : Implements s b0 b1 b2 a1 a2) {h : ℕ → ℝ} (hh : Responds b s unitImpulse h) :
    h 0 = b0 ∧ h 1 = b1 - a1 * h 0 ∧ h 2 = b2 - a1 * h 1 - a2 * h 0 ∧ ∀ n, h (n + 3) = -a1 * h (n + 2) - a2 * h (n + 1) := by
  have hd := (hi b _ _).mp hh
  refine ⟨?_, ?_, ?_, fun n => ?_⟩
  · rw [hd 0]; simp [lag, real_zero, unitImpulse]
  · rw [hd 1]; simp [lag, real_zero, unitImpulse]
  · rw [hd 2]; simp [lag, unitImpulse]
  · rw [hd (n + 3)]; simp [lag, unitImpulse]

/-- Changing the sign of the output (`ε`) or of every other sample (`δ`). -/
theorem Implements.flip {τ : Type} [Processor τ ℝ] {t : τ} {ε δ : ℝ} (hδ : δ ^ 2 = 1) (hi : Implements s b0 b1 b2 a1 a2)
    (ht : Implements t (ε * b0) (ε * δ * b1) (ε * b2) (δ * a1) a2) {h : ℕ → ℝ} (hh : Responds b s unitImpulse h) :
    Responds b t unitImpulse fun n => ε * δ ^ n * h n := by
  obtain ⟨d0, d1, d2, d3⟩ := hi.impulse hh
  rw [ht b]
  intro n
  match n with
  | 0 => simp [lag, real_zero, unitImpulse, d0]
  | 1 => simp [lag, real_zero, unitImpulse, d1]; ring
  | 2 => simp [lag, unitImpulse, d2]; linear_combination (ε * b2 - ε * a2 * h 0) * hδ
  | n + 3 =>
    simp [lag, unitImpulse, d3]
    have e : δ ^ (n + 3) = δ * δ ^ (n + 2) ∧ δ ^ (n + 2) = δ * δ ^ (n + 1) := ⟨by ring, by ring⟩
    rw [e.1, e.2]
    linear_combination (-(ε * a2 * δ ^ (n + 1) * h (n + 1))) * hδ

theorem hasPeakGain_flip {τ : Type} [Processor τ ℝ] {t : τ} {ε δ : ℝ} (hε : |ε| = 1) (hδ : δ ^ 2 = 1) (hi : Implements s b0 b1 b2 a1 a2)
    (ht : Implements t (ε * b0) (ε * δ * b1) (ε * b2) (δ * a1) a2) : HasPeakGain b t G ↔ HasPeakGain b s G := by
  obtain ⟨h, hh, -⟩ := hi.isConvolution b
  rw [C107_peak_gain (hi.isConvolution b) hh, C107_peak_gain (ht.isConvolution b) (hi.flip hδ ht hh)]
  have e : |δ| = 1 := by rwa [← sq_eq_sq₀ (abs_nonneg _) zero_le_one, sq_abs, one_pow]
  simp only [abs_mul, abs_pow, hε, e, one_pow, one_mul]

/-- A rising step response means an impulse response that is never negative. -/
theorem RisesTo.nonneg (hr : RisesTo s G) (hi : Implements s b0 b1 b2 a1 a2) (h0 : 0 ≤ b0) {h : ℕ → ℝ} (hh : Responds b s unitImpulse h) :
    (∀ n, 0 ≤ h n) ∧ HasSum h G := by
  obtain ⟨k, hk, hc⟩ := hi.isConvolution b
  obtain rfl := hh.unique hk
  obtain ⟨y, hy, hl, hm, -⟩ := hr b
  have hy' : ∀ n, y n = ∑ k ∈ Finset.range (n + 1), h k := by
    intro n
    rw [(hc _ _).mp hy, convolve]
    exact Finset.sum_congr rfl fun k _ => mul_one _
  have hn : ∀ n, 0 ≤ h n := by
    intro n
    cases n with
    | zero => rw [(hi.impulse hh).1]; exact h0
    | succ n =>
      have h1 := hm (Nat.le_succ n)
      rw [hy', hy', Finset.sum_range_succ _ (n + 1)] at h1
      linarith
  refine ⟨hn, ?_⟩
  rw [hasSum_iff_tendsto_nat_of_nonneg hn, ← tendsto_add_atTop_iff_nat 1]
  simpa only [← hy'] using hl

theorem RisesTo.hasPeakGain (hr : RisesTo s G) (hi : Implements s b0 b1 b2 a1 a2) (h0 : 0 ≤ b0) : HasPeakGain b s G := by
  obtain ⟨h, hh, -⟩ := hi.isConvolution b
  obtain ⟨hn, hG⟩ := hr.nonneg hi h0 hh
  rw [C107_peak_gain (hi.isConvolution b) hh]
  simpa only [abs_of_nonneg (hn _)] using hG

theorem RisesTo.staysInRange (hr : RisesTo s 1) (hi : Implements s b0 b1 b2 a1 a2) (h0 : 0 ≤ b0) : StaysInRange b s := by
  intro x y lo hi' hlo hhi hx hy n
  obtain ⟨h, hh, hc⟩ := hi.isConvolution b
  obtain ⟨hn, hG⟩ := hr.nonneg hi h0 hh
  have hsum : ∑ k ∈ Finset.range (n + 1), h k ≤ 1 := sum_le_hasSum _ (fun _ _ => hn _) hG
  rw [(hc _ _).mp hy, convolve]
  constructor
  · calc lo ≤ (∑ k ∈ Finset.range (n + 1), h k) * lo := by nlinarith
      _ ≤ _ := by rw [Finset.sum_mul]; exact Finset.sum_le_sum fun k _ => mul_le_mul_of_nonneg_left (hx _).1 (hn k)
  · calc ∑ k ∈ Finset.range (n + 1), h k * x (n - k) ≤ (∑ k ∈ Finset.range (n + 1), h k) * hi' := by
          rw [Finset.sum_mul]; exact Finset.sum_le_sum fun k _ => mul_le_mul_of_nonneg_left (hx _).2 (hn k)
      _ ≤ hi' := by nlinarith

theorem RingsAround.overloads (hr : RingsAround s 1) : Overloads b s := by
  obtain ⟨y, hy, -, ha, -⟩ := hr b
  obtain ⟨n, -, hn⟩ := ha 0
  exact ⟨_, y, n, fun _ => by simp, hy, hn.trans_le (le_abs_self _)⟩

theorem Overloads.one_lt (ho : Overloads b s) (hG : HasPeakGain b s G) : 1 < G := by
  obtain ⟨x, y, n, hx, hy, h⟩ := ho
  exact h.trans_le (hG.1 ⟨x, y, n, hx, hy, rfl⟩)

/-! ## Closed forms -/

/-- **C107**, basic filters: closed forms of the peak gain. -/
theorem C107_filters (b : Build) :
    (∀ s : OneZero ℝ, HasPeakGain b s.clear (|s.b0| + |s.b1|)) ∧
    (∀ s : TwoZero ℝ, HasPeakGain b s.clear (|s.b0| + |s.b1| + |s.b2|)) ∧
    (∀ s : OnePole ℝ, |s.a1| < 1 → HasPeakGain b s.clear (|s.b0| / (1 - |s.a1|))) ∧
    (∀ (s : TwoPole ℝ) (p r : ℝ), s.a1 = -(p + r) → s.a2 = p * r → |p| < 1 → |r| < 1 → 0 ≤ p * r →
      HasPeakGain b s.clear (|s.b0| / ((1 - |p|) * (1 - |r|)))) := by
  obtain ⟨h1, h2, h3, h4, h5, h6⟩ := C30_cleared_solve_difference_equation
  refine ⟨fun s => ?_, fun s => ?_, fun s hs => ?_, fun s p r e1 e2 hp hr hpr => ?_⟩
  · obtain ⟨h, hh, -⟩ := (h2 s).isConvolution b
    obtain ⟨d0, d1, d2, d3⟩ := (h2 s).impulse hh
    rw [C107_peak_gain ((h2 s).isConvolution b) hh]
    have e : |s.b0| + |s.b1| = ∑ n ∈ Finset.range 2, |h n| := by
      rw [Finset.sum_range_succ, Finset.sum_range_one, d1, d0]; simp
    rw [e]
    refine hasSum_sum_of_ne_finset_zero fun n hn => ?_
    · rw [Finset.mem_range] at hn
      match n with
      | 0 => omega
      | 1 => omega
      | 2 => rw [d2]; simp
      | n + 3 => rw [d3]; simp
  · obtain ⟨h, hh, -⟩ := (h4 s).isConvolution b
    obtain ⟨d0, d1, d2, d3⟩ := (h4 s).impulse hh
    rw [C107_peak_gain ((h4 s).isConvolution b) hh]
    have e : |s.b0| + |s.b1| + |s.b2| = ∑ n ∈ Finset.range 3, |h n| := by
      rw [Finset.sum_range_succ, Finset.sum_range_succ, Finset.sum_range_one, d2, d1, d0]; simp
    rw [e]
    refine hasSum_sum_of_ne_finset_zero fun n hn => ?_
    · rw [Finset.mem_range] at hn
      match n with
      | 0 => omega
      | 1 => omega
      | 2 => omega
      | n + 3 => rw [d3]; simp
  · obtain ⟨h, hh, -⟩ := (h1 s).isConvolution b
    have hd := (h1 s b _ _).mp hh
    rw [C107_peak_gain ((h1 s).isConvolution b) hh]
    have e : ∀ n, |h n| = |s.b0| * |s.a1| ^ n := by
      intro n
      induction n with
      | zero => rw [hd 0]; simp [lag, real_zero, unitImpulse]
      | succ n ih =>
        have : h (n + 1) = -(s.a1 * h n) := by rw [hd (n + 1)]; simp [lag, unitImpulse]
        rw [this, _root_.abs_neg, abs_mul, ih]; ring
    simp only [e, div_eq_mul_inv]
    exact (hasSum_geometric_of_lt_one (abs_nonneg _) hs).mul_left _
  · have hi := h3 s
    rw [e1, e2] at hi
    rw [abs_lt] at hp hr
    obtain ⟨δ, hδ, hp', hr'⟩ : ∃ δ : ℝ, δ ^ 2 = 1 ∧ |p| = δ * p ∧ |r| = δ * r := by
      by_cases c : 0 ≤ p ∧ 0 ≤ r
      · exact ⟨1, by norm_num, by rw [abs_of_nonneg c.1, one_mul], by rw [abs_of_nonneg c.2, one_mul]⟩
      · have : p ≤ 0 ∧ r ≤ 0 := by
          rcases lt_trichotomy p 0 with h | h | h
          · exact ⟨h.le, by by_contra h'; nlinarith⟩
          · exact ⟨h.le, by by_contra h'; exact c ⟨h.ge, by linarith⟩⟩
          · have : 0 ≤ r := by by_contra h'; nlinarith
            exact absurd ⟨h.le, this⟩ c
        exact ⟨-1, by norm_num, by rw [abs_of_nonpos this.1]; ring, by rw [abs_of_nonpos this.2]; ring⟩
    obtain ⟨ε, hε, hb⟩ : ∃ ε : ℝ, |ε| = 1 ∧ |s.b0| = ε * s.b0 := by
      rcases le_total 0 s.b0 with h | h
      · exact ⟨1, by simp, by rw [abs_of_nonneg h, one_mul]⟩
      · exact ⟨-1, by simp, by rw [abs_of_nonpos h]; ring⟩
    have ht : Implements ((TwoPole.new : TwoPole ℝ).setCoefficients |s.b0| (-(|p| + |r|)) (|p| * |r|)) |s.b0| 0 0 (-(|p| + |r|)) (|p| * |r|) :=
      fun b x y => (C30_new_solve_difference_equation _ 0 0 _ _).2.2.1 b x y
    have hrise := (C105_twoPole (b0 := |s.b0|) (a1 := 0) (a2 := 0)).2 |p| |r| (abs_nonneg _) (abs_nonneg _) (abs_lt.2 hp) (abs_nonneg _) (abs_lt.2 hr)
    have := hrise.hasPeakGain (b := b) ht (abs_nonneg _)
    refine (hasPeakGain_flip hε hδ hi (t := (TwoPole.new : TwoPole ℝ).setCoefficients |s.b0| (-(|p| + |r|)) (|p| * |r|)) ?_).mp this
    convert ht using 1
    · exact hb.symm
    · ring
    · ring
    · rw [hp', hr']; ring
    · rw [hp', hr']; linear_combination (-p * r) * hδ

/-- **C107**: a pole on or outside the unit circle has no peak gain. -/
theorem C107_onePole_unstable (b : Build) (s : OnePole ℝ) (h0 : s.b0 ≠ 0) (h1 : 1 ≤ |s.a1|) (G : ℝ) : ¬ HasPeakGain b s.clear G := by
  intro hG
  have hi := C30_cleared_solve_difference_equation.1 s
  obtain ⟨h, hh, -⟩ := hi.isConvolution b
  rw [C107_peak_gain (hi.isConvolution b) hh] at hG
  have hd := (hi b _ _).mp hh
  have hge : ∀ n, |s.b0| ≤ |h n| := by
    intro n
    induction n with
    | zero => rw [hd 0]; simp [lag, real_zero, unitImpulse]
    | succ n ih =>
      have e : h (n + 1) = -(s.a1 * h n) := by rw [hd (n + 1)]; simp [lag, unitImpulse]
      rw [e, _root_.abs_neg, abs_mul]
      nlinarith [abs_nonneg (h n)]
  have := ge_of_tendsto hG.summable.tendsto_atTop_zero (Eventually.of_forall hge)
  have := abs_pos.mpr h0
  linarith

/-- **C107**, `LeakyIntegrator`: peak gain 1 with a coefficient from 0 to 1. -/
theorem C107_leakyIntegrator (b : Build) (s : LeakyIntegrator ℝ) (h : |s.getAlpha| < 1) :
    HasPeakGain b s.clear ((1 - s.getAlpha) / (1 - |s.getAlpha|)) ∧ (0 ≤ s.getAlpha → HasPeakGain b s.clear 1) := by
  have h1 := (C107_filters b).2.2.1 { y_z1 := 0, b0 := 1 - s.getAlpha, a1 := -s.getAlpha } (by simpa using h)
  have h2 : HasPeakGain b s.clear ((1 - s.getAlpha) / (1 - |s.getAlpha|)) := by
    have e : |1 - s.getAlpha| = 1 - s.getAlpha := abs_of_pos (by linarith [(abs_lt.mp h).2])
    rw [_root_.abs_neg, e] at h1
    obtain ⟨k, hk, hc⟩ := (C30_cleared_solve_difference_equation.1 { y_z1 := 0, b0 := 1 - s.getAlpha, a1 := -s.getAlpha }).isConvolution b
    rw [hasPeakGain_iff hc] at h1
    rw [hasPeakGain_iff fun x y => (C48_is_onePole s.clear b x y).trans (hc x y)]
    exact h1
  refine ⟨h2, fun h0 => ?_⟩
  rwa [abs_of_nonneg h0, div_self (by linarith [(abs_lt.mp h).2])] at h2

/-- **C107**, delay lines: peak gain 1. -/
theorem C107_delays [Target] {m : ℕ} (hm : Allocatable ℝ m) :
    (∀ (d : ℕ) (s : Delay ℝ), Delay.new b d m = .ok s → HasPeakGain b s 1) ∧
    (∀ (d : ℝ) (s : LinearDelay ℝ ℝ), LinearDelay.new b d m = .ok s → HasPeakGain b s 1) := by
  refine ⟨fun d s hs => ?_, fun d s hs => ?_⟩
  · obtain ⟨s', hs', h⟩ := C07_new_delay_is_pure_delay (b := b) (d := d) hm
    rw [hs'] at hs
    cases hs
    rw [hasPeakGain_iff (h := fun k => if k = min d m then 1 else 0) fun x y => by rw [h, convolve_delta]; rfl]
    convert hasSum_ite_eq (min d m) (1 : ℝ) using 2 with n
    split_ifs <;> simp
  · obtain ⟨s', hs', hg, h⟩ := C20_new_interpolates (b := b) hm d
    rw [hs'] at hs
    cases hs
    rw [hasPeakGain_iff fun x y => by rw [h, convolve_tent]]
    have h0 : 0 ≤ max 0 (min d m) := le_max_left _ _
    generalize max 0 (min d m) = d' at *
    have h1 := Nat.floor_le h0
    have h2 := Nat.lt_floor_add_one d'
    convert (hasSum_ite_eq ⌊d'⌋₊ (1 - (d' - ⌊d'⌋₊))).add (hasSum_ite_eq (⌊d'⌋₊ + 1) (d' - ⌊d'⌋₊)) using 1
    · funext n
      unfold tent
      split_ifs
      · omega
      · simpa using h2.le.trans_eq (add_comm _ _)
      · simpa using h1
      · simp
    · ring

variable {sr f q : ℝ}

theorem HighPass.implements_flip (s : HighPass ℝ) (hsr : 0 < sr) :
    Implements (s.setCoefficients sr f q) (1 * ((1 - Real.cos (angle sr (sr / 2 - f))) / 2 / (1 + alphaQ sr (sr / 2 - f) q)))
      (1 * -1 * ((1 - Real.cos (angle sr (sr / 2 - f))) / (1 + alphaQ sr (sr / 2 - f) q)))
      (1 * ((1 - Real.cos (angle sr (sr / 2 - f))) / 2 / (1 + alphaQ sr (sr / 2 - f) q)))
      (-1 * (-2 * Real.cos (angle sr (sr / 2 - f)) / (1 + alphaQ sr (sr / 2 - f) q))) ((1 - alphaQ sr (sr / 2 - f) q) / (1 + alphaQ sr (sr / 2 - f) q)) := by
  have e : angle sr (sr / 2 - f) = Real.pi - angle sr f := by unfold angle; field_simp
  have e1 : alphaQ sr (sr / 2 - f) q = alphaQ sr f q := by unfold alphaQ; rw [e, Real.sin_pi_sub]
  rw [e1, e, Real.cos_pi_sub]
  convert s.implements sr f q using 1 <;> ring

/-- **C107**, low and high pass filters with `q` at most 1/2, on their side of a quarter of the sample rate, need no headroom. -/
theorem C107_no_headroom (b : Build) (h : ValidParams sr f q) (hq : q ≤ 1 / 2) (hs : Real.sin (angle sr f) ≤ 2 * q) :
    (f ≤ sr / 4 → ∀ s : LowPass ℝ, HasPeakGain b (s.setCoefficients sr f q) 1 ∧ StaysInRange b (s.setCoefficients sr f q)) ∧
    (sr / 4 ≤ f → ∀ s : HighPass ℝ, HasPeakGain b (s.setCoefficients sr f q) 1) := by
  refine ⟨fun hf s => ?_, fun hf s => ?_⟩
  · have hr := C105_lowPass_rises h hq hf hs s
    have h0 : 0 ≤ (1 - Real.cos (angle sr f)) / 2 / (1 + alphaQ sr f q) := by
      have := h.alphaQ_pos
      have := Real.cos_le_one (angle sr f)
      exact div_nonneg (by linarith) (by linarith)
    exact ⟨hr.hasPeakGain (s.implements sr f q) h0, hr.staysInRange (s.implements sr f q) h0⟩
  · have hsr : 0 < sr := by linarith [h.1, h.2.1]
    have e : angle sr (sr / 2 - f) = Real.pi - angle sr f := by unfold angle; field_simp
    have hv : ValidParams sr (sr / 2 - f) q := ⟨by linarith [h.2.1], by linarith [h.1], h.2.2⟩
    have hr := C105_lowPass_rises hv hq (by linarith) (by rw [e, Real.sin_pi_sub]; exact hs) LowPass.new
    have h0 : 0 ≤ (1 - Real.cos (angle sr (sr / 2 - f))) / 2 / (1 + alphaQ sr (sr / 2 - f) q) := by
      have := hv.alphaQ_pos
      have := Real.cos_le_one (angle sr (sr / 2 - f))
      exact div_nonneg (by linarith) (by linarith)
    have hp := hr.hasPeakGain (b := b) (LowPass.new.implements sr (sr / 2 - f) q) h0
    exact (hasPeakGain_flip (by simp) (by norm_num) (LowPass.new.implements sr (sr / 2 - f) q) (s.implements_flip hsr)).mpr hp

theorem overloads_of_one_lt (hG : HasPeakGain b s G) (h : 1 < G) : Overloads b s := by
  obtain ⟨v, ⟨x, y, n, hx, hy, rfl⟩, hv⟩ := (lt_isLUB_iff hG).mp h
  exact ⟨x, y, n, hx, hy, hv⟩

/-- **C107**: with `q` above 1/2, and already above `sin(w0)/2` on the other side of a quarter of the sample rate, they do need headroom, and so do
`BandStop` and `AllPass`. -/
theorem C107_overload (b : Build) (h : ValidParams sr f q) :
    ((1 / 2 < q ∨ (sr / 4 ≤ f ∧ Real.sin (angle sr f) < 2 * q)) →
      (∀ s : LowPass ℝ, Overloads b (s.setCoefficients sr f q)) ∧ (∀ s : BandStop ℝ, Overloads b (s.setCoefficients sr f q)) ∧
      (∀ s : AllPass ℝ, Overloads b (s.setCoefficients sr f q))) ∧
    ((1 / 2 < q ∨ (f ≤ sr / 4 ∧ Real.sin (angle sr f) < 2 * q)) → ∀ s : HighPass ℝ, Overloads b (s.setCoefficients sr f q)) := by
  refine ⟨fun hc => ?_, fun hc s => ?_⟩
  · obtain ⟨h1, -, -, -, h2, h3⟩ := C105_rings h hc
    exact ⟨fun s => (h1 s).overloads, fun s => (h2 s).overloads, fun s => (h3 s).overloads⟩
  · have hsr : 0 < sr := by linarith [h.1, h.2.1]
    have e : angle sr (sr / 2 - f) = Real.pi - angle sr f := by unfold angle; field_simp
    have hv : ValidParams sr (sr / 2 - f) q := ⟨by linarith [h.2.1], by linarith [h.1], h.2.2⟩
    have hr := (C105_rings hv (by rw [e, Real.sin_pi_sub]; exact hc.imp_right fun h => ⟨by linarith [h.1], h.2⟩)).1 LowPass.new
    have i := LowPass.new.implements sr (sr / 2 - f) q
    obtain ⟨G, hG⟩ := C107_exists (b := b) (i.isBoundedGain (hv.stable hv.alphaQ_pos))
    have h1 := (hr.overloads (b := b)).one_lt hG
    exact overloads_of_one_lt ((hasPeakGain_flip (by simp) (by norm_num) i (s.implements_flip hsr)).mpr hG) h1

/-- **C107**: equalisers overload even when they only cut. -/
theorem C107_overload_equalisers (b : Build) {db S : ℝ} (hdb : db ≠ 0) :
    (ValidParams sr f q → 1 / 2 < q * 10 ^ (db / 40) → ∀ s : Peak ℝ, Overloads b (s.setCoefficients sr f db q)) ∧
    (ValidShelf sr f S → ((10 : ℝ) ^ (db / 40) + 1 / 10 ^ (db / 40)) * (1 / S - 1) < 2 → ∀ s : HighShelf ℝ,
      Overloads b (s.setCoefficients sr f db S)) :=
  ⟨fun h hq s => (C105_rings_peak h hdb (.inl hq) s).overloads, fun h hc s => ((C105_rings_shelves h hdb hc).2 s).overloads⟩

/-! ## The hypotheses can be met -/

example (b : Build) (s : LowPass ℝ) : HasPeakGain b (s.setCoefficients 12 1 (1 / 2)) 1 ∧ Overloads b (s.setCoefficients 12 1 (3 / 5)) :=
  ⟨((C107_no_headroom b ⟨by norm_num, by norm_num, by norm_num⟩ le_rfl (by rw [angle_12]; norm_num)).1 (by norm_num) s).1,
    ((C107_overload b ⟨by norm_num, by norm_num, by norm_num⟩).1 (.inl (by norm_num))).1 s⟩

example (b : Build) (s : HighPass ℝ) : HasPeakGain b (s.setCoefficients 12 5 (1 / 2)) 1 ∧ Overloads b (s.setCoefficients 12 1 (1 / 2)) := by
  have e : Real.sin (angle 12 5) = 1 / 2 := by
    have : angle 12 5 = Real.pi - Real.pi / 6 := by unfold angle; ring
    rw [this, Real.sin_pi_sub, Real.sin_pi_div_six]
  exact ⟨(C107_no_headroom b ⟨by norm_num, by norm_num, by norm_num⟩ le_rfl (by rw [e]; norm_num)).2 (by norm_num) s,
    (C107_overload b ⟨by norm_num, by norm_num, by norm_num⟩).2 (.inr ⟨by norm_num, by rw [angle_12]; norm_num⟩) s⟩

/-- A shelf that lowers the treble by 6 dB. -/
example (b : Build) (s : HighShelf ℝ) : Overloads b (s.setCoefficients 48 12 (-6) 1) :=
  (C107_overload_equalisers (q := 1) b (by norm_num)).2 ⟨by norm_num, by norm_num, by norm_num, by norm_num⟩ (by norm_num) s

end Rasp
