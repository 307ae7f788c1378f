import Verif.Props.Shape
import Verif.Props.Leaky
import Verif.Props.Step
import Verif.Props.Envelope
import Verif.Props.PassThrough

/-!
# C122: what the documentation says about the processors, where the code does something else or it was not yet stated

All theorems but `C122_integrator_unaltered` are about exact arithmetic. DESIGN.md has the table of the other documented claims.
-/

namespace Rasp
open FloatOps Filter Topology

/-! ## The equation of `TwoPole` -/

/-- **C122.** `TwoPole` is documented (src/filter/two_pole.rs:10) as `y[n] = b0*x[n] - a1*y[n-1] - a2*x[n-2]`, with an `x` at the
end. It only does that without its second pole. -/
theorem C122_twoPole (b0 a1 a2 : ℝ) :
    (∀ (b : Build) (x y : ℕ → ℝ), Responds b ((TwoPole.new : TwoPole ℝ).setCoefficients b0 a1 a2) x y →
      ∀ n, y n = b0 * x n - a1 * lag y 1 n - a2 * lag x 2 n) ↔ a2 = 0 := by
  have hi : Implements ((TwoPole.new : TwoPole ℝ).setCoefficients b0 a1 a2) b0 0 0 a1 a2 :=
    (C30_new_solve_difference_equation b0 0 0 a1 a2).2.2.1
  constructor
  · intro h
    by_contra ha
    set x : ℕ → ℝ := fun n => if n = 0 then 1 else 0 with hx
    obtain ⟨y, hy⟩ := NeverPanics.responds (fun _ _ _ => ⟨_, _, rfl⟩) ⟨true⟩ ((TwoPole.new : TwoPole ℝ).setCoefficients b0 a1 a2) x
    have hc := (hi _ _ _).mp hy
    have hd := h _ x y hy
    have c0 := hc 0
    have c1 := hc 1
    have c2 := hc 2
    have c3 := hc 3
    have c4 := hc 4
    have d2 := hd 2
    have d3 := hd 3
    have d4 := hd 4
    simp [hx, lag] at c0 c1 c2 c3 c4 d2 d3 d4
    have e2 : a2 * (y 0 - 1) = 0 := by linear_combination c2 - d2
    have e3 : a2 * y 1 = 0 := by linear_combination c3 - d3
    have e4 : a2 * y 2 = 0 := by linear_combination c4 - d4
    have f2 := (mul_eq_zero.mp e2).resolve_left ha
    have f3 := (mul_eq_zero.mp e3).resolve_left ha
    have f4 := (mul_eq_zero.mp e4).resolve_left ha
    rw [f3, f4] at c2
    apply ha
    linear_combination c2 - a2 * f2
  · rintro rfl b x y hy n
    have := (hi _ _ _).mp hy n
    rw [this]; ring

/-- The case of two poles occurs. -/
example : ¬ ∀ (b : Build) (x y : ℕ → ℝ), Responds b ((TwoPole.new : TwoPole ℝ).setCoefficients 1 (-1) (1 / 2)) x y →
      ∀ n, y n = 1 * x n - -1 * lag y 1 n - 1 / 2 * lag x 2 n := by
  rw [C122_twoPole]; norm_num

/-! ## The leaky integrator as a `OnePole` -/

/-- **C122.** `LeakyIntegrator` is documented (src/analysis/leaky_integrator.rs:8-12) as the `OnePole` filter with `a1 = 1 - b0`,
where `a1` is its `alpha`. With the sign that `OnePole` gives to `a1`, that is only so for the gain 0. -/
theorem C122_leaky {a : ℝ} (h0 : 0 ≤ a) (h1 : a < 1) :
    (∀ (b : Build) (x y : ℕ → ℝ), Responds b ((LeakyIntegrator.new : LeakyIntegrator ℝ).setAlpha a) x y ↔
      Responds b ((OnePole.new : OnePole ℝ).setCoefficients (1 - a) a) x y) ↔ a = 0 := by
  have hs : (LeakyIntegrator.new : LeakyIntegrator ℝ).setAlpha a = { alpha := a, y_z1 := 0 } := by
    unfold LeakyIntegrator.setAlpha
    rw [if_pos (by rw [Bool.and_eq_true, real_le, real_lt]; exact ⟨h0, h1⟩)]
    rfl
  have hi : Implements ((OnePole.new : OnePole ℝ).setCoefficients (1 - a) a) (1 - a) 0 0 a 0 :=
    (C30_new_solve_difference_equation (1 - a) 0 0 a 0).1
  rw [hs]
  constructor
  · intro h
    have hr := C47_step_response { alpha := a, y_z1 := 0 } 1 ⟨true⟩
    have e := (hi _ _ _).mp ((h _ _ _).mp hr)
    have e1 := e 1
    simp [lag, LeakyIntegrator.getAlpha, LeakyIntegrator.lastOut] at e1
    have : a * (1 - a) = 0 := by linear_combination e1 / 2
    rcases mul_eq_zero.mp this with h | h
    · exact h
    · linarith
  · rintro rfl b x y
    rw [C48_is_onePole]
    simp [LeakyIntegrator.getAlpha, LeakyIntegrator.lastOut, OnePole.new, OnePole.setCoefficients]

/-- The other sign is the right one. -/
example : ∀ (b : Build) (x y : ℕ → ℝ), Responds b ((LeakyIntegrator.new : LeakyIntegrator ℝ).setAlpha (1 / 2)) x y ↔
      Responds b ((OnePole.new : OnePole ℝ).setCoefficients (1 / 2) (-(1 / 2))) x y := by
  intro b x y
  have hs : (LeakyIntegrator.new : LeakyIntegrator ℝ).setAlpha (1 / 2) = { alpha := 1 / 2, y_z1 := 0 } := by
    unfold LeakyIntegrator.setAlpha
    rw [if_pos (by rw [Bool.and_eq_true, real_le, real_lt]; norm_num)]
    rfl
  rw [hs, C48_is_onePole]
  simp only [LeakyIntegrator.getAlpha, LeakyIntegrator.lastOut, OnePole.new, OnePole.setCoefficients]
  norm_num

theorem FP.finite_of_eq {f : Fmt} {x y : FP f} (hy : y.Finite) (h : FP.eq x y = true) : x.Finite := by
  obtain ⟨s, a, ha, rfl⟩ := FP.finite_cases hy
  cases x with
  | fin => trivial
  | inf t => cases t <;> simp [FP.eq, FP.le] at h
  | nan => simp [FP.eq, FP.le_nan_left] at h

/-- **C122.** A new integrator is documented (src/analysis/leaky_integrator.rs:23) not to alter the input. In floating point it
returns a finite stream unaltered (up to the sign of zeros) exactly if no difference of successive samples overflows: the gain 0 is
multiplied by that difference. -/
theorem C122_integrator_unaltered {f : Fmt} {L : Libm f} (b : Build) (x : ℕ → Fl L) (hx : ∀ n, (x n).Finite) :
    ∃ y, Responds b (LeakyIntegrator.new : LeakyIntegrator (Fl L)) x y ∧
      ((∀ n, Fl.eq (y n) (x n) = true) ↔ ∀ n, FP.NoOvf f ((x n).toReal - (x (n + 1)).toReal)) := by
  obtain ⟨y, hy⟩ := NeverPanics.responds (fun _ _ _ => ⟨_, _, rfl⟩) b (LeakyIntegrator.new : LeakyIntegrator (Fl L)) x
  have e : ∀ n, y n = x n +. zero *. (before zero y n -. x n) := by
    refine (responds_iff_of_states (s := (LeakyIntegrator.new : LeakyIntegrator (Fl L))) (b := b)
      (fun n => { alpha := zero, y_z1 := before zero y n }) _ rfl fun n => ⟨_, rfl, fun h => ?_⟩).mp hy
    show _ = LeakyIntegrator.mk zero (y n)
    rw [h]
  have step : ∀ n z, Fl.Finite z → FP.NoOvf f (Fl.toReal z - (x n).toReal) →
      (x n +. zero *. (z -. x n)).Finite ∧ (x n +. zero *. (z -. x n)).toReal = (x n).toReal := by
    intro n z hz ho
    have hm := Fl.zero_mul_val (Fl.sub_val hz (hx n) ho).1
    exact Fl.add_zero_val (hx n) hm.1 hm.2
  have first : (y 0).Finite ∧ (y 0).toReal = (x 0).toReal := by
    rw [e 0]
    refine step 0 _ Fl.zero_finite ?_
    have := Fl.noOvf_toReal (x 0)
    unfold FP.NoOvf at this ⊢
    rwa [before, Fl.zero_toReal, zero_sub, rnd_neg, abs_neg]
  refine ⟨y, hy, fun h n => ?_, fun h => ?_⟩
  · have fin : ∀ n, (y n).Finite := by
      intro n
      exact FP.finite_of_eq (hx n) (h n)
    by_contra ho
    have := fin (n + 1)
    rw [e (n + 1)] at this
    refine Fl.add_not_finite_right (Fl.mul_not_finite_right (Fl.sub_ovf (fin n) (hx (n + 1)) ?_)) this
    show ¬ FP.NoOvf f ((y n).toReal - _)
    rwa [(Fl.eq_iff (fin n) (hx n)).mp (h n)]
  · have key : ∀ n, (y n).Finite ∧ (y n).toReal = (x n).toReal := by
      intro n
      induction n with
      | zero => exact first
      | succ n ih =>
        rw [e (n + 1)]
        refine step (n + 1) _ ih.1 ?_
        show FP.NoOvf f ((y n).toReal - _)
        rw [ih.2]
        exact h n
    exact fun n => (Fl.eq_iff (key n).1 (hx n)).mpr (key n).2

/-- Samples that are all the same meet the condition. -/
example {f : Fmt} {L : Libm f} (x : Fl L) : ∀ n : ℕ, FP.NoOvf f (((fun _ => x) n : Fl L).toReal - ((fun _ => x) (n + 1) : Fl L).toReal) := by
  intro n
  rw [sub_self]
  unfold FP.NoOvf
  rw [rnd_zero, abs_zero]
  exact FP.lim_pos f

/-! ## Detectors with none or one of their two lengths set -/

theorem setAttack_new {len : ℝ} (h : 0 < len) : (PeakEnvDetector.new : PeakEnvDetector ℝ).setAttack len =
    { attack_gain := Real.exp (-1 / len), release_gain := 0, envelope := 0 } := by
  unfold PeakEnvDetector.setAttack
  rw [if_pos (by rw [Bool.and_eq_true, real_lt]; exact ⟨h, rfl⟩)]
  rfl

theorem setRelease_new {len : ℝ} (h : 0 < len) : (PeakEnvDetector.new : PeakEnvDetector ℝ).setRelease len =
    { attack_gain := 0, release_gain := Real.exp (-1 / len), envelope := 0 } := by
  unfold PeakEnvDetector.setRelease
  rw [if_pos (by rw [Bool.and_eq_true, real_lt]; exact ⟨h, rfl⟩)]
  rfl

theorem rms_setAttack_new {len : ℝ} (h : 0 < len) : (RmsEnvDetector.new : RmsEnvDetector ℝ).setAttack len =
    { attack_gain := Real.exp (-1 / len), release_gain := 0, envelope := 0 } := by
  unfold RmsEnvDetector.setAttack
  rw [if_pos (by rw [Bool.and_eq_true, real_lt]; exact ⟨h, rfl⟩)]
  rfl

theorem rms_setRelease_new {len : ℝ} (h : 0 < len) : (RmsEnvDetector.new : RmsEnvDetector ℝ).setRelease len =
    { attack_gain := 0, release_gain := Real.exp (-1 / len), envelope := 0 } := by
  unfold RmsEnvDetector.setRelease
  rw [if_pos (by rw [Bool.and_eq_true, real_lt]; exact ⟨h, rfl⟩)]
  rfl

theorem follow_attack {a e v : ℝ} (ha : 0 ≤ a) :
    v + (if lt e v = true then a else 0) * (e - v) = min v (v + a * (e - v)) := by
  by_cases h : e < v
  · rw [if_pos ((real_lt _ _).mpr h), min_eq_right]
    nlinarith
  · rw [if_neg (by rw [real_lt]; exact h), min_eq_left]
    · ring
    · nlinarith

theorem follow_release {a e v : ℝ} (ha : 0 ≤ a) :
    v + (if lt e v = true then 0 else a) * (e - v) = max v (v + a * (e - v)) := by
  by_cases h : e < v
  · rw [if_pos ((real_lt _ _).mpr h), max_eq_left]
    · ring
    · nlinarith
  · rw [if_neg (by rw [real_lt]; exact h), max_eq_right]
    nlinarith

theorem peak_responds_iff (a r : ℝ) (b : Build) (x y : ℕ → ℝ) :
    Responds b ({ attack_gain := a, release_gain := r, envelope := 0 } : PeakEnvDetector ℝ) x y ↔
      ∀ n, y n = |x n| + (if lt (lag y 1 n) |x n| = true then a else r) * (lag y 1 n - |x n|) := by
  refine responds_iff_of_states (fun n => { attack_gain := a, release_gain := r, envelope := lag y 1 n }) _ rfl fun n => ?_
  refine ⟨_, rfl, fun h => ?_⟩
  simp only [lag_one_succ]
  rw [h]
  rfl

theorem rms_responds_iff {a r : ℝ} (ha0 : 0 ≤ a) (ha1 : a ≤ 1) (hr0 : 0 ≤ r) (hr1 : r ≤ 1) (b : Build) (x y : ℕ → ℝ) :
    Responds b ({ attack_gain := a, release_gain := r, envelope := 0 } : RmsEnvDetector ℝ) x y ↔
      ∀ n, y n = Real.sqrt (x n ^ 2 + (if lt (lag y 1 n ^ 2) (x n ^ 2) = true then a else r) * (lag y 1 n ^ 2 - x n ^ 2)) := by
  refine responds_iff_of_states (fun n => { attack_gain := a, release_gain := r, envelope := lag y 1 n ^ 2 }) _ (by simp [lag]) fun n => ?_
  refine ⟨⟨a, r, x n ^ 2 + (if lt (lag y 1 n ^ 2) (x n ^ 2) = true then a else r) * (lag y 1 n ^ 2 - x n ^ 2)⟩, ?_, fun h => ?_⟩
  · show Except.ok _ = Except.ok _
    simp only [RmsEnvDetector.process, real_mul, real_add, real_sub, real_sqrt, ← pow_two]
  · simp only [lag_one_succ]
    rw [h, Real.sq_sqrt]
    split <;> nlinarith [sq_nonneg (x n), sq_nonneg (lag y 1 n)]

theorem exp_neg_inv_le {len : ℝ} (h : 0 < len) : Real.exp (-1 / len) ≤ 1 := by
  rw [Real.exp_le_one_iff]
  exact div_nonpos_of_nonpos_of_nonneg (by norm_num) h.le

/-- **C122.** Both detectors are documented (lines 20-34 of their files) to leave the input as it is when new and not to work
before both lengths are set. New, they leave exactly the streams without negative samples as they are. -/
theorem C122_unaltered (b : Build) (x : ℕ → ℝ) :
    (Responds b (PeakEnvDetector.new : PeakEnvDetector ℝ) x x ↔ ∀ n, 0 ≤ x n) ∧
    (Responds b (RmsEnvDetector.new : RmsEnvDetector ℝ) x x ↔ ∀ n, 0 ≤ x n) := by
  have e1 : (PeakEnvDetector.new : PeakEnvDetector ℝ) = { attack_gain := 0, release_gain := 0, envelope := 0 } := rfl
  have e2 : (RmsEnvDetector.new : RmsEnvDetector ℝ) = { attack_gain := 0, release_gain := 0, envelope := 0 } := rfl
  rw [e1, e2, peak_responds_iff, rms_responds_iff le_rfl zero_le_one le_rfl zero_le_one]
  simp only [ite_self, zero_mul, add_zero, Real.sqrt_sq_eq_abs]
  simp only [eq_comm (b := |_|), abs_eq_self, and_self]

/-- **C122.** With the attack length alone, the detectors do work: they follow a rising level with that time constant and a falling
level at once. -/
theorem C122_attack_only {len : ℝ} (h : 0 < len) (b : Build) (x y : ℕ → ℝ) :
    (Responds b ((PeakEnvDetector.new : PeakEnvDetector ℝ).setAttack len) x y ↔
      ∀ n, y n = min |x n| (|x n| + Real.exp (-1 / len) * (lag y 1 n - |x n|))) ∧
    (Responds b ((RmsEnvDetector.new : RmsEnvDetector ℝ).setAttack len) x y ↔
      ∀ n, y n = Real.sqrt (min (x n ^ 2) (x n ^ 2 + Real.exp (-1 / len) * (lag y 1 n ^ 2 - x n ^ 2)))) := by
  have hp := (Real.exp_pos (-1 / len)).le
  rw [setAttack_new h, rms_setAttack_new h, peak_responds_iff, rms_responds_iff hp (exp_neg_inv_le h) le_rfl zero_le_one]
  simp only [follow_attack hp, and_self]

/-- **C122.** With the release length alone, they follow a rising level at once and a falling level with that time constant. -/
theorem C122_release_only {len : ℝ} (h : 0 < len) (b : Build) (x y : ℕ → ℝ) :
    (Responds b ((PeakEnvDetector.new : PeakEnvDetector ℝ).setRelease len) x y ↔
      ∀ n, y n = max |x n| (|x n| + Real.exp (-1 / len) * (lag y 1 n - |x n|))) ∧
    (Responds b ((RmsEnvDetector.new : RmsEnvDetector ℝ).setRelease len) x y ↔
      ∀ n, y n = Real.sqrt (max (x n ^ 2) (x n ^ 2 + Real.exp (-1 / len) * (lag y 1 n ^ 2 - x n ^ 2)))) := by
  have hp := (Real.exp_pos (-1 / len)).le
  rw [setRelease_new h, rms_setRelease_new h, peak_responds_iff, rms_responds_iff le_rfl zero_le_one hp (exp_neg_inv_le h)]
  simp only [follow_release hp, and_self]

/-- A click into a detector with a release: it decays exponentially, so it is not the magnitude of the input. -/
example : Responds ⟨true⟩ ((PeakEnvDetector.new : PeakEnvDetector ℝ).setRelease 1) (fun n => if n = 0 then -1 else 0)
    (fun n => Real.exp (-n)) := by
  rw [(C122_release_only one_pos _ _ _).1]
  rintro (_ | n)
  · simp [lag, Real.exp_nonneg]
  · rw [lag_one_succ]
    simp only [Nat.add_eq_zero_iff, one_ne_zero, and_false, if_false, abs_zero, zero_add, sub_zero, div_one]
    rw [max_eq_right (by positivity), ← Real.exp_add]
    congr 1
    push_cast; ring

/-! ## Skirts of the band-pass filters -/

section
variable {sr f q : ℝ}

/-- The gain of a filter whose numerator is `n1 c s`, divided by its growth at 0 and times its decay at π. -/
theorem skirts_of {σ : Type} [Processor σ ℝ] {s : σ} {k m d : ℝ} (hk : 0 < k) (hm : 0 ≤ m) (p : Profile s k 0 (m ^ 2) 0 1 d 1) (g : ℝ → ℝ)
    (hg : ∀ w, 0 < w → w < Real.pi → HasGain s w (g w)) :
    Tendsto (fun w => g w / Real.tan (w / 2)) (𝓝[>] 0) (𝓝 (m / k)) ∧
    Tendsto (fun w => g w * Real.tan (w / 2)) (𝓝[<] Real.pi) (𝓝 (m * k)) := by
  have hpi := Real.pi_pos
  have hcos : ∀ w, 0 < w → w < Real.pi → 0 < Real.cos (w / 2) ∧ 0 < Real.sin (w / 2) := fun w h0 h1 =>
    ⟨Real.cos_pos_of_mem_Ioo ⟨by linarith, by linarith⟩, Real.sin_pos_of_pos_of_lt_pi (by linarith) (by linarith)⟩
  have key : ∀ w, 0 < w → w < Real.pi → 0 < 1 * cc w ^ 2 + d * cc w * ss k w + 1 * ss k w ^ 2 ∧
      g w ^ 2 * (1 * cc w ^ 2 + d * cc w * ss k w + 1 * ss k w ^ 2) = m ^ 2 * (cc w * ss k w) ∧ 0 ≤ g w := by
    intro w h0 h1
    obtain ⟨g', hg', hD, hN⟩ := p w
    rw [(hg w h0 h1).unique hg']
    exact ⟨hD, by linear_combination hN, hg'.1⟩
  have cont : Continuous fun w => 1 * cc w ^ 2 + d * cc w * ss k w + 1 * ss k w ^ 2 := by
    unfold cc ss; fun_prop
  constructor
  · have h : Tendsto (fun w => m / k * (cc w / Real.sqrt (1 * cc w ^ 2 + d * cc w * ss k w + 1 * ss k w ^ 2))) (𝓝[>] 0) (𝓝 (m / k)) := by
      have c1 : ContinuousAt (fun w => m / k * (cc w / Real.sqrt (1 * cc w ^ 2 + d * cc w * ss k w + 1 * ss k w ^ 2))) 0 := by
        refine continuousAt_const.mul (ContinuousAt.div ?_ cont.sqrt.continuousAt ?_)
        · unfold cc; fun_prop
        · simp [cc, ss]
      have := c1.tendsto
      simp only [cc, ss, zero_div, Real.cos_zero, Real.sin_zero] at this
      norm_num at this
      exact (this.congr fun w => by simp [cc, ss]).mono_left nhdsWithin_le_nhds
    refine h.congr' ?_
    filter_upwards [Ioo_mem_nhdsGT hpi] with w hw
    obtain ⟨c0, s0⟩ := hcos w hw.1 hw.2
    obtain ⟨hD, hN, g0⟩ := key w hw.1 hw.2
    have t0 : 0 < Real.tan (w / 2) := by rw [Real.tan_eq_sin_div_cos]; positivity
    refine (pow_left_inj₀ (by have := cc_nonneg w; positivity) (by positivity) two_ne_zero).mp ?_
    rw [mul_pow, div_pow, div_pow, div_pow, Real.sq_sqrt hD.le, Real.tan_eq_sin_div_cos, div_pow, div_mul_div_comm, div_eq_div_iff (by positivity) (by positivity)]
    have e : cc w * ss k w * k ^ 2 = Real.cos (w / 2) ^ 2 * Real.sin (w / 2) ^ 2 := by unfold cc ss; field_simp
    have : Real.cos (w / 2) ^ 2 ≠ 0 := by positivity
    have e' : m ^ 2 * cc w ^ 2 * Real.sin (w / 2) ^ 2 = k ^ 2 * (g w ^ 2 * (1 * cc w ^ 2 + d * cc w * ss k w + 1 * ss k w ^ 2)) * Real.cos (w / 2) ^ 2 := by
      rw [hN]
      have : cc w = Real.cos (w / 2) ^ 2 := rfl
      linear_combination m ^ 2 * cc w * Real.sin (w / 2) ^ 2 * this - m ^ 2 * Real.cos (w / 2) ^ 2 * e + (m ^ 2 * Real.cos (w / 2) ^ 2 * Real.sin (w / 2) ^ 2) * this
    rw [← mul_div_assoc, div_eq_iff this]
    linear_combination e'
  · have h : Tendsto (fun w => m * k * (ss k w / Real.sqrt (1 * cc w ^ 2 + d * cc w * ss k w + 1 * ss k w ^ 2))) (𝓝[<] Real.pi)
        (𝓝 (m * k)) := by
      have c1 : ContinuousAt (fun w => m * k * (ss k w / Real.sqrt (1 * cc w ^ 2 + d * cc w * ss k w + 1 * ss k w ^ 2))) Real.pi := by
        refine continuousAt_const.mul (ContinuousAt.div ?_ cont.sqrt.continuousAt ?_)
        · unfold ss; fun_prop
        · have : (0 : ℝ) < Real.sqrt ((k ^ 2) ^ 2) := by positivity
          simp [cc, ss, this.ne']
      have := c1.tendsto
      have e : ss k Real.pi / Real.sqrt (1 * cc Real.pi ^ 2 + d * cc Real.pi * ss k Real.pi + 1 * ss k Real.pi ^ 2) = 1 := by
        have c : cc Real.pi = 0 := by simp [cc]
        have z : 0 < ss k Real.pi := by simp [ss]; positivity
        rw [c, show 1 * (0 : ℝ) ^ 2 + d * 0 * ss k Real.pi + 1 * ss k Real.pi ^ 2 = ss k Real.pi ^ 2 by ring, Real.sqrt_sq z.le, div_self z.ne']
      rw [e, mul_one] at this
      exact this.mono_left nhdsWithin_le_nhds
    refine h.congr' ?_
    filter_upwards [Ioo_mem_nhdsLT hpi] with w hw
    obtain ⟨c0, s0⟩ := hcos w hw.1 hw.2
    obtain ⟨hD, hN, g0⟩ := key w hw.1 hw.2
    have t0 : 0 < Real.tan (w / 2) := by rw [Real.tan_eq_sin_div_cos]; positivity
    refine (pow_left_inj₀ (by have := ss_nonneg k w; positivity) (by positivity) two_ne_zero).mp ?_
    rw [mul_pow, div_pow, mul_pow (g w), Real.sq_sqrt hD.le, Real.tan_eq_sin_div_cos, div_pow, ← mul_div_assoc, ← mul_div_assoc,
      div_eq_div_iff hD.ne' (by positivity)]
    have e : ss k w * k ^ 2 = Real.sin (w / 2) ^ 2 := by unfold ss; field_simp
    have e2 : cc w = Real.cos (w / 2) ^ 2 := rfl
    rw [← e, ← e2]
    linear_combination -(k ^ 2 * ss k w) * hN

/-- **C122.** `BandPass1` is documented (src/filter/rbj/bandpass.rs:8-9) to have a constant skirt gain and a peak gain controlled by
`q`. Indeed the gain starts from 0 like `tan(w/2)/tan(w0/2)` and ends at half of the sample rate like `tan(w0/2)/tan(w/2)`, whatever
`q` is, and is `q` at its peak (C40, C86). -/
theorem C122_skirts_bandPass1 (h : ValidParams sr f q) (s : BandPass1 ℝ) (g : ℝ → ℝ)
    (hg : ∀ w, 0 < w → w < Real.pi → HasGain (s.setCoefficients sr f q) w (g w)) :
    Tendsto (fun w => g w / Real.tan (w / 2)) (𝓝[>] 0) (𝓝 (1 / Real.tan (angle sr f / 2))) ∧
    Tendsto (fun w => g w * Real.tan (w / 2)) (𝓝[<] Real.pi) (𝓝 (Real.tan (angle sr f / 2))) ∧
    g (angle sr f) = q := by
  have hk := tan_half_pos h
  obtain ⟨-, -, p, -⟩ := profile_q h
  have := skirts_of (m := 1) hk zero_le_one (by rw [one_pow]; exact p s) g hg
  rw [one_mul] at this
  refine ⟨this.1, this.2, ?_⟩
  have ha := angle_mem h
  refine (hg _ ha.1 ha.2).unique ⟨h.2.2.le, 0, fun A φ => ?_⟩
  simpa using (C40_centre_gains h A φ).2.2.1 s

/-- **C122.** `BandPass2` is documented (src/filter/rbj/bandpass.rs:74) to have a constant peak gain of 0 dB. So its skirts are divided
by `q`. -/
theorem C122_skirts_bandPass2 (h : ValidParams sr f q) (s : BandPass2 ℝ) (g : ℝ → ℝ)
    (hg : ∀ w, 0 < w → w < Real.pi → HasGain (s.setCoefficients sr f q) w (g w)) :
    Tendsto (fun w => g w / Real.tan (w / 2)) (𝓝[>] 0) (𝓝 (1 / q / Real.tan (angle sr f / 2))) ∧
    Tendsto (fun w => g w * Real.tan (w / 2)) (𝓝[<] Real.pi) (𝓝 (1 / q * Real.tan (angle sr f / 2))) ∧
    g (angle sr f) = 1 := by
  have hk := tan_half_pos h
  obtain ⟨-, -, -, p, -⟩ := profile_q h
  have := skirts_of (m := 1 / q) hk (by have := h.2.2; positivity) (by rw [one_div_pow]; exact p s) g hg
  refine ⟨this.1, this.2, ?_⟩
  have ha := angle_mem h
  refine (hg _ ha.1 ha.2).unique ⟨zero_le_one, 0, fun A φ => ?_⟩
  simpa using (C40_centre_gains h A φ).2.1 s

/-- There are such gains, for every `q`. -/
example : ∃ g : ℝ → ℝ, ∀ w, 0 < w → w < Real.pi → HasGain ((BandPass1.new : BandPass1 ℝ).setCoefficients 44100 1000 2) w (g w) := by
  have h : ValidParams 44100 1000 2 := by refine ⟨?_, ?_, ?_⟩ <;> norm_num
  choose g hg _ using (profile_q h).2.2.1 (BandPass1.new : BandPass1 ℝ)
  exact ⟨g, fun w _ _ => hg w⟩

/-! ## `q = 0.7071` -/

/-- **C122.** The module is documented (src/filter/rbj/mod.rs:5-6) to have no additional effect with `q = 0.7071`. For `LowPass` and
`HighPass` in the frequency domain that is so: their gain falls or rises over all frequencies and is `q` at the cutoff; with `q` one
more in the last digit, and all above, some frequencies are amplified. In the time domain it is not: the response to a step
overshoots, and goes on to cross its target again and again. -/
theorem C122_q (h0 : 0 < f) (h1 : f < sr / 2) :
    ((∀ s : LowPass ℝ, Falls (s.setCoefficients sr f 0.7071) (Set.Icc 0 Real.pi) ∧ HasGain (s.setCoefficients sr f 0.7071) (angle sr f) 0.7071 ∧
        RingsAround (s.setCoefficients sr f 0.7071) 1) ∧
      (∀ s : HighPass ℝ, Rises (s.setCoefficients sr f 0.7071) (Set.Icc 0 Real.pi) ∧ HasGain (s.setCoefficients sr f 0.7071) (angle sr f) 0.7071 ∧
        RingsAround (s.setCoefficients sr f 0.7071) 0)) ∧
    ∀ q : ℝ, 0.7072 ≤ q →
      (∃ w g, 1 < g ∧ ∀ s : LowPass ℝ, HasGain (s.setCoefficients sr f q) w g) ∧
      (∃ w g, 1 < g ∧ ∀ s : HighPass ℝ, HasGain (s.setCoefficients sr f q) w g) := by
  have h : ValidParams sr f 0.7071 := ⟨h0, h1, by norm_num⟩
  constructor
  · obtain ⟨hl, hh⟩ := (C86_pass h).1 (by norm_num)
    obtain ⟨rl, rh, -⟩ := C105_rings h (Or.inl (by norm_num))
    have cg := fun A φ => (C40_centre_gains h A φ).2.2.2.2.2
    refine ⟨fun s => ⟨hl s, ⟨by norm_num, -(Real.pi / 2), fun A φ => ?_⟩, rl s⟩, fun s => ⟨hh s, ⟨by norm_num, Real.pi / 2, fun A φ => ?_⟩, rh s⟩⟩
    · exact (cg A φ).1 s
    · exact (cg A φ).2 s
  · intro q hq
    have h' : ValidParams sr f q := ⟨h0, h1, by linarith⟩
    obtain ⟨hr, ⟨w, hw⟩, ⟨v, hv⟩⟩ := C71_resonance_attained h' (by nlinarith)
    exact ⟨⟨w, _, hr, fun s => .of_within (hw s) (by linarith)⟩, ⟨v, _, hr, fun s => .of_within (hv s) (by linarith)⟩⟩

example : (0 : ℝ) < 1000 ∧ (1000 : ℝ) < 44100 / 2 := by norm_num

end

end Rasp
