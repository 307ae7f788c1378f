import Verif.Spec.Interpolation
import Verif.Props.LinearReal
import Mathlib.Analysis.Convex.Deriv
import Mathlib.Analysis.SpecialFunctions.Trigonometric.Deriv
import Mathlib.Analysis.SpecialFunctions.Complex.Arg
import Mathlib.Tactic.FieldSimp

/-!
# C102: how good the interpolation of `LinearDelay` is (exact arithmetic)
-/

namespace Rasp
open FloatOps
variable {b : Build}

/-! ## The two neighbours -/

/-- Once the line is filled, interpolation reads the sampled function at its two neighbours. -/
theorem interp_sampled {d : ℝ} (hd : 0 ≤ d) (h : List ℝ) (f : ℝ → ℝ) {n : ℕ} (hn : d ≤ n) :
    interp d h (fun k => f k) n =
      (1 - (d - ⌊d⌋₊)) * f (n - ⌊d⌋₊) + (d - ⌊d⌋₊) * f (n - ⌊d⌋₊ - 1) := by
  have h1 := Nat.floor_le hd
  have h0 : ⌊d⌋₊ ≤ n := by
    have : (⌊d⌋₊ : ℝ) ≤ n := h1.trans hn
    exact_mod_cast this
  unfold interp delayedBy
  simp only
  rw [if_pos h0, Nat.cast_sub h0]
  by_cases hc : ⌊d⌋₊ + 1 ≤ n
  · rw [if_pos hc, Nat.cast_sub hc]
    push_cast
    rw [sub_sub]
  · have : n = ⌊d⌋₊ := by omega
    have e : d - ⌊d⌋₊ = 0 := by rw [this] at hn; linarith
    rw [e]; ring

/-- The error of linear interpolation of a function of bounded curvature. -/
theorem interpolation_error {M : ℝ} {f : ℝ → ℝ} (hf : CurvesAtMost M f) (p : ℝ) {r : ℝ} (h0 : 0 ≤ r) (h1 : r ≤ 1) :
    |(1 - r) * f p + r * f (p - 1) - f (p - r)| ≤ M * (r * (1 - r)) / 2 := by
  obtain ⟨f', f'', d1, d2, hM⟩ := hf
  have key : ∀ σ : ℝ, |σ| = 1 →
      σ * f (p - r) + M * (p - r) ^ 2 / 2 ≤ (1 - r) * (σ * f p + M * p ^ 2 / 2) + r * (σ * f (p - 1) + M * (p - 1) ^ 2 / 2) := by
    intro σ hσ
    have e1 : ∀ t, HasDerivAt (fun t => σ * f t + M * t ^ 2 / 2) (σ * f' t + M * t) t := by
      intro t
      refine (((d1 t).const_mul σ).add ((((hasDerivAt_id' t).pow 2).const_mul M).div_const 2)).congr_deriv ?_
      norm_num
      ring
    have e2 : ∀ t, HasDerivAt (fun t => σ * f' t + M * t) (σ * f'' t + M) t := by
      intro t
      exact (((d2 t).const_mul σ).add ((hasDerivAt_id' t).const_mul M)).congr_deriv (by ring)
    have hd : deriv (fun t => σ * f t + M * t ^ 2 / 2) = fun t => σ * f' t + M * t := funext fun t => (e1 t).deriv
    have hc : ConvexOn ℝ Set.univ (fun t => σ * f t + M * t ^ 2 / 2) := by
      refine convexOn_univ_of_deriv2_nonneg (fun t => (e1 t).differentiableAt) ?_ ?_
      · rw [hd]; exact fun t => (e2 t).differentiableAt
      · intro t
        simp only [Function.iterate_succ, Function.iterate_zero, Function.comp_apply, id]
        rw [hd, (e2 t).deriv]
        have : |σ * f'' t| ≤ M := by rw [abs_mul, hσ, one_mul]; exact hM t
        linarith [neg_abs_le (σ * f'' t)]
    have := hc.2 (Set.mem_univ p) (Set.mem_univ (p - 1)) (sub_nonneg.mpr h1) h0 (by ring)
    simp only [smul_eq_mul] at this
    rwa [show (1 - r) * p + r * (p - 1) = p - r by ring] at this
  have k1 := key 1 (by simp)
  have k2 := key (-1) (by simp)
  rw [abs_le]
  constructor <;> nlinarith

theorem curvesAtMost_sin (A w φ : ℝ) : CurvesAtMost (|A| * w ^ 2) (fun t => A * Real.sin (w * t + φ)) := by
  have hl : ∀ t, HasDerivAt (fun t => w * t + φ) w t := fun t => by
    simpa using ((hasDerivAt_id t).const_mul w).add_const φ
  refine ⟨fun t => A * (Real.cos (w * t + φ) * w), fun t => A * (-Real.sin (w * t + φ) * w * w),
    fun t => ((hl t).sin).const_mul A, fun t => (((hl t).cos).mul_const w).const_mul A, fun t => ?_⟩
  rw [abs_mul, abs_mul, abs_mul, _root_.abs_neg, mul_assoc _ |w| |w|, abs_mul_abs_self]
  have := Real.abs_sin_le_one (w * t + φ)
  have : |Real.sin (w * t + φ)| * (w * w) ≤ w ^ 2 := by nlinarith [mul_self_nonneg w]
  exact mul_le_mul_of_nonneg_left this (abs_nonneg _)

/-- The delay a line of maximum `m` uses when asked for `d`. -/
private theorem clip_nonneg (d m : ℝ) : 0 ≤ max 0 (min d m) := le_max_left _ _

theorem frac_floor {d : ℝ} (hd : 0 ≤ d) : d - ⌊d⌋₊ = Int.fract d := by
  rw [Int.fract, natCast_floor_eq_intCast_floor hd]

/-- Interpolated samples of a function of bounded curvature. -/
theorem interp_smooth {M : ℝ} {f : ℝ → ℝ} (hf : CurvesAtMost M f) {d : ℝ} (hd : 0 ≤ d) (h : List ℝ) {n : ℕ} (hn : d ≤ n) :
    |interp d h (fun k => f k) n - f (n - d)| ≤ M * (Int.fract d * (1 - Int.fract d)) / 2 := by
  rw [interp_sampled hd h f hn, ← frac_floor hd]
  have h1 := Nat.floor_le hd
  have h2 := Nat.lt_floor_add_one d
  have := interpolation_error hf (n - ⌊d⌋₊) (r := d - ⌊d⌋₊) (by linarith) (by linarith)
  rwa [show (n : ℝ) - ⌊d⌋₊ - (d - ⌊d⌋₊) = n - d by ring] at this

theorem CurvesAtMost.nonneg {M : ℝ} {f : ℝ → ℝ} (hf : CurvesAtMost M f) : 0 ≤ M := by
  obtain ⟨_, f'', -, -, h⟩ := hf
  exact (abs_nonneg _).trans (h 0)

theorem eighth {M r : ℝ} (hM : 0 ≤ M) : M * (r * (1 - r)) / 2 ≤ M / 8 := by
  have : r * (1 - r) ≤ 1 / 4 := by nlinarith [sq_nonneg (r - 1 / 2)]
  nlinarith

/-! ## A fixed delay -/

/-- **C102**, straight lines (and constants) come out exactly delayed, whole and fractional delays alike. -/
theorem C102_lines [Target] {m : ℕ} (hm : Allocatable ℝ m) (d a c : ℝ) :
    ∃ (s : LinearDelay ℝ ℝ) (y : ℕ → ℝ), LinearDelay.new b d m = .ok s ∧ Responds b s (fun n => a + c * n) y ∧
      ∀ n : ℕ, max 0 (min d m) ≤ n → y n = a + c * (n - max 0 (min d m)) := by
  obtain ⟨s, hs, -, h⟩ := C20_new_interpolates (b := b) hm d
  refine ⟨s, _, hs, (h _ _).mpr rfl, fun n hn => ?_⟩
  rw [interp_sampled (le_max_left _ _) [] (fun t => a + c * t) hn]
  ring

/-- **C102**, samples of a smooth function: the output is the function at the delayed time, up to `M/8` for a second derivative of at most
`M`, and better near whole delays. -/
theorem C102_smooth [Target] {m : ℕ} (hm : Allocatable ℝ m) (d : ℝ) {M : ℝ} {f : ℝ → ℝ} (hf : CurvesAtMost M f) :
    ∃ (s : LinearDelay ℝ ℝ) (y : ℕ → ℝ), LinearDelay.new b d m = .ok s ∧ Responds b s (fun n => f n) y ∧
      ∀ n : ℕ, max 0 (min d m) ≤ n →
        |y n - f (n - max 0 (min d m))| ≤ M * (Int.fract (max 0 (min d (m : ℝ))) * (1 - Int.fract (max 0 (min d (m : ℝ))))) / 2 ∧
        |y n - f (n - max 0 (min d m))| ≤ M / 8 := by
  obtain ⟨s, hs, -, h⟩ := C20_new_interpolates (b := b) hm d
  refine ⟨s, _, hs, (h _ _).mpr rfl, fun n hn => ?_⟩
  have := interp_smooth hf (le_max_left 0 (min d (m : ℝ))) [] hn
  exact ⟨this, this.trans (eighth hf.nonneg)⟩

/-- **C102**, and no bound in terms of the second derivative is better: on parabolas the error is exactly that. -/
theorem C102_smooth_attained [Target] {m : ℕ} (hm : Allocatable ℝ m) (d c : ℝ) :
    ∃ (s : LinearDelay ℝ ℝ) (y : ℕ → ℝ), LinearDelay.new b d m = .ok s ∧ Responds b s (fun n => c * (n : ℝ) ^ 2) y ∧
      ∀ n : ℕ, max 0 (min d m) ≤ n →
        y n - c * (n - max 0 (min d m)) ^ 2 =
          2 * c * (Int.fract (max 0 (min d (m : ℝ))) * (1 - Int.fract (max 0 (min d (m : ℝ))))) / 2 := by
  obtain ⟨s, hs, -, h⟩ := C20_new_interpolates (b := b) hm d
  refine ⟨s, _, hs, (h _ _).mpr rfl, fun n hn => ?_⟩
  rw [interp_sampled (le_max_left _ _) [] (fun t => c * t ^ 2) hn, ← frac_floor (le_max_left _ _)]
  ring

/-- Two neighbouring samples of a sinusoid, weighted: amplitude and phase. -/
theorem weighted_sines (r w : ℝ) : ∃ G θ : ℝ, 0 ≤ G ∧ G ^ 2 = 1 - 2 * (r * (1 - r)) * (1 - Real.cos w) ∧
    ∀ t, (1 - r) * Real.sin t + r * Real.sin (t - w) = G * Real.sin (t - θ) := by
  set z : ℂ := ⟨1 - r + r * Real.cos w, r * Real.sin w⟩ with hz
  refine ⟨‖z‖, z.arg, norm_nonneg _, ?_, fun t => ?_⟩
  · rw [Complex.sq_norm, Complex.normSq_apply]
    simp only [hz]
    linear_combination r ^ 2 * Real.sin_sq_add_cos_sq w
  · have h1 := Complex.norm_mul_cos_arg z
    have h2 := Complex.norm_mul_sin_arg z
    rw [Real.sin_sub, Real.sin_sub]
    have e1 : z.re = 1 - r + r * Real.cos w := rfl
    have e2 : z.im = r * Real.sin w := rfl
    rw [e1] at h1
    rw [e2] at h2
    linear_combination (-Real.sin t) * h1 + Real.cos t * h2

/-- **C102**, sinusoids: the line is a filter of gain `√(1 − 2r(1−r)(1 − cos w))`, `r` the fractional part of the delay: a low pass, and
the closer to half a sample the stronger. The delayed sinusoid itself is met within `w²/8` of its amplitude. -/
theorem C102_sinusoid [Target] {m : ℕ} (hm : Allocatable ℝ m) (d w : ℝ) :
    ∃ (s : LinearDelay ℝ ℝ) (G θ : ℝ), LinearDelay.new b d m = .ok s ∧ 0 ≤ G ∧
      G ^ 2 = 1 - 2 * (Int.fract (max 0 (min d (m : ℝ))) * (1 - Int.fract (max 0 (min d (m : ℝ))))) * (1 - Real.cos w) ∧
      ∀ A φ : ℝ, ∃ y : ℕ → ℝ, Responds b s (fun n => A * Real.sin (w * n + φ)) y ∧
        ∀ n : ℕ, max 0 (min d m) ≤ n →
          y n = G * A * Real.sin (w * n + φ - θ) ∧
          |y n - A * Real.sin (w * (n - max 0 (min d m)) + φ)| ≤ |A| * w ^ 2 / 8 := by
  obtain ⟨s, hs, -, h⟩ := C20_new_interpolates (b := b) hm d
  have hd := le_max_left 0 (min d (m : ℝ))
  set D := max 0 (min d (m : ℝ)) with hD
  obtain ⟨G, θ, hG, hG2, hs2⟩ := weighted_sines (Int.fract D) w
  refine ⟨s, G, θ + w * ⌊D⌋₊, hs, hG, hG2, fun A φ => ⟨_, (h _ _).mpr rfl, fun n hn => ⟨?_, ?_⟩⟩⟩
  · rw [interp_sampled hd [] (fun t => A * Real.sin (w * t + φ)) hn, frac_floor hd]
    have := hs2 (w * (n - ⌊D⌋₊) + φ)
    rw [show w * (n : ℝ) + φ - (θ + w * ⌊D⌋₊) = w * (n - ⌊D⌋₊) + φ - θ by ring,
      show w * ((n : ℝ) - ⌊D⌋₊ - 1) + φ = w * (n - ⌊D⌋₊) + φ - w by ring]
    linear_combination A * this
  · exact (interp_smooth (curvesAtMost_sin A w φ) hd [] hn).trans (eighth (by positivity))

/-- **C102**, the highest frequency: samples of alternating sign are scaled by `1 − 2r`, so a delay of half a sample more than a whole number
removes them. -/
theorem C102_alternating [Target] {m : ℕ} (hm : Allocatable ℝ m) (d : ℝ) :
    ∃ (s : LinearDelay ℝ ℝ) (y : ℕ → ℝ), LinearDelay.new b d m = .ok s ∧ Responds b s (fun n => (-1) ^ n) y ∧
      ∀ n : ℕ, max 0 (min d m) ≤ n →
        y n = (1 - 2 * Int.fract (max 0 (min d (m : ℝ)))) * (-1) ^ (n - ⌊max 0 (min d (m : ℝ))⌋₊) := by
  obtain ⟨s, hs, -, h⟩ := C20_new_interpolates (b := b) hm d
  refine ⟨s, _, hs, (h _ _).mpr rfl, fun n hn => ?_⟩
  have hd := le_max_left 0 (min d (m : ℝ))
  set D := max 0 (min d (m : ℝ)) with hD
  have h1 := Nat.floor_le hd
  have h0 : ⌊D⌋₊ ≤ n := by
    have : (⌊D⌋₊ : ℝ) ≤ n := h1.trans hn
    exact_mod_cast this
  rw [← frac_floor hd]
  unfold interp delayedBy
  rw [if_pos h0]
  by_cases hc : ⌊D⌋₊ + 1 ≤ n
  · rw [if_pos hc, show n - ⌊D⌋₊ = n - (⌊D⌋₊ + 1) + 1 by omega, pow_succ]
    ring
  · have : n = ⌊D⌋₊ := by omega
    have e : D - ⌊D⌋₊ = 0 := by rw [this] at hn; linarith
    rw [e]; ring

/-! ## A moving delay -/

/-- What the line holds after `n` samples of `x`, starting from silence. -/
private structure Filled [Target] (m : ℕ) (x : ℕ → ℝ) (n : ℕ) (s : LinearDelay ℝ ℝ) : Prop where
  winv : s.WInv
  fresh : s.do_next_out = true
  len : s.memory.length = m + 1
  hist : ∀ k, k < m + 1 → s.hist[k]? = some (past x n k)

private theorem Filled.step [Target] {m : ℕ} {x : ℕ → ℝ} {n : ℕ} {s : LinearDelay ℝ ℝ} (h : Filled m x n s) (d : ℝ) :
    ∃ s1 s2, s.setDelay b d = .ok s1 ∧ s1.process b (x n) = .ok (s2, interp (max 0 (min d m)) [] x n) ∧ Filled m x (n + 1) s2 := by
  obtain ⟨s1, h1, ht, hd⟩ := LinearDelay.setDelay_real (b := b) h.winv d
  obtain ⟨e1, e2, -, e4, -⟩ := LinearDelay.setDelay_frame h1
  have hi1 : s1.WInv := ⟨by rw [e1, e2]; exact h.winv.hw, by rw [e1]; exact h.winv.cap⟩
  have hh : s1.hist = s.hist := by unfold LinearDelay.hist; rw [e1, e2]
  have hl : s1.memory.length = m + 1 := by rw [e1]; exact h.len
  obtain ⟨s2, m0, m1, g0, g1, hp, hnx⟩ := LinearDelay.process_spec (b := b) hi1 ht.eff (e4.trans h.fresh) (x n)
  have key : ∀ k, k < m + 1 → (x n :: s1.hist.dropLast)[k]? = some (past x (n + 1) k) := by
    intro k hk
    cases k with
    | zero => simp [past]
    | succ k =>
      rw [List.getElem?_cons_succ, List.getElem?_dropLast, if_pos (by simp [hl]; omega), hh, h.hist k (by omega)]
      unfold past
      congr 1
      by_cases hkn : k < n
      · rw [if_pos hkn, if_pos (by omega)]; congr 1; omega
      · rw [if_neg hkn, if_neg (by omega)]
  have he := ht.eff.1
  rw [hl] at he
  have ho : older s1.memory.length ⌈s1.delay⌉₊ < m + 1 := by rw [hl]; unfold older; split <;> omega
  rw [key _ he] at g0
  rw [key _ ho] at g1
  cases g0
  cases g1
  rw [h.len, Nat.add_sub_cancel] at hd
  have hval : (past x (n + 1) ⌈s1.delay⌉₊ *. s1.om_alpha) +. (past x (n + 1) (older s1.memory.length ⌈s1.delay⌉₊) *. s1.alpha)
      = interp (max 0 (min d m)) [] x n := by
    have hz : ∀ e, past x (n + 1) e = delayedBy e [] x n := fun e => by
      have := congrFun (delayedBy_replicate e 0 x) n
      simpa using this.symm
    simp only [real_add, real_mul]
    rw [hz, hz, ht.om_alpha, ht.alpha, interp_eq ht.nonneg, hd]
  rw [hval] at hp
  exact ⟨s1, s2, h1, hp, hnx.winv, hnx.fresh, hnx.len.trans hl, fun k hk => by rw [hnx.hist]; exact key k hk⟩

/-- **C102**, a moving delay: with `set_delay` called before every sample, each output interpolates the input at its own distance,
whatever the distances before were. -/
theorem C102_modulated [Target] {m : ℕ} (hm : Allocatable ℝ m) (d : ℝ) :
    ∃ s : LinearDelay ℝ ℝ, LinearDelay.new b d m = .ok s ∧ ∀ (c x y : ℕ → ℝ),
      Modulated b s c x y ↔ y = fun n => interp (max 0 (min (c n) m)) [] x n := by
  obtain ⟨s, hs, -⟩ := C20_new_interpolates (b := b) hm d
  obtain ⟨hmem, hw, hi, hdn, -⟩ := LinearDelay.new_frame hm hs
  have h0 : ∀ x : ℕ → ℝ, Filled m x 0 s := fun x => by
    refine ⟨hi, hdn, by simp [hmem], fun k hk => ?_⟩
    unfold LinearDelay.hist
    rw [hmem, histOf_replicate, List.getElem?_replicate, if_pos hk]
    rfl
  refine ⟨s, hs, fun c x y => ⟨?_, ?_⟩⟩
  · rintro ⟨st, e0, hst⟩
    have hF : ∀ n, Filled m x n (st n) ∧ ∀ k, k < n → y k = interp (max 0 (min (c k) m)) [] x k := by
      intro n
      induction n with
      | zero => exact ⟨by rw [e0]; exact h0 x, fun k hk => absurd hk (by omega)⟩
      | succ n ih =>
        obtain ⟨s1, s2, h1, h2, h3⟩ := ih.1.step (b := b) (c n)
        obtain ⟨s', g1, g2⟩ := hst n
        rw [h1] at g1
        cases g1
        rw [h2] at g2
        obtain ⟨q1, q2⟩ := Prod.mk.inj (Except.ok.inj g2)
        rw [← q1]
        refine ⟨h3, fun k hk => ?_⟩
        rcases Nat.lt_succ_iff_lt_or_eq.mp hk with h | rfl
        · exact ih.2 k h
        · exact q2.symm
    exact funext fun n => (hF (n + 1)).2 n (by omega)
  · rintro rfl
    have hstep : ∀ (n : ℕ) (s : LinearDelay ℝ ℝ), ∃ s2, Filled m x n s → Filled m x (n + 1) s2 ∧
        ∃ s1, s.setDelay b (c n) = .ok s1 ∧ s1.process b (x n) = .ok (s2, interp (max 0 (min (c n) m)) [] x n) := by
      intro n s
      by_cases h : Filled m x n s
      · obtain ⟨s1, s2, h1, h2, h3⟩ := h.step (b := b) (c n)
        exact ⟨s2, fun _ => ⟨h3, s1, h1, h2⟩⟩
      · exact ⟨s, fun h' => absurd h' h⟩
    choose g hg using hstep
    refine ⟨fun n => Nat.rec s (fun n s => g n s) n, rfl, fun n => ?_⟩
    have hF : ∀ n, Filled m x n (Nat.rec s (fun n s => g n s) n : LinearDelay ℝ ℝ) := by
      intro n
      induction n with
      | zero => exact h0 x
      | succ n ih => exact (hg n _ ih).1
    exact (hg n _ (hF n)).2

/-- **C102**, the moving delay on samples of a smooth function: each output is the function at the delayed time, up to `M/8`. -/
theorem C102_modulated_smooth [Target] {m : ℕ} (hm : Allocatable ℝ m) (d : ℝ) {M : ℝ} {f : ℝ → ℝ} (hf : CurvesAtMost M f) (c : ℕ → ℝ) :
    ∃ (s : LinearDelay ℝ ℝ) (y : ℕ → ℝ), LinearDelay.new b d m = .ok s ∧ Modulated b s c (fun n => f n) y ∧
      ∀ n : ℕ, 0 ≤ c n → c n ≤ m → c n ≤ n → |y n - f (n - c n)| ≤ M / 8 := by
  obtain ⟨s, hs, h⟩ := C102_modulated (b := b) hm d
  refine ⟨s, _, hs, (h _ _ _).mpr rfl, fun n h0 h1 h2 => ?_⟩
  rw [min_eq_left h1, max_eq_right h0]
  exact (interp_smooth hf h0 [] h2).trans (eighth hf.nonneg)

/-- **C102**, a delay that grows by `v` per sample shifts the pitch of a sinusoid by the factor `1 − v` (as a source moving away does), up to
`w²/8` of its amplitude. -/
theorem C102_doppler [Target] {m : ℕ} (hm : Allocatable ℝ m) (d A w φ v : ℝ) :
    ∃ (s : LinearDelay ℝ ℝ) (y : ℕ → ℝ), LinearDelay.new b d m = .ok s ∧
      Modulated b s (fun n => d + v * n) (fun n => A * Real.sin (w * n + φ)) y ∧
      ∀ n : ℕ, 0 ≤ d + v * n → d + v * n ≤ m → d + v * n ≤ n →
        |y n - A * Real.sin (w * (1 - v) * n + (φ - w * d))| ≤ |A| * w ^ 2 / 8 := by
  obtain ⟨s, y, hs, hy, h⟩ := C102_modulated_smooth (b := b) hm d (curvesAtMost_sin A w φ) (fun n => d + v * n)
  refine ⟨s, y, hs, hy, fun n h0 h1 h2 => ?_⟩
  have := h n h0 h1 h2
  rwa [show w * ((n : ℝ) - (d + v * n)) + φ = w * (1 - v) * n + (φ - w * d) by ring] at this

/-! ## Cases -/

/-- A line of 100 samples can be allocated, and a delay of 10.5 is kept. -/
example [Target] : Allocatable ℝ 100 ∧ max 0 (min 10.5 ((100 : ℕ) : ℝ)) = 10.5 := by
  refine ⟨?_, by norm_num⟩
  have := target
  show (100 + 1) * 8 ≤ _
  omega

/-- Half a sample removes the highest frequency. -/
example : (1 - 2 * Int.fract (10.5 : ℝ)) = 0 := by
  rw [show (10.5 : ℝ) = (10 : ℤ) + 1 / 2 by norm_num, Int.fract_intCast_add, Int.fract_eq_self.mpr (by norm_num)]
  norm_num

/-- A sine of a tenth of a radian per sample is met within 1/800 of its amplitude; a delay growing by 0.01 per sample lies in the line at sample 50. -/
example : (0.1 : ℝ) ^ 2 / 8 = 1 / 800 ∧ 0 ≤ (10.5 : ℝ) + 0.01 * (50 : ℕ) ∧ (10.5 : ℝ) + 0.01 * (50 : ℕ) ≤ (100 : ℕ) ∧ (10.5 : ℝ) + 0.01 * (50 : ℕ) ≤ (50 : ℕ) := by
  norm_num

end Rasp
