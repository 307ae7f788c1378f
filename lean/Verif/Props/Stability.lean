import Verif.Props.Filters

/-!
# C72: stability is necessary
-/

namespace Rasp
open FloatOps Filter Topology

/-- No unstable root of the denominator `λ² + a1 λ + a2` is cancelled by the numerator `b0 λ² + b1 λ + b2`. -/
def NoCancelledPole (b0 b1 b2 a1 a2 : ℝ) : Prop :=
  ∀ p : ℂ, 1 ≤ ‖p‖ → p ^ 2 + a1 * p + a2 = 0 → b0 * p ^ 2 + b1 * p + b2 ≠ 0

/-! ## Roots -/

/-- If both roots are inside the unit circle, the coefficients are in the stability triangle. -/
theorem stablePair_of_roots {a1 a2 : ℝ} (h : ∀ p : ℂ, p ^ 2 + a1 * p + a2 = 0 → ‖p‖ < 1) : StablePair a1 a2 := by
  by_cases hD : 0 ≤ a1 ^ 2 - 4 * a2
  · set D := Real.sqrt (a1 ^ 2 - 4 * a2) with hDdef
    have hDsq : D ^ 2 = a1 ^ 2 - 4 * a2 := Real.sq_sqrt hD
    have hD0 : 0 ≤ D := Real.sqrt_nonneg _
    have key : ∀ r : ℝ, r ^ 2 + a1 * r + a2 = 0 → |r| < 1 := by
      intro r hr
      have := h (r : ℂ) (by exact_mod_cast congrArg (fun t : ℝ => (t : ℂ)) hr)
      rwa [Complex.norm_real, Real.norm_eq_abs] at this
    have h1 := key ((-a1 + D) / 2) (by linear_combination (1 / 4 : ℝ) * hDsq)
    have h2 := key ((-a1 - D) / 2) (by linear_combination (1 / 4 : ℝ) * hDsq)
    have h3 : a2 = (-a1 + D) / 2 * ((-a1 - D) / 2) := by linear_combination (1 / 4 : ℝ) * hDsq
    refine ⟨?_, ?_⟩
    · rw [h3, abs_mul]
      have := abs_nonneg ((-a1 - D) / 2)
      have := abs_nonneg ((-a1 + D) / 2)
      nlinarith
    · rw [abs_lt] at h1 h2 ⊢
      constructor <;> nlinarith
  · push Not at hD
    set D := Real.sqrt (4 * a2 - a1 ^ 2) with hDdef
    have hDsq : D ^ 2 = 4 * a2 - a1 ^ 2 := Real.sq_sqrt (by linarith)
    have h1 := h ⟨-a1 / 2, D / 2⟩ (by
      apply Complex.ext
      · simp [pow_two]; nlinarith
      · simp [pow_two]; ring)
    have h2 : ‖(⟨-a1 / 2, D / 2⟩ : ℂ)‖ ^ 2 < 1 := by
      have := norm_nonneg (⟨-a1 / 2, D / 2⟩ : ℂ); nlinarith
    rw [Complex.sq_norm, Complex.normSq_mk] at h2
    have h3 : a2 < 1 := by nlinarith
    have h4 : 0 < a2 := by nlinarith [sq_nonneg a1]
    refine ⟨by rw [abs_of_pos h4]; exact h3, ?_⟩
    refine lt_of_pow_lt_pow_left₀ 2 (by linarith) ?_
    rw [sq_abs]
    nlinarith [sq_nonneg (1 - a2)]

/-- A decaying solution of the homogeneous recurrence has no part along an unstable root. -/
theorem decaying_no_unstable {a1 a2 : ℝ} {v : ℕ → ℝ} (hv : ∀ n, v (n + 2) = -a1 * v (n + 1) - a2 * v n)
    (h0 : Tendsto v atTop (𝓝 0)) {p : ℂ} (hp : 1 ≤ ‖p‖) (hr : p ^ 2 + a1 * p + a2 = 0) :
    (v 1 : ℂ) = (-a1 - p) * v 0 := by
  set u : ℕ → ℂ := fun n => v (n + 1) + (a1 + p) * v n with hu
  have hstep : ∀ n, u (n + 1) = p * u n := by
    intro n
    simp only [hu]
    rw [show n + 1 + 1 = n + 2 from rfl, hv n]
    push_cast
    linear_combination (-(v n : ℂ)) * hr
  have hpow : ∀ n, u n = p ^ n * u 0 := by
    intro n
    induction n with
    | zero => simp
    | succ n ih => rw [hstep, ih, pow_succ]; ring
  have hge : ∀ n, ‖u 0‖ ≤ ‖u n‖ := by
    intro n
    rw [hpow n, norm_mul, norm_pow]
    exact le_mul_of_one_le_left (norm_nonneg _) (one_le_pow₀ hp)
  have hc : Tendsto (fun n => (v n : ℂ)) atTop (𝓝 0) := by
    have := (Complex.continuous_ofReal.tendsto 0).comp h0
    simpa [Function.comp_def] using this
  have hu0 : Tendsto u atTop (𝓝 0) := by
    have := ((tendsto_add_atTop_iff_nat 1).mpr hc).add (hc.const_mul ((a1 : ℂ) + p))
    simpa [hu] using this
  have hn : Tendsto (fun n => ‖u n‖) atTop (𝓝 0) := by simpa using hu0.norm
  have : ‖u 0‖ ≤ 0 := ge_of_tendsto' hn hge
  have h3 : u 0 = 0 := norm_le_zero_iff.mp this
  simp only [hu] at h3
  linear_combination h3

/-! ## Impulse responses -/

/-- One, then silence. -/
def impulse (n : ℕ) : ℝ := if n = 0 then 1 else 0

/-- A decaying impulse response means: every unstable pole is cancelled. -/
theorem impulse_decays {c0 c1 b0 b1 b2 a1 a2 : ℝ} {h : ℕ → ℝ} (hh : SolvesDiffFrom c0 c1 b0 b1 b2 a1 a2 impulse h)
    (h0 : Tendsto h atTop (𝓝 0)) {p : ℂ} (hp : 1 ≤ ‖p‖) (hr : p ^ 2 + a1 * p + a2 = 0) :
    (b0 + c0) * p ^ 2 + (b1 + c1) * p + b2 = 0 := by
  have e0 : h 0 = b0 + c0 := by rw [hh.zero]; simp [impulse]
  have e1 : h 1 = b1 + c1 - a1 * (b0 + c0) := by rw [hh.one, e0]; simp [impulse]; ring
  have e2 : h 2 = b2 - a1 * h 1 - a2 * h 0 := by rw [hh.tail 0]; simp [impulse]
  have := decaying_no_unstable (v := fun n => h (n + 1)) (fun n => by
    show h (n + 1 + 2) = _
    rw [hh.tail (n + 1)]; simp [impulse]) ((tendsto_add_atTop_iff_nat 1).mpr h0) hp hr
  simp only [zero_add] at this
  rw [show 1 + 1 = 2 from rfl, e2, e1, e0] at this
  push_cast at this
  linear_combination this + (b0 + c0) * hr

/-- The output for a finite combination of delayed impulses. -/
theorem solves_sum {b0 b1 b2 a1 a2 : ℝ} {h : ℕ → ℝ} (hh : SolvesDiff b0 b1 b2 a1 a2 impulse h) (c : ℕ → ℝ) (N : ℕ) :
    SolvesDiff b0 b1 b2 a1 a2 (fun n => ∑ k ∈ Finset.range N, c k * lag impulse k n)
      (fun n => ∑ k ∈ Finset.range N, c k * lag h k n) := by
  induction N with
  | zero => intro n; simp [lag]
  | succ N ih =>
    have := ih.linear (hh.shift N) 1 (c N)
    simp only [one_mul] at this
    simpa only [Finset.sum_range_succ] using this

theorem SolvesDiff.add_free {c0 c1 b0 b1 b2 a1 a2 : ℝ} {x y r : ℕ → ℝ} (h : SolvesDiff b0 b1 b2 a1 a2 x y)
    (hr : SolvesDiffFrom c0 c1 b0 b1 b2 a1 a2 (fun _ => 0) r) :
    SolvesDiffFrom c0 c1 b0 b1 b2 a1 a2 x (fun n => y n + r n) := by
  intro n
  show y n + r n = _
  rw [h n, hr n]
  simp only [lag, real_zero]
  split_ifs <;> ring

variable {σ : Type} [Processor σ ℝ] {s : σ} {c0 c1 b0 b1 b2 a1 a2 : ℝ}

theorem ImplementsFrom.impulse_of_bounded (hi : ImplementsFrom s c0 c1 b0 b1 b2 a1 a2) (hb : IsBounded s) :
    ∃ h, SolvesDiff b0 b1 b2 a1 a2 impulse h ∧ Tendsto h atTop (𝓝 0) := by
  obtain ⟨M, hM⟩ := hb.2 1
  set h := solveDiff 0 0 b0 b1 b2 a1 a2 impulse with hh
  have hs : SolvesDiff b0 b1 b2 a1 a2 impulse h := solvesDiffFrom_zero.mp (solveDiff_solves _ _ _ _ _ _ _ _)
  refine ⟨h, hs, ?_⟩
  set r := solveDiff c0 c1 b0 b1 b2 a1 a2 (fun _ => 0) with hr
  have hrs : SolvesDiffFrom c0 c1 b0 b1 b2 a1 a2 (fun _ => 0) r := solveDiff_solves _ _ _ _ _ _ _ _
  have hrM : ∀ n, |r n| ≤ M := hM ⟨true⟩ _ _ ((hi ⟨true⟩ _ _).mpr hrs) (by simp)
  have hsum : ∀ N, ∑ k ∈ Finset.range N, |h k| ≤ 2 * M := by
    intro N
    rcases N with _ | N
    · have := (abs_nonneg _).trans (hrM 0); simp; linarith
    set c : ℕ → ℝ := fun k => SignType.sign (h (N - k)) with hc
    have h1 := solves_sum hs c (N + 1)
    have h2 : SolvesDiffFrom c0 c1 b0 b1 b2 a1 a2 (fun n => ∑ k ∈ Finset.range (N + 1), c k * lag impulse k n)
        (fun n => (∑ k ∈ Finset.range (N + 1), c k * lag h k n) + r n) := h1.add_free hrs
    have h3 := hM ⟨true⟩ _ _ ((hi ⟨true⟩ _ _).mpr h2) (fun n => by
      have : ∀ k ∈ Finset.range (N + 1), c k * lag impulse k n = if k = n then c n else 0 := by
        intro k _
        simp only [lag, impulse, real_zero]
        split_ifs with q1 q2 q3 q3 q3 <;> first | (exfalso; omega) | simp_all
      rw [Finset.sum_congr rfl this, Finset.sum_ite_eq']
      split_ifs
      · simp only [hc]
        rcases SignType.trichotomy (SignType.sign (h (N - n))) with q | q | q <;> rw [q] <;> simp
      · simp) N
    have h4 : ∑ k ∈ Finset.range (N + 1), c k * lag h k N = ∑ k ∈ Finset.range (N + 1), |h k| := by
      rw [← Finset.sum_range_reflect (fun k => |h k|)]
      refine Finset.sum_congr rfl fun k hk => ?_
      have hk' : k ≤ N := by simpa [Nat.lt_succ_iff] using hk
      simp only [hc, lag, hk', if_true, Nat.add_sub_cancel]
      exact sign_mul_self _
    simp only [h4] at h3
    have h5 := hrM N
    rw [abs_le] at h3 h5
    linarith
  have hsm : Summable fun k => |h k| := summable_of_sum_range_le (fun _ => abs_nonneg _) hsum
  exact hsm.of_abs.tendsto_atTop_zero

/-- Bounded means stable, unless an unstable pole is cancelled. -/
theorem ImplementsFrom.bounded_iff (hi : ImplementsFrom s c0 c1 b0 b1 b2 a1 a2) (hc : NoCancelledPole b0 b1 b2 a1 a2) :
    IsBounded s ↔ StablePair a1 a2 := by
  refine ⟨fun hb => stablePair_of_roots fun p hr => ?_, hi.isBounded⟩
  by_contra hp
  push Not at hp
  obtain ⟨h, hh, h0⟩ := hi.impulse_of_bounded hb
  have := impulse_decays (solvesDiffFrom_zero.mpr hh) h0 hp hr
  exact hc p hp hr (by simpa using this)

/-- Silence decaying means stable, unless an unstable pole is cancelled. -/
theorem ImplementsFrom.decays_iff (hi : ImplementsFrom s c0 c1 b0 b1 b2 a1 a2) (hc : NoCancelledPole b0 b1 b2 a1 a2) :
    SilenceDecays s ↔ StablePair a1 a2 := by
  refine ⟨fun hb => stablePair_of_roots fun p hr => ?_, hi.silenceDecays⟩
  by_contra hp
  push Not at hp
  have h1 := solveDiff_solves c0 c1 b0 b1 b2 a1 a2 impulse
  have h2 := solveDiff_solves c0 c1 b0 b1 b2 a1 a2 (fun _ => 0)
  have t1 := hb.2 ⟨true⟩ _ _ ((hi ⟨true⟩ _ _).mpr h1) ⟨1, fun n hn => by simp [impulse]; omega⟩
  have t2 := hb.2 ⟨true⟩ _ _ ((hi ⟨true⟩ _ _).mpr h2) ⟨0, fun n _ => rfl⟩
  have q1 := impulse_decays h1 t1 hp hr
  have q2 := impulse_decays (b0 := 0) (b1 := 0) (b2 := 0) (c0 := c0) (c1 := c1)
    (h := solveDiff c0 c1 b0 b1 b2 a1 a2 (fun _ => 0)) (solvesDiffFrom_iff.mpr
      ⟨by rw [h2.zero]; ring, by rw [h2.one]; ring, fun n => by rw [h2.tail]; ring⟩) t2 hp hr
  refine hc p hp hr ?_
  push_cast at q2
  linear_combination q1 - q2

theorem noCancelledPole_of_b0 {b0 a1 a2 : ℝ} (h : b0 ≠ 0) : NoCancelledPole b0 0 0 a1 a2 := by
  intro p hp _ h0
  have hp0 : p ≠ 0 := by
    rintro rfl; rw [norm_zero] at hp; linarith
  have : (b0 : ℂ) * p ^ 2 = 0 := by simpa using h0
  rcases mul_eq_zero.mp this with h1 | h1
  · exact h (by exact_mod_cast h1)
  · exact hp0 (pow_eq_zero_iff two_ne_zero |>.mp h1)

theorem stablePair_zero_iff {a1 : ℝ} : StablePair a1 0 ↔ |a1| < 1 := by simp [StablePair]

/-! ## C72 -/

/-- **C72**, bounded outputs: exactly for stable coefficients, from whatever state. -/
theorem C72_bounded_iff_stable :
    (∀ s : OnePole ℝ, s.b0 ≠ 0 → Total (T := ℝ) s ∧ (IsBounded s ↔ |s.a1| < 1)) ∧
    (∀ s : TwoPole ℝ, s.b0 ≠ 0 → Total (T := ℝ) s ∧ (IsBounded s ↔ |s.a2| < 1 ∧ |s.a1| < 1 + s.a2)) ∧
    (∀ s : Biquad1 ℝ, NoCancelledPole s.b0 s.b1 s.b2 s.a1 s.a2 → Total (T := ℝ) s ∧ (IsBounded s ↔ |s.a2| < 1 ∧ |s.a1| < 1 + s.a2)) ∧
    (∀ s : Biquad2 ℝ, NoCancelledPole s.b0 s.b1 s.b2 s.a1 s.a2 → Total (T := ℝ) s ∧ (IsBounded s ↔ |s.a2| < 1 ∧ |s.a1| < 1 + s.a2)) :=
  ⟨fun s h => ⟨s.implementsFrom.total, (s.implementsFrom.bounded_iff (noCancelledPole_of_b0 h)).trans stablePair_zero_iff⟩,
   fun s h => ⟨s.implementsFrom.total, s.implementsFrom.bounded_iff (noCancelledPole_of_b0 h)⟩,
   fun s h => ⟨s.implementsFrom.total, s.implementsFrom.bounded_iff h⟩, fun s h => ⟨s.implementsFrom.total, s.implementsFrom.bounded_iff h⟩⟩

/-- **C72**, decay on silence: exactly for stable coefficients, from whatever state. -/
theorem C72_decays_iff_stable :
    (∀ s : OnePole ℝ, s.b0 ≠ 0 → Total (T := ℝ) s ∧ (SilenceDecays s ↔ |s.a1| < 1)) ∧
    (∀ s : TwoPole ℝ, s.b0 ≠ 0 → Total (T := ℝ) s ∧ (SilenceDecays s ↔ |s.a2| < 1 ∧ |s.a1| < 1 + s.a2)) ∧
    (∀ s : Biquad1 ℝ, NoCancelledPole s.b0 s.b1 s.b2 s.a1 s.a2 → Total (T := ℝ) s ∧ (SilenceDecays s ↔ |s.a2| < 1 ∧ |s.a1| < 1 + s.a2)) ∧
    (∀ s : Biquad2 ℝ, NoCancelledPole s.b0 s.b1 s.b2 s.a1 s.a2 → Total (T := ℝ) s ∧ (SilenceDecays s ↔ |s.a2| < 1 ∧ |s.a1| < 1 + s.a2)) :=
  ⟨fun s h => ⟨s.implementsFrom.total, (s.implementsFrom.decays_iff (noCancelledPole_of_b0 h)).trans stablePair_zero_iff⟩,
   fun s h => ⟨s.implementsFrom.total, s.implementsFrom.decays_iff (noCancelledPole_of_b0 h)⟩,
   fun s h => ⟨s.implementsFrom.total, s.implementsFrom.decays_iff h⟩, fun s h => ⟨s.implementsFrom.total, s.implementsFrom.decays_iff h⟩⟩

/-- The hypothesis is met by a non-trivial biquad. -/
example : NoCancelledPole 1 1 0 (-3) 2 := by
  intro p hp hr h0
  have h1 : p ^ 2 + p = 0 := by push_cast at h0; linear_combination h0
  have h2 : p ^ 2 - 3 * p + 2 = 0 := by push_cast at hr; linear_combination hr
  have h3 : p = 1 / 2 := by linear_combination (1 / 4 : ℂ) * (h1 - h2)
  rw [h3] at h1
  norm_num at h1

/-- It is needed: with the pole 2 cancelled, a new biquad returns its input although `|a1| > 1`. -/
theorem C72_cancelled_pole (b : Build) (x : ℕ → ℝ) :
    Responds b (Biquad1.new.setCoefficients 1 (-2) 0 (-2) 0 : Biquad1 ℝ) x x ∧
    IsBounded (Biquad1.new.setCoefficients 1 (-2) 0 (-2) 0 : Biquad1 ℝ) ∧ ¬ StablePair (-2) 0 := by
  have hi : Implements (Biquad1.new.setCoefficients 1 (-2) 0 (-2) 0 : Biquad1 ℝ) 1 (-2) 0 (-2) 0 :=
    (C30_new_solve_difference_equation 1 (-2) 0 (-2) 0).2.2.2.2.1
  have hx : ∀ x : ℕ → ℝ, SolvesDiff 1 (-2) 0 (-2) 0 x x := fun x n => by ring
  refine ⟨(hi b x x).mpr (hx x), ?_, ?_⟩
  · refine ⟨hi.from.total, fun B => ⟨B, fun b x y hr hB n => ?_⟩⟩
    rw [hi] at hr
    rw [hr.unique (hx x)]
    exact hB n
  · rintro ⟨_, h⟩
    norm_num at h

end Rasp
