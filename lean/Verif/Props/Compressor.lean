import Verif.Spec.Compressor
import Verif.Props.Limiter
import Verif.Props.Util
import Verif.Props.DbError
import Verif.Lemmas.SmoothFl
import Mathlib.Analysis.Convex.SpecificFunctions.Basic

/-!
# C160: compressors built on the detectors and the decibel conversions
-/

namespace Rasp
open FloatOps
variable {b : Build}

/-! ## Exact arithmetic -/

section exact
variable {t c e z : ℝ}

theorem dbFactor_pos (t : ℝ) : 0 < dbFactor t := Real.rpow_pos_of_pos (by norm_num) _

theorem applyGain_real (b : Build) (z : ℝ) {g : ℝ} (hg : 0 ≤ g) : applyGain b z g = .ok (z * g) := by
  unfold applyGain
  have h1 : isSignNegative g = false := by
    have : ¬ isSignNegative g = true := by rw [real_isSignNegative]; exact not_lt.mpr hg
    exact Bool.eq_false_of_not_eq_true this
  rw [h1, real_isFinite, if_neg (by simp)]
  rfl

theorem floor_le_dbFactor (ht : -120 ≤ t) : 1e-6 ≤ dbFactor t := by
  have : (10 : ℝ) ^ (-6 : ℝ) ≤ (10 : ℝ) ^ (t / 20) := Real.rpow_le_rpow_of_exponent_le (by norm_num) (by linarith)
  rw [show (-6 : ℝ) = ((-6 : ℤ) : ℝ) by norm_num, Real.rpow_intCast] at this
  unfold dbFactor
  norm_num at this ⊢
  exact this

theorem dbFactor_lt_iff (he : 0 < e) : dbFactor t < e ↔ t < 20 * Real.logb 10 e := by
  unfold dbFactor
  rw [← Real.lt_logb_iff_rpow_lt (by norm_num) he, div_lt_iff₀ (by norm_num), mul_comm]

theorem rpow_db (he : 0 < e) : (10 : ℝ) ^ ((t - 20 * Real.logb 10 e) * c / 20) = (dbFactor t / e) ^ c := by
  have h : dbFactor t / e = 10 ^ (t / 20 - Real.logb 10 e) := by
    rw [Real.rpow_sub (by norm_num), Real.rpow_logb (by norm_num) (by norm_num) he]; rfl
  rw [h, ← Real.rpow_mul (by norm_num)]
  congr 1
  ring

theorem gain_nonneg (θ c e : ℝ) (hθ : 0 ≤ θ) : 0 ≤ compressorGain θ c e := by
  unfold compressorGain
  split_ifs with h
  · exact Real.rpow_nonneg (div_nonneg hθ (hθ.trans h.le)) _
  · exact zero_le_one

/-- What a compressor makes of a sample. -/
theorem compressed_real (b : Build) (ht : -120 ≤ t) (he : 0 ≤ e) (c z : ℝ) : ∃ g, compressed b t c e z = .ok (z * g) ∧ 0 ≤ g ∧ g ≤ compressorGain (dbFactor t) c e ∧
    (InGainRange t c e → g = compressorGain (dbFactor t) c e) := by
  have hθ := dbFactor_pos t
  have hfl := floor_le_dbFactor ht
  obtain ⟨d1, d2⟩ := toDb_real b (s := e) fun _ => he
  unfold compressorGain InGainRange compressed
  by_cases h : dbFactor t < e
  · have he0 : 0 < e := hθ.trans h
    have hl := (dbFactor_lt_iff he0).mp h
    rw [d1 (hfl.trans_lt h), if_pos h]
    simp only [bind, Except.bind, if_pos ((real_lt _ _).mpr hl)]
    change ∃ g, applyGain b z (toSample ((t - 20 * Real.logb 10 e) * c)) = .ok (z * g) ∧ _
    by_cases hr : -120 < (t - 20 * Real.logb 10 e) * c
    · rw [(toSample_real _).1 hr, rpow_db he0]
      have hg : 0 ≤ (dbFactor t / e) ^ c := Real.rpow_nonneg (div_nonneg hθ.le he) _
      exact ⟨_, applyGain_real b z hg, hg, le_rfl, fun _ => rfl⟩
    · rw [(toSample_real _).2 (not_lt.mp hr)]
      refine ⟨0, applyGain_real b z le_rfl, le_rfl, Real.rpow_nonneg (div_nonneg hθ.le he) _, fun h' => absurd (h' h) ?_⟩
      intro h''
      apply hr
      linarith
  · rw [if_neg h]
    refine ⟨1, ?_, zero_le_one, le_rfl, fun _ => rfl⟩
    rw [mul_one]
    rcases le_or_gt e 1e-6 with hs | hs
    · rw [d2 hs]
      simp only [bind, Except.bind]
      rw [if_neg (by rw [real_lt]; exact not_lt.mpr ht)]
    · rw [d1 hs]
      simp only [bind, Except.bind]
      rw [if_neg (by rw [real_lt, ← dbFactor_lt_iff (lt_trans (by norm_num) hs)]; exact h)]

/-- **C160.** A compressor on a cleared detector of either kind runs on every input, in both build modes. -/
theorem C160_runs (s : PeakEnvDetector ℝ) (q : RmsEnvDetector ℝ) (b : Build) (ha : s.getAttackGain ∈ Set.Ico (0 : ℝ) 1) (hr : s.getReleaseGain ∈ Set.Ico (0 : ℝ) 1)
    (ht : -120 ≤ t) (x : ℕ → ℝ) : (∃ y, Compresses b t c s.clear x y) ∧ ∃ y, Compresses b t c q.clear x y := by
  constructor
  · obtain ⟨e, he⟩ := NeverPanics.responds (fun _ _ _ => ⟨_, _, rfl⟩) b s.clear x
    choose g g1 _ _ _ using fun n => compressed_real b ht (peak_real_bounds he (s := s.clear) ha hr le_rfl n).2.2 c (x n)
    exact ⟨_, e, he, g1⟩
  · obtain ⟨e, he⟩ := NeverPanics.responds (fun _ _ _ => ⟨_, _, rfl⟩) b q.clear x
    have h0 : ∀ n, 0 ≤ e n := fun n => by
      obtain ⟨st, -, h1⟩ := he
      have := (Prod.mk.inj (Except.ok.inj (h1 n))).2
      rw [← this]
      exact Real.sqrt_nonneg _
    choose g g1 _ _ _ using fun n => compressed_real b ht (h0 n) c (x n)
    exact ⟨_, e, he, g1⟩

/-- Where the reading is at least `ρ` times the sample, the output is below the static curve divided by `ρ^c`. -/
theorem curve_bound {θ c e z ρ : ℝ} (hθ : 0 < θ) (hc0 : 0 ≤ c) (hρ0 : 0 < ρ) (hρ1 : ρ ≤ 1) (h : ρ * |z| ≤ e) :
    |z| * compressorGain θ c e ≤ staticCurve θ c |z| / ρ ^ c := by
  have hz := abs_nonneg z
  have hρc : 0 < ρ ^ c := Real.rpow_pos_of_pos hρ0 _
  have hρc1 : ρ ^ c ≤ 1 := Real.rpow_le_one hρ0.le hρ1 hc0
  rw [le_div_iff₀ hρc]
  unfold staticCurve
  rw [mul_assoc]
  refine mul_le_mul_of_nonneg_left ?_ hz
  unfold compressorGain
  split_ifs with h1 h2 h2
  · have he : 0 < e := hθ.trans h1
    rw [← Real.mul_rpow (div_nonneg hθ.le he.le) hρ0.le]
    refine Real.rpow_le_rpow (by positivity) ?_ hc0
    rw [div_mul_eq_mul_div, div_le_div_iff₀ he (hθ.trans h2), mul_assoc]
    exact mul_le_mul_of_nonneg_left h hθ.le
  · refine mul_le_one₀ (Real.rpow_le_one (by have := hθ.trans h1; positivity) ((div_le_one (hθ.trans h1)).mpr h1.le) hc0) hρc.le hρc1
  · rw [one_mul]
    refine Real.rpow_le_rpow hρ0.le ?_ hc0
    rw [le_div_iff₀ (hθ.trans h2)]
    exact h.trans (not_lt.mp h1)
  · rw [one_mul]; exact hρc1

/-- **C160.** A compressor on a cleared peak detector with attack gain `a` never gives more than the static curve at that sample, divided by `(1 - a)^c`, whatever
came before; with immediate attack the static curve itself is the bound. -/
theorem C160_ceiling {s : PeakEnvDetector ℝ} (ha : s.getAttackGain ∈ Set.Ico (0 : ℝ) 1) (hr : s.getReleaseGain ∈ Set.Ico (0 : ℝ) 1) (ht : -120 ≤ t) (hc : 0 ≤ c)
    {x y : ℕ → ℝ} (h : Compresses b t c s.clear x y) (n : ℕ) : |y n| ≤ staticCurve (dbFactor t) c |x n| / (1 - s.getAttackGain) ^ c := by
  obtain ⟨e, he, hy⟩ := h
  obtain ⟨h1, -, h3⟩ := peak_real_bounds he (s := s.clear) ha hr le_rfl n
  obtain ⟨g, g1, g2, g3, -⟩ := compressed_real b ht h3 c (x n)
  have hyn : y n = x n * g := Except.ok.inj ((hy n).symm.trans g1)
  rw [hyn, abs_mul, abs_of_nonneg g2]
  exact (mul_le_mul_of_nonneg_left g3 (abs_nonneg _)).trans
    (curve_bound (dbFactor_pos t) hc (by linarith [ha.2]) (by linarith [ha.1]) h1)

/-- **C160.** That bound is reached: by the first sample, if it is loud enough. -/
theorem C160_reached {s : PeakEnvDetector ℝ} (ha : s.getAttackGain ∈ Set.Ico (0 : ℝ) 1) (hr : s.getReleaseGain ∈ Set.Ico (0 : ℝ) 1) (ht : -120 ≤ t)
    {X : ℝ} (hX : dbFactor t < (1 - s.getAttackGain) * X) (hg : InGainRange t c ((1 - s.getAttackGain) * X)) :
    ∃ x y, Compresses b t c s.clear x y ∧ x 0 = X ∧ y 0 = staticCurve (dbFactor t) c X / (1 - s.getAttackGain) ^ c := by
  have hθ := dbFactor_pos t
  have h1a : 0 < 1 - s.getAttackGain := by linarith [ha.2]
  have hX0 : 0 < X := by
    by_contra h
    have := mul_nonpos_of_nonneg_of_nonpos h1a.le (not_lt.mp h)
    linarith
  have hXθ : dbFactor t < X := hX.trans_le (mul_le_of_le_one_left hX0.le (by linarith [ha.1]))
  obtain ⟨e, he, h⟩ := peak_of_one s b ha hr.1 hX0
  have hen : ∀ n, 0 ≤ e n := fun n => by
    rw [h n]; have := pow_nonneg hr.1 n; positivity
  choose g g1 g2 g3 g4 using fun n => compressed_real b ht (hen n) c (if n = 0 then X else 0)
  refine ⟨_, _, ⟨e, he, g1⟩, if_pos rfl, ?_⟩
  have e0 : e 0 = (1 - s.getAttackGain) * X := by rw [h 0, pow_zero, one_mul]
  rw [if_pos rfl, g4 0 (by rw [e0]; exact hg), e0]
  unfold staticCurve compressorGain
  rw [if_pos hX, if_pos hXθ, mul_div_assoc, ← Real.div_rpow (div_nonneg hθ.le hX0.le) h1a.le]
  congr 2
  field_simp

/-- **C160.** Where nothing has been louder than the threshold, the compressor changes nothing. -/
theorem C160_quiet {σ : Type} [Processor σ ℝ] {s : σ} {x y e : ℕ → ℝ} (ht : -120 ≤ t) (he : Responds b s x e) (h : Compresses b t c s x y) {n : ℕ}
    (h0 : 0 ≤ e n) (h1 : e n ≤ dbFactor t) : y n = x n := by
  obtain ⟨e', he', hy⟩ := h
  obtain rfl := Responds.unique he he'
  obtain ⟨g, g1, -, -, g4⟩ := compressed_real b ht h0 c (x n)
  have hyn : y n = x n * g := Except.ok.inj ((hy n).symm.trans g1)
  rw [hyn, g4 fun h => absurd h (not_lt.mpr h1), compressorGain, if_neg (not_lt.mpr h1), mul_one]

theorem scaled_gain {θ c e k x : ℝ} (hθ : 0 < θ) (hk : k ≠ 0) (h1 : θ < e) (h2 : θ < |k| * e) :
    k * x * compressorGain θ c (|k| * e) = k / |k| * |k| ^ (1 - c) * (x * compressorGain θ c e) := by
  have hk' : 0 < |k| := abs_pos.mpr hk
  have he : 0 < e := hθ.trans h1
  unfold compressorGain
  rw [if_pos h1, if_pos h2, Real.rpow_sub hk', Real.rpow_one, mul_comm (|k|) e, ← div_div, Real.div_rpow (div_nonneg hθ.le he.le) hk'.le]
  have := (Real.rpow_pos_of_pos hk' c).ne'
  field_simp

/-- **C160**, the ratio. While the readings are above the threshold, turning the input up by a factor `k` turns the output up by `|k|^(1 - c)` only: for `c = 1 - 1/R` that is
one decibel for `R` decibels. With either detector. -/
theorem C160_ratio (s : PeakEnvDetector ℝ) (q : RmsEnvDetector ℝ) (b : Build) (ht : -120 ≤ t) {k : ℝ} (hk : k ≠ 0) (x e : ℕ → ℝ) :
    (∀ y y', Responds b s.clear x e → Compresses b t c s.clear x y → Compresses b t c s.clear (fun n => k * x n) y' → ∀ n, dbFactor t < e n → dbFactor t < |k| * e n →
      InGainRange t c (e n) → InGainRange t c (|k| * e n) → y' n = k / |k| * |k| ^ (1 - c) * y n) ∧
    (∀ y y', Responds b q.clear x e → Compresses b t c q.clear x y → Compresses b t c q.clear (fun n => k * x n) y' → ∀ n, dbFactor t < e n → dbFactor t < |k| * e n →
      InGainRange t c (e n) → InGainRange t c (|k| * e n) → y' n = k / |k| * |k| ^ (1 - c) * y n) := by
  have hθ := dbFactor_pos t
  have key : ∀ {x0 e0 y0 y0' : ℝ}, compressed b t c e0 x0 = .ok y0 → compressed b t c (|k| * e0) (k * x0) = .ok y0' → dbFactor t < e0 → dbFactor t < |k| * e0 →
      InGainRange t c e0 → InGainRange t c (|k| * e0) → y0' = k / |k| * |k| ^ (1 - c) * y0 := by
    intro x0 e0 y0 y0' h1 h2 h3 h4 h5 h6
    obtain ⟨g, g1, -, -, g4⟩ := compressed_real b ht (hθ.trans h3).le c x0
    obtain ⟨g', g1', -, -, g4'⟩ := compressed_real b ht (hθ.trans h4).le c (k * x0)
    obtain rfl := Except.ok.inj (g1.symm.trans h1)
    obtain rfl := Except.ok.inj (g1'.symm.trans h2)
    rw [g4 h5, g4' h6]
    exact scaled_gain hθ hk h3 h4
  constructor
  · rintro y y' he ⟨e1, r1, c1⟩ ⟨e2, r2, c2⟩ n h3 h4 h5 h6
    obtain ⟨v, v1, v2⟩ := C89_peak_scales s b x k
    obtain rfl := Responds.unique he r1
    obtain rfl := Responds.unique he v1
    obtain rfl := Responds.unique v2 r2
    exact key (c1 n) (c2 n) h3 h4 h5 h6
  · rintro y y' he ⟨e1, r1, c1⟩ ⟨e2, r2, c2⟩ n h3 h4 h5 h6
    obtain ⟨v, v1, v2⟩ := C89_rms_scales q b x k
    obtain rfl := Responds.unique he r1
    obtain rfl := Responds.unique he v1
    obtain rfl := Responds.unique v2 r2
    exact key (c1 n) (c2 n) h3 h4 h5 h6

/-- A reading off by a part `τ` of the square changes the gain by a part `c τ` at most. -/
theorem gain_error {θ c R E τ : ℝ} (hθ : 0 < θ) (hc0 : 0 ≤ c) (hc1 : c ≤ 1) (hR : 0 < R) (hE : 0 < E) (hτ : τ ≤ 1 / 2) (h : |E ^ 2 - R ^ 2| ≤ R ^ 2 * τ) :
    |(θ / E) ^ c - (θ / R) ^ c| ≤ (θ / R) ^ c * (c * τ) := by
  have hq : (θ / E) ^ c = (θ / R) ^ c * (R / E) ^ c := by
    rw [← Real.mul_rpow (by positivity) (by positivity)]
    congr 1
    field_simp
  have hpos : 0 ≤ (θ / R) ^ c := by positivity
  rw [hq, ← mul_sub_one, abs_mul, abs_of_nonneg hpos]
  refine mul_le_mul_of_nonneg_left ?_ hpos
  obtain ⟨v, hv⟩ : ∃ v, v = E / R := ⟨_, rfl⟩
  have hv0 : 0 < v := by rw [hv]; positivity
  have hv2 : |v ^ 2 - 1| ≤ τ := by
    have e : v ^ 2 - 1 = (E ^ 2 - R ^ 2) / R ^ 2 := by rw [hv]; field_simp
    rw [e, abs_div, abs_of_pos (by positivity : (0 : ℝ) < R ^ 2), div_le_iff₀ (by positivity)]
    linarith
  obtain ⟨l1, l2⟩ := abs_le.mp hv2
  have hτ0 : 0 ≤ τ := (abs_nonneg _).trans hv2
  have hRE : R / E = v⁻¹ := by rw [hv, inv_div]
  have e1 : v ^ 2 ≤ 1 + τ := by linarith
  have hv1 : v ≤ 1 + τ / 2 := by nlinarith
  have hlow : (7 : ℝ) / 10 ≤ v := by nlinarith
  have hinv : v⁻¹ - 1 ≤ τ := by
    have h1 : 1 ≤ (v * (1 + τ)) ^ 2 := by
      rw [mul_pow]
      have : (1 - τ) * (1 + τ) ^ 2 ≤ v ^ 2 * (1 + τ) ^ 2 := mul_le_mul_of_nonneg_right (by linarith) (sq_nonneg _)
      have : 0 ≤ τ * (1 - τ - τ ^ 2) := mul_nonneg hτ0 (by nlinarith)
      nlinarith
    have h2 : 1 ≤ v * (1 + τ) := (one_le_sq_iff₀ (by positivity)).mp h1
    have h3 : v⁻¹ ≤ 1 + τ := by
      rw [inv_le_iff_one_le_mul₀ hv0]
      linarith
    linarith
  rw [hRE, abs_le]
  constructor
  · have u1 := rpow_one_add_le_one_add_mul_self (s := v - 1) (by linarith) hc0 hc1
    rw [add_sub_cancel] at u1
    have hvc : 0 < v ^ c := by positivity
    rw [Real.inv_rpow hv0.le]
    have u2 : v ^ c ≤ 1 + c * τ := u1.trans (by nlinarith)
    have u3 : 1 - c * τ ≤ (v ^ c)⁻¹ := by
      have hq : 0 ≤ c * τ := by positivity
      have u4 : (1 + c * τ)⁻¹ ≤ (v ^ c)⁻¹ := inv_anti₀ hvc u2
      refine le_trans ?_ u4
      rw [← one_div, le_div_iff₀ (by linarith)]
      nlinarith
    linarith
  · have u1 := rpow_one_add_le_one_add_mul_self (s := v⁻¹ - 1) (by have := inv_pos.mpr hv0; linarith) hc0 hc1
    rw [add_sub_cancel] at u1
    nlinarith

/-- **C160**, a sinusoid. On a sinusoid of amplitude `A` above twice the threshold a compressor on a cleared RMS detector with equal gains gives the sinusoid times
`(√2 θ / |A|)^c`, up to `c` times the ripple of the reading and what is left of the start. -/
theorem C160_sine {q : RmsEnvDetector ℝ} {g : ℝ} (hg : g ∈ Set.Ico (0 : ℝ) 1) (ha : q.getAttackGain = g) (hr : q.getReleaseGain = g) (b : Build) (ht : -120 ≤ t)
    (hc0 : 0 ≤ c) (hc1 : c ≤ 1) {A w φ : ℝ} (hA : 2 * dbFactor t < |A|) (hgr : InGainRange t c |A|) {y : ℕ → ℝ}
    (hy : Compresses b t c q.clear (fun n => A * Real.sin (w * n + φ)) y) {n : ℕ} (hn : ripple g w + 2 * g ^ (n + 1) ≤ 1 / 2) :
    |y n - (√2 * dbFactor t / |A|) ^ c * (A * Real.sin (w * n + φ))| ≤ (√2 * dbFactor t / |A|) ^ c * |A| * (c * (ripple g w + 2 * g ^ (n + 1))) := by
  have hθ := dbFactor_pos t
  obtain ⟨e, he, hy⟩ := hy
  obtain ⟨e', he', -, hb⟩ := C110_rms_sine hg (s := q.clear) ha hr le_rfl b A w φ
  obtain rfl := Responds.unique he he'
  have hl : q.clear.lastOut = 0 := by show Real.sqrt 0 = 0; exact Real.sqrt_zero
  have hE0 : 0 ≤ e n := by
    obtain ⟨st, -, h1⟩ := he
    have := (Prod.mk.inj (Except.ok.inj (h1 n))).2
    rw [← this]
    exact Real.sqrt_nonneg _
  have hbn : |e n ^ 2 - A ^ 2 / 2| ≤ A ^ 2 / 2 * (ripple g w + 2 * g ^ (n + 1)) := by
    have := hb n
    rw [hl] at this
    refine this.trans (le_of_eq ?_)
    unfold ripple
    ring
  obtain ⟨G, G1, -, -, G4⟩ := compressed_real b ht hE0 c (A * Real.sin (w * n + φ))
  have hyn : y n = A * Real.sin (w * n + φ) * G := Except.ok.inj ((hy n).symm.trans G1)
  generalize ripple g w + 2 * g ^ (n + 1) = τ at *
  have hA0 : 0 < |A| := by linarith
  have hs2 : √2 ^ 2 = 2 := Real.sq_sqrt (by norm_num)
  have hs0 : 0 < √2 := by positivity
  obtain ⟨b1, b2⟩ := abs_le.mp hbn
  rw [← sq_abs A] at b1 b2 hbn
  have hA2 : 0 < |A| ^ 2 := by positivity
  have hEθ : dbFactor t < e n := lt_of_pow_lt_pow_left₀ 2 hE0 (by nlinarith)
  have hEA : e n ≤ |A| := (sq_le_sq₀ hE0 hA0.le).mp (by nlinarith)
  have hin : InGainRange t c (e n) := fun _ => by
    have h1 := hgr (by linarith)
    have h2 := Real.logb_le_logb_of_le (b := 10) (by norm_num) (hθ.trans hEθ) hEA
    nlinarith
  have hk := gain_error hθ hc0 hc1 (R := |A| / √2) (by positivity) (hθ.trans hEθ) hn (by rw [div_pow, hs2]; exact hbn)
  have hG : G = (dbFactor t / e n) ^ c := by rw [G4 hin, compressorGain, if_pos hEθ]
  have hq : √2 * dbFactor t / |A| = dbFactor t / (|A| / √2) := by field_simp
  rw [hyn, hG, hq]
  generalize (dbFactor t / (|A| / √2)) ^ c = K at *
  generalize (dbFactor t / e n) ^ c = K' at *
  rw [show A * Real.sin (w * n + φ) * K' - K * (A * Real.sin (w * n + φ)) = A * Real.sin (w * n + φ) * (K' - K) by ring, abs_mul, abs_mul]
  have h1 := Real.abs_sin_le_one (w * n + φ)
  have h2 := mul_le_mul (mul_le_of_le_one_right (abs_nonneg A) h1) hk (abs_nonneg _) (abs_nonneg A)
  linarith

end exact

/-! ## Floating point -/

section float
variable {f : Fmt} {L : Libm f} {k : ℝ}

/-- The gain as a level. -/
theorem gain_of_level {t c e : ℝ} (ht : -120 ≤ t) : compressorGain (dbFactor t) c e = 10 ^ (-(c * max 0 (level e - t)) / 20) := by
  have hθ := dbFactor_pos t
  have hfl := floor_le_dbFactor ht
  unfold compressorGain
  split_ifs with h
  · have he0 := hθ.trans h
    have hl := (dbFactor_lt_iff he0).mp h
    have hlev : level e = 20 * Real.logb 10 e := by rw [level, if_pos (hfl.trans_lt h)]
    rw [hlev, max_eq_right (by linarith), ← rpow_db he0]
    congr 1
    ring
  · have : level e ≤ t := by
      unfold level
      split_ifs with h6
      · exact not_lt.mp fun hlt => h ((dbFactor_lt_iff (lt_trans (by norm_num) h6)).mpr hlt)
      · exact ht
    rw [max_eq_left (by linarith), mul_zero, neg_zero, zero_div, Real.rpow_zero]

/-- Pure arithmetic: the exponent `d` worked out in floating point. -/
theorem exponent_error {f : Fmt} {k T C Λ l r d : ℝ} (hf : f.Ordinary) (hk0 : 0 ≤ k) (hk : (k + 30) * f.u ≤ 1 / 2000) (hT : |T| ≤ 100) (hC0 : 0 ≤ C) (hC1 : C ≤ 1)
    (hΛ : |Λ| ≤ 120) (hl : |l - Λ| ≤ (k + 3) * f.u * 120) (hr : |r - (T - l)| ≤ f.u * |T - l| + f.tiny) (hd : |d - r * C| ≤ f.u * |r * C| + f.tiny) (hlt : T < l) :
    |d - -(C * max 0 (Λ - T))| ≤ (120 * k + 804) * f.u := by
  have u0 := f.u_pos
  have t0 := f.tiny_pos
  have ht := hf.tiny_le
  have hku : 0 ≤ k * f.u := by positivity
  have hTl : |T - l| ≤ 220.1 := by
    have e := abs_add_le (T - Λ) (Λ - l)
    rw [sub_add_sub_cancel, abs_sub_comm Λ l] at e
    have e2 := abs_sub T Λ
    linarith
  have hr' : |r - (T - l)| ≤ 220.2 * f.u := by
    have := mul_le_mul_of_nonneg_left hTl u0.le
    linarith
  have hrb : |r| ≤ 220.3 := by
    have := abs_add_le (r - (T - l)) (T - l)
    rw [sub_add_cancel] at this
    linarith
  have hrC : |r * C| ≤ 220.3 := by
    rw [abs_mul, abs_of_nonneg hC0]
    exact (mul_le_of_le_one_right (abs_nonneg r) hC1).trans hrb
  have hd' : |d - r * C| ≤ 220.4 * f.u := by
    have := mul_le_mul_of_nonneg_left hrC u0.le
    linarith
  have e1 : |r * C - (T - l) * C| ≤ 220.2 * f.u := by
    rw [← sub_mul, abs_mul, abs_of_nonneg hC0]
    exact (mul_le_of_le_one_right (abs_nonneg _) hC1).trans hr'
  have e2 : |(T - l) * C - -(C * max 0 (Λ - T))| ≤ (k + 3) * f.u * 120 := by
    have h1 : T - l = -max 0 (l - T) := by rw [max_eq_right (by linarith)]; ring
    rw [h1, show -max 0 (l - T) * C - -(C * max 0 (Λ - T)) = C * (max 0 (Λ - T) - max 0 (l - T)) by ring, abs_mul, abs_of_nonneg hC0]
    refine (mul_le_of_le_one_left (abs_nonneg _) hC1).trans ((abs_max_sub_max_le_max 0 (Λ - T) 0 (l - T)).trans ?_)
    rw [show Λ - T - (l - T) = -(l - Λ) by ring, abs_neg, sub_self, abs_zero]
    exact max_le (by positivity) hl
  have := abs_add_three (d - r * C) (r * C - (T - l) * C) ((T - l) * C - -(C * max 0 (Λ - T)))
  rw [show d - r * C + (r * C - (T - l) * C) + ((T - l) * C - -(C * max 0 (Λ - T))) = d - -(C * max 0 (Λ - T)) by ring] at this
  linarith

/-- Pure arithmetic: the product. -/
theorem product_error {f : Fmt} {k z G g p : ℝ} (hk0 : 0 ≤ k) (hk : (k + 30) * f.u ≤ 1 / 2000) (hG : 0 < G) (hg : |g - G| ≤ (15.3 * k + 112) * f.u * G)
    (hp : |p - z * g| ≤ f.u * |z * g| + f.tiny) : |p - z * G| ≤ (16 * k + 114) * f.u * (|z| * G) + f.tiny := by
  have u0 := f.u_pos
  have hku : 0 ≤ k * f.u := by positivity
  have hgb : |g| ≤ 1.01 * G := by
    have := abs_add_le (g - G) G
    rw [sub_add_cancel, abs_of_pos hG] at this
    have : (15.3 * k + 112) * f.u * G ≤ 0.01 * G := mul_le_mul_of_nonneg_right (by linarith) hG.le
    linarith
  have h1 : |z * g - z * G| ≤ |z| * ((15.3 * k + 112) * f.u * G) := by
    rw [← mul_sub, abs_mul]; exact mul_le_mul_of_nonneg_left hg (abs_nonneg z)
  have h2 : |z * g| ≤ |z| * (1.01 * G) := by rw [abs_mul]; exact mul_le_mul_of_nonneg_left hgb (abs_nonneg z)
  have h3 := abs_add_le (p - z * g) (z * g - z * G)
  rw [sub_add_sub_cancel] at h3
  have h4 := mul_le_mul_of_nonneg_left h2 u0.le
  have h5 : 0 ≤ f.u * (|z| * G) := by positivity
  have h6 : 0 ≤ k * (f.u * (|z| * G)) := by positivity
  linarith

/-- **C160** in floating point. With a threshold between -100 and 100 dB and a reading up to one million, the compressed sample is the sample times the ideal gain
with a relative error of at most `(16 k + 114) 2^-p`, near the threshold too. -/
theorem C160_float (hf : f.Ordinary) (hD : AccurateDb L k) (hk0 : 0 ≤ k) (hk : (k + 30) * f.u ≤ 1 / 2000) (b : Build) {t c e z : Fl L}
    (ht : t.Finite) (ht' : |t.toReal| ≤ 100) (hc : c.Finite) (hc0 : 0 ≤ c.toReal) (hc1 : c.toReal ≤ 1) (he : e.Finite) (hs : isSignNegative e = false)
    (he6 : e.toReal ≤ 1e6) (hz : z.Finite) (hz' : 2 * |z.toReal| ≤ 2 ^ f.emax) (hgr : c.toReal * (level e.toReal - t.toReal) ≤ 119) :
    ∃ y : Fl L, compressed b t c e z = .ok y ∧ y.Finite ∧ |y.toReal - z.toReal * compressorGain (dbFactor t.toReal) c.toReal e.toReal| ≤
      (16 * k + 114) * f.u * (|z.toReal| * compressorGain (dbFactor t.toReal) c.toReal e.toReal) + f.tiny := by
  have u0 := f.u_pos
  have t0 := f.tiny_pos
  have hku : 0 ≤ k * f.u := by positivity
  have hE := hf.emax_ge
  obtain ⟨htl, htu⟩ := abs_le.mp ht'
  have hmax := level_max he6
  have hΛ : |level e.toReal| ≤ 120 := (le_max_right 120 _).trans_eq hmax
  obtain ⟨l, l1, l2, l3⟩ := C98_to_db hf hD hk0 hk b e he hs
  rw [hmax] at l3
  rw [gain_of_level (by linarith)]
  unfold compressed
  rw [l1]
  simp only [bind, Except.bind]
  have hm0 : 0 ≤ c.toReal * max 0 (level e.toReal - t.toReal) := mul_nonneg hc0 (le_max_left _ _)
  have hm1 : c.toReal * max 0 (level e.toReal - t.toReal) ≤ 119 := by
    rcases max_choice 0 (level e.toReal - t.toReal) with h | h <;> rw [h]
    · norm_num
    · exact hgr
  by_cases hlt : lt t l = true
  · rw [if_pos hlt]
    have hlt' := (Fl.lt_iff ht l2).mp hlt
    have hTl : |t.toReal - l.toReal| ≤ 221 := by
      have e1 := abs_add_le (t.toReal - level e.toReal) (level e.toReal - l.toReal)
      rw [sub_add_sub_cancel, abs_sub_comm (level _) l.toReal] at e1
      have e2 := abs_sub t.toReal (level e.toReal)
      linarith
    obtain ⟨r1, r2⟩ := Fl.sub_val ht l2 (Fl.noOvf_of_le_emax (hTl.trans (by norm_num at hE ⊢; linarith)))
    have hr := abs_rnd_sub_le_u f (t.toReal - l.toReal)
    rw [← r2] at hr
    have hrb : |(t -. l).toReal * c.toReal| ≤ 223 := by
      rw [abs_mul, abs_of_nonneg hc0]
      refine (mul_le_of_le_one_right (abs_nonneg _) hc1).trans ?_
      have h1 := abs_add_le ((t -. l).toReal - (t.toReal - l.toReal)) (t.toReal - l.toReal)
      rw [sub_add_cancel] at h1
      have h2 := mul_le_mul_of_nonneg_left hTl u0.le
      have := hf.tiny_le
      linarith
    obtain ⟨d1, d2⟩ := Fl.mul_val r1 hc (Fl.noOvf_of_le_emax (hrb.trans (by norm_num at hE ⊢; linarith)))
    have hd := abs_rnd_sub_le_u f ((t -. l).toReal * c.toReal)
    rw [← d2] at hd
    have hex := exponent_error hf hk0 hk ht' hc0 hc1 hΛ l3 hr hd hlt'
    generalize (t -. l) *. c = d at *
    have hexb : (120 * k + 804) * f.u ≤ 0.1 := by linarith
    obtain ⟨x1, x2⟩ := abs_le.mp hex
    have hamp := amp_near (by norm_num at hexb ⊢; exact hexb) hex
    obtain ⟨g1, g2⟩ := C98_to_sample hf hD hk0 hk d d1 (by linarith)
    rw [amplitude, if_pos (by linarith)] at g2
    have hGp : (0 : ℝ) < 10 ^ (-(c.toReal * max 0 (level e.toReal - t.toReal)) / 20) := by positivity
    have hG1 : (10 : ℝ) ^ (-(c.toReal * max 0 (level e.toReal - t.toReal)) / 20) ≤ 1 := Real.rpow_le_one_of_one_le_of_nonpos (by norm_num) (by linarith)
    generalize (10 : ℝ) ^ (-(c.toReal * max 0 (level e.toReal - t.toReal)) / 20) = G at *
    generalize (10 : ℝ) ^ (d.toReal / 20) = G' at *
    have hg : |(toSample d).toReal - G| ≤ (15.3 * k + 112) * f.u * G := by
      have h1 := abs_add_le ((toSample d).toReal - G') (G' - G)
      rw [sub_add_sub_cancel] at h1
      have h2 : G' ≤ 1.02 * G := by
        have := (abs_le.mp hamp).2
        have : 0.118 * ((120 * k + 804) * f.u) * G ≤ 0.02 * G := mul_le_mul_of_nonneg_right (by linarith) hGp.le
        linarith
      have h3 := mul_le_mul_of_nonneg_left h2 (show 0 ≤ (k + 16) * f.u by positivity)
      have h4 : 0 ≤ f.u * G := by positivity
      have h5 : 0 ≤ k * (f.u * G) := by positivity
      linarith
    have hgs : (15.3 * k + 112) * f.u * G ≤ 0.01 * G := mul_le_mul_of_nonneg_right (by linarith) hGp.le
    obtain ⟨q1, q2⟩ := abs_le.mp hg
    have hgp : 0 < (toSample d).toReal := by linarith
    have e1 : applyGain b z (toSample d) = .ok (z *. toSample d) := by
      unfold applyGain
      rw [if_neg]
      rw [Bool.and_eq_true]
      rintro ⟨_, h⟩
      rw [sign_of_pos hgp, Fl.isFinite_iff.mpr g1] at h
      simp at h
    have hzg : |z.toReal * (toSample d).toReal| ≤ 2 ^ f.emax := by
      rw [abs_mul, abs_of_pos hgp]
      nlinarith [abs_nonneg z.toReal]
    obtain ⟨p1, p2⟩ := Fl.mul_val hz g1 (Fl.noOvf_of_le_emax hzg)
    have hp := abs_rnd_sub_le_u f (z.toReal * (toSample d).toReal)
    rw [← p2] at hp
    exact ⟨_, e1, p1, product_error hk0 hk hGp hg hp⟩
  · rw [if_neg hlt]
    have hlt' := (Fl.lt_false_iff ht l2).mp (Bool.not_eq_true _ ▸ hlt)
    refine ⟨z, rfl, hz, ?_⟩
    have hx : |0 - -(c.toReal * max 0 (level e.toReal - t.toReal))| ≤ (k + 3) * f.u * 120 := by
      rw [sub_neg_eq_add, zero_add, abs_of_nonneg hm0]
      refine (mul_le_of_le_one_left (le_max_left _ _) hc1).trans (max_le (by positivity) ?_)
      have := (abs_le.mp l3).1
      linarith
    have hamp := amp_near (by linarith) hx
    rw [zero_div, Real.rpow_zero] at hamp
    generalize (10 : ℝ) ^ (-(c.toReal * max 0 (level e.toReal - t.toReal)) / 20) = G at *
    have hG : 0 ≤ G := by
      by_contra h
      have h1 : 0.118 * ((k + 3) * f.u * 120) * G ≤ 0 := mul_nonpos_of_nonneg_of_nonpos (by positivity) (not_le.mp h).le
      have h2 := (abs_le.mp (hamp.trans h1)).2
      linarith
    have h1 := mul_le_mul_of_nonneg_left hamp (abs_nonneg z.toReal)
    rw [← abs_mul, mul_sub, mul_one] at h1
    have h5 : 0 ≤ f.u * (|z.toReal| * G) := by positivity
    have h6 : 0 ≤ k * (f.u * (|z.toReal| * G)) := by positivity
    linarith

theorem level_mono {x y : ℝ} (h : x ≤ y) : level x ≤ level y := by
  by_cases hx : 1e-6 < x
  · have hx0 : 0 < x := lt_trans (by norm_num) hx
    rw [level, if_pos hx, level, if_pos (hx.trans_le h)]
    have := Real.logb_le_logb_of_le (b := 10) (by norm_num) hx0 h
    linarith
  · rw [level, if_neg hx]
    exact level_ge y

/-- With an immediate attack no reading has a sign bit. -/
theorem reading_sign {b : Build} {s : PeakEnvDetector (Fl L)} {X : ℝ} {x e : ℕ → Fl L} (ha : s.getAttackGain.Finite) (ha0 : s.getAttackGain.toReal = 0)
    (hr : s.getReleaseGain.Finite) (hr0 : 0 ≤ s.getReleaseGain.toReal) (hr1 : s.getReleaseGain.toReal < 1) (hm : s.lastOut.Within X) (hov : 2 * X ≤ 2 ^ f.emax)
    (h : Responds b s x e) (hx : ∀ n, (x n).Within X) (n : ℕ) : isSignNegative (e n) = false := by
  have hc := fun n => reading_covers ha ha0 hr hr0 hr1 hm hov h n fun k _ => hx k
  rcases (lt_or_eq_of_le ((abs_nonneg _).trans (hc n).2)) with hpos | hz
  · exact sign_of_pos hpos
  obtain ⟨v, hv0, hv, he⟩ := peak_readings h
  have hvn : (v n).Within X := by
    cases n with
    | zero => rw [hv0]; exact hm
    | succ n => rw [hv]; exact (hc n).1
  have hx0 : |(x n).toReal| = 0 := le_antisymm ((hc n).2.trans_eq hz.symm) (abs_nonneg _)
  have hi : (abs (x n)).Finite := Fl.abs_finite.mpr (hx n).1
  have hi0 : (abs (x n)).toReal = 0 := by rw [Fl.abs_toReal, hx0]
  obtain ⟨w, hw, hwg, hw0, hw1⟩ : ∃ w, w = (if lt (v n) (abs (x n)) then s.getAttackGain else s.getReleaseGain) ∧ w.Finite ∧ 0 ≤ w.toReal ∧ w.toReal < 1 := by
    refine ⟨_, rfl, ?_, ?_, ?_⟩ <;> split_ifs
    · exact ha
    · exact hr
    · exact ha0.ge
    · exact hr0
    · rw [ha0]; exact zero_lt_one
    · exact hr1
  have hen := he n
  rw [← hw] at hen
  have hvx : |(v n).toReal - (abs (x n)).toReal| ≤ X := by rw [hi0, sub_zero]; exact hvn.2
  have hX : 0 ≤ X := (abs_nonneg _).trans hvn.2
  have c1 := Fl.sub_val hvn.1 hi (Fl.noOvf_of_le_emax (hvx.trans (by linarith)))
  rw [hi0, sub_zero, rnd_of_isRep (Fl.isRep_toReal _)] at c1
  have hwm : |w.toReal * (v n -. abs (x n)).toReal| ≤ X := by
    rw [c1.2, abs_mul, abs_of_nonneg hw0]
    exact (mul_le_of_le_one_left (abs_nonneg _) hw1.le).trans hvn.2
  have c2 := Fl.mul_val hwg c1.1 (Fl.noOvf_of_le_emax (hwm.trans (by linarith)))
  have c3 := Fl.add_val hi c2.1 (by rw [hi0, zero_add]; exact Fl.noOvf_toReal _)
  rw [hi0, zero_add, rnd_of_isRep (Fl.isRep_toReal _), ← hen, ← hz] at c3
  rw [hen]
  exact Fl.add_zero_sign hi (Fl.abs_sign _) c2.1 c3.2.symm

/-- **C160**, a whole run in floating point: on a peak detector with immediate attack, every output is below the static curve at its sample, up to a relative error of
`(16 k + 114) 2^-p`. -/
theorem C160_float_ceiling (hf : f.Ordinary) (hD : AccurateDb L k) (hk0 : 0 ≤ k) (hk : (k + 30) * f.u ≤ 1 / 2000) (b : Build) {s : PeakEnvDetector (Fl L)} {t c : Fl L}
    {x : ℕ → Fl L} {X : ℝ} (ha : s.getAttackGain.Finite) (ha0 : s.getAttackGain.toReal = 0) (hr : s.getReleaseGain.Finite) (hr0 : 0 ≤ s.getReleaseGain.toReal)
    (hr1 : s.getReleaseGain.toReal < 1) (hm : s.lastOut.Within X) (hX : X ≤ 1e6) (hx : ∀ n, (x n).Within X) (ht : t.Finite) (ht' : |t.toReal| ≤ 100) (hc : c.Finite)
    (hc0 : 0 ≤ c.toReal) (hc1 : c.toReal ≤ 1) (hgr : c.toReal * (level X - t.toReal) ≤ 119) :
    ∃ y, Compresses b t c s x y ∧ ∀ n, (y n).Finite ∧
      |(y n).toReal| ≤ staticCurve (dbFactor t.toReal) c.toReal |(x n).toReal| * (1 + (16 * k + 114) * f.u) + f.tiny := by
  have u0 := f.u_pos
  have hE := hf.emax_ge
  have hov : 2 * X ≤ 2 ^ f.emax := by norm_num at hE hX ⊢; linarith
  obtain ⟨e, he⟩ := NeverPanics.responds (fun _ _ _ => ⟨_, _, rfl⟩) b s x
  have hcov := fun n => reading_covers ha ha0 hr hr0 hr1 hm hov he n fun k _ => hx k
  have hlev : ∀ n, c.toReal * (level (e n).toReal - t.toReal) ≤ 119 := fun n => by
    have h1 : (e n).toReal ≤ X := (le_abs_self _).trans (hcov n).1.2
    have h2 : level (e n).toReal ≤ level X := level_mono h1
    nlinarith
  choose y y1 y2 y3 using fun n => C160_float hf hD hk0 hk b ht ht' hc hc0 hc1 (hcov n).1.1 (reading_sign ha ha0 hr hr0 hr1 hm hov he hx n)
    (((le_abs_self _).trans (hcov n).1.2).trans hX) (hx n).1 (by have := (hx n).2; linarith) (hlev n)
  refine ⟨y, ⟨e, he, y1⟩, fun n => ⟨y2 n, ?_⟩⟩
  have hθ := dbFactor_pos t.toReal
  have h1 := curve_bound hθ hc0 zero_lt_one le_rfl (z := (x n).toReal) (e := (e n).toReal) (by rw [one_mul]; exact (hcov n).2)
  rw [Real.one_rpow, div_one] at h1
  have h2 := abs_add_le ((y n).toReal - (x n).toReal * compressorGain (dbFactor t.toReal) c.toReal (e n).toReal)
    ((x n).toReal * compressorGain (dbFactor t.toReal) c.toReal (e n).toReal)
  rw [sub_add_cancel, abs_mul (x n).toReal, abs_of_nonneg (gain_nonneg _ _ _ hθ.le)] at h2
  have h3 := mul_le_mul_of_nonneg_left h1 (show 0 ≤ (16 * k + 114) * f.u by positivity)
  linarith [y3 n]

end float

/-- Threshold -20 dB (one tenth), ratio 2, immediate attack: a full-scale sample comes out below `1/√10`. -/
example {s : PeakEnvDetector ℝ} (ha : s.getAttackGain = 0) (hr : s.getReleaseGain = 1 / 2) {x y : ℕ → ℝ} (h : Compresses b (-20) (1 / 2) s.clear x y) {n : ℕ}
    (hx : x n = 1) : |y n| ≤ (1 / 10) ^ (1 / 2 : ℝ) := by
  have h1 := C160_ceiling (by rw [ha]; exact ⟨le_rfl, zero_lt_one⟩) (by rw [hr]; constructor <;> norm_num) (by norm_num) (by norm_num) h n
  have hd : dbFactor (-20) = 1 / 10 := by unfold dbFactor; rw [show (-20 : ℝ) / 20 = -1 by norm_num, Real.rpow_neg_one]; norm_num
  rw [ha, sub_zero, Real.one_rpow, div_one, hx, abs_one, hd, staticCurve, compressorGain, if_pos (by norm_num), one_mul, div_one] at h1
  exact h1

/-- The same on a full-scale sinusoid: turning it up by 12 dB (a factor 4) makes the output only twice as loud wherever the reading is above the threshold. -/
example (q : RmsEnvDetector ℝ) {x e y y' : ℕ → ℝ} (he : Responds b q.clear x e) (h : Compresses b (-20) (1 / 2) q.clear x y)
    (h' : Compresses b (-20) (1 / 2) q.clear (fun n => 4 * x n) y') {n : ℕ} (h1 : dbFactor (-20) < e n) (h2 : e n ≤ 1) : y' n = 2 * y n := by
  have hd : 0 < dbFactor (-20) := dbFactor_pos _
  have h0 : Real.logb 10 (e n) ≤ 0 := Real.logb_nonpos (by norm_num) (hd.trans h1).le h2
  have h4 : Real.logb 10 (|(4 : ℝ)| * e n) ≤ 1 := by
    rw [Real.logb_le_iff_le_rpow (by norm_num) (by have := hd.trans h1; positivity)]
    norm_num
    linarith
  have := (C160_ratio (t := -20) (c := 1 / 2) ⟨0, 0, 0⟩ q b (by norm_num) (k := 4) (by norm_num) x e).2 y y' he h h' n h1 (by norm_num; linarith)
    (fun _ => by linarith) (fun _ => by rw [abs_of_pos (by norm_num : (0 : ℝ) < 4)] at h4 ⊢; linarith)
  rw [this]
  have e4 : |(4 : ℝ)| ^ (1 - 1 / 2 : ℝ) = 2 := by
    rw [show |(4 : ℝ)| = 2 ^ (2 : ℝ) by norm_num, ← Real.rpow_mul (by norm_num)]
    norm_num
  rw [e4]
  norm_num

/-- In f32 with functions accurate to two units, samples up to one: the outputs are below the static curve within one part in 100000. -/
example {L : Libm binary32} (hD : AccurateDb L 2) {s : PeakEnvDetector (Fl L)} (h : s.getAttackGain = zero) (hr : s.getReleaseGain.Finite)
    (hr0 : 0 ≤ s.getReleaseGain.toReal) (hr1 : s.getReleaseGain.toReal < 1) {t c : Fl L} (ht : t.Finite) (ht0 : t.toReal = -20) (hc : c.Finite) (hc0 : c.toReal = 1 / 2)
    {x : ℕ → Fl L} (hx : ∀ n, (x n).Within 1) : ∃ y, Compresses b t c s.clear x y ∧ ∀ n, (y n).Finite ∧
      |(y n).toReal| ≤ staticCurve (dbFactor (-20)) (1 / 2) |(x n).toReal| * (1 + 1e-5) + binary32.tiny := by
  have hu : binary32.u = 2⁻¹ ^ 24 := by norm_num [Fmt.u, binary32]
  have hl : level 1 = 0 := by rw [level, if_pos (by norm_num), Real.logb_one, mul_zero]
  obtain ⟨y, y1, y2⟩ := C160_float_ceiling binary32_ordinary hD (by norm_num) (by rw [hu]; norm_num) b (s := s.clear) (by show s.getAttackGain.Finite; rw [h]; exact Fl.zero_finite)
    (by show s.getAttackGain.toReal = 0; rw [h, Fl.zero_toReal]) hr hr0 hr1 (X := 1) (by show Fl.Within 1 (zero : Fl L); exact ⟨Fl.zero_finite, by simp⟩) (by norm_num) hx ht
    (by rw [ht0]; norm_num) hc (by rw [hc0]; norm_num) (by rw [hc0]; norm_num) (by rw [hc0, ht0, hl]; norm_num)
  refine ⟨y, y1, fun n => ⟨(y2 n).1, (y2 n).2.trans ?_⟩⟩
  rw [ht0, hc0, hu]
  have := mul_nonneg (abs_nonneg (x n).toReal) (gain_nonneg (dbFactor (-20)) (1 / 2) |(x n).toReal| (dbFactor_pos _).le)
  unfold staticCurve
  gcongr
  norm_num

end Rasp
