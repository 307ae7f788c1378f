import Verif.Spec.Gate
import Verif.Props.Limiter
import Verif.Lemmas.SmoothFl
import Verif.Lemmas.DbError

/-!
# C161: noise gates built on the detectors
-/

namespace Rasp
open FloatOps

/-! ## Floating point -/

section float
variable {f : Fmt} {L : Libm f} {b : Build} {s : PeakEnvDetector (Fl L)} {X B : ℝ} {x y e : ℕ → Fl L} {t : Fl L}

theorem gated_closed {t e : Fl L} (z : Fl L) (ht : t.Finite) (he : e.Finite) (h : e.toReal < t.toReal) : gated t e z = zero := by
  unfold gated
  rw [if_pos ((Fl.lt_iff he ht).mpr h)]

theorem gated_open {t e : Fl L} (z : Fl L) (ht : t.Finite) (he : e.Finite) (h : t.toReal ≤ e.toReal) : gated t e z = z := by
  unfold gated
  rw [if_neg (by rw [Fl.lt_iff he ht]; exact not_lt.mpr h)]

/-- One step of the detector: not above the louder of the sample and the reading before; a reading above `B` moves towards it when the samples are within `B`. -/
theorem gate_step {a r v z : Fl L} (ha : a.Finite) (ha0 : 0 ≤ a.toReal) (ha1 : a.toReal < 1) (hr : r.Finite) (hr0 : 0 ≤ r.toReal) (hr1 : r.toReal < 1)
    (hv : v.Within X) (hz : z.Within X) (hov : 2 * X ≤ 2 ^ f.emax) :
    (abs z +. (if lt v (abs z) then a else r) *. (v -. abs z)).Within X ∧
    (abs z +. (if lt v (abs z) then a else r) *. (v -. abs z)).toReal ≤ max |z.toReal| v.toReal ∧
    (|z.toReal| ≤ B → (abs z +. (if lt v (abs z) then a else r) *. (v -. abs z)).toReal - B ≤ r.toReal * max 0 (v.toReal - B) + 6 * (f.u * X + f.tiny)) := by
  have hi : (abs z).Within X := ⟨Fl.abs_finite.mpr hz.1, by rw [Fl.abs_toReal, abs_abs]; exact hz.2⟩
  have hX : 0 ≤ X := (abs_nonneg _).trans hv.2
  have hd : |v.toReal - (abs z).toReal| ≤ 2 * X := by
    have p := abs_le.mp hv.2; have q := abs_le.mp hi.2
    rw [abs_le]; constructor <;> linarith [p.1, p.2, q.1, q.2]
  have hno := Fl.noOvf_of_le_emax (hd.trans hov)
  have hδ : 0 ≤ 6 * (f.u * X + f.tiny) := by have := f.u_pos; have := f.tiny_pos; positivity
  by_cases hlt : lt v (abs z) = true
  · rw [if_pos hlt]
    have h1 := step_error ha ha0 ha1 hi hv hov
    have h2 := (Fl.smooth_between ha ha0 ha1 hi.1 hv.1 hno).2.2
    have h3 := (Fl.lt_iff hv.1 hi.1).mp hlt
    rw [Fl.abs_toReal] at h2 h3
    refine ⟨h1.1, h2, fun hB => ?_⟩
    rw [max_eq_left h3.le] at h2
    have : 0 ≤ r.toReal * max 0 (v.toReal - B) := mul_nonneg hr0 (le_max_left _ _)
    linarith
  · rw [if_neg hlt]
    have h1 := step_error hr hr0 hr1 hi hv hov
    have h2 := (Fl.smooth_between hr hr0 hr1 hi.1 hv.1 hno).2.2
    rw [Fl.abs_toReal] at h2
    refine ⟨h1.1, h2, fun hB => ?_⟩
    have h4 := (abs_le.mp h1.2.2).2
    rw [Fl.abs_toReal] at h4
    have h5 : r.toReal * (v.toReal - B) ≤ r.toReal * max 0 (v.toReal - B) := mul_le_mul_of_nonneg_left (le_max_right _ _) hr0
    nlinarith

variable (ha : s.getAttackGain.Finite) (ha0 : 0 ≤ s.getAttackGain.toReal) (ha1 : s.getAttackGain.toReal < 1) (hr : s.getReleaseGain.Finite)
  (hr0 : 0 ≤ s.getReleaseGain.toReal) (hr1 : s.getReleaseGain.toReal < 1) (hm : s.lastOut.Within X) (hov : 2 * X ≤ 2 ^ f.emax) (hx : ∀ n, (x n).Within X)
include ha ha0 ha1 hr hr0 hr1 hm hov hx

/-- The steps of a run. -/
theorem gate_run (h : Responds b s x e) (n : ℕ) : (e n).Within X ∧ (e (n + 1)).toReal ≤ max |(x (n + 1)).toReal| (e n).toReal ∧
    ∀ B, |(x (n + 1)).toReal| ≤ B → (e (n + 1)).toReal - B ≤ s.getReleaseGain.toReal * max 0 ((e n).toReal - B) + 6 * (f.u * X + f.tiny) := by
  obtain ⟨v, hv0, hv, he⟩ := peak_readings h
  have hw : ∀ n, (v n).Within X := fun n => by
    induction n with
    | zero => rw [hv0]; exact hm
    | succ n ih => rw [hv, he n]; exact (gate_step (B := 0) ha ha0 ha1 hr hr0 hr1 ih (hx n) hov).1
  have h1 := fun B => gate_step (B := B) ha ha0 ha1 hr hr0 hr1 (hw (n + 1)) (hx (n + 1)) hov
  rw [← he (n + 1), hv] at h1
  refine ⟨?_, (h1 0).2.1, fun B => (h1 B).2.2⟩
  rw [← hv]
  exact hw _

/-- **C161.** In floating point, a closed gate stays closed as long as no sample reaches the threshold: no chatter. -/
theorem C161_no_chatter (ht : t.Finite) (he : Responds b s x e) (h : Gates b t s x y) {m k : ℕ} (hc : (e m).toReal < t.toReal)
    (hq : ∀ j, m < j → j ≤ m + k → |(x j).toReal| < t.toReal) : y (m + k) = zero := by
  obtain ⟨e', he', hy⟩ := h
  obtain rfl := Responds.unique he he'
  have hrun := gate_run ha ha0 ha1 hr hr0 hr1 hm hov hx he
  have key : ∀ j ≤ k, (e (m + j)).toReal < t.toReal := fun j => by
    induction j with
    | zero => intro _; exact hc
    | succ j ih =>
      intro hj
      exact (hrun (m + j)).2.1.trans_lt (max_lt (hq _ (by omega) (by omega)) (ih (by omega)))
  rw [hy]
  exact gated_closed _ ht (hrun _).1.1 (key k le_rfl)

/-- **C161.** In floating point, the gate closes on samples of at most `B`, as soon as `B + r^k (X - B) + 6 (2^-p X + 2^emin)/(1 - r)` is below the threshold, and
stays closed. -/
theorem C161_closes (ht : t.Finite) (h : Gates b t s x y) {m k j : ℕ} (hB : B ≤ X) (hq : ∀ i, m < i → |(x i).toReal| ≤ B)
    (hk : B + s.getReleaseGain.toReal ^ k * (X - B) + 6 * (f.u * X + f.tiny) / (1 - s.getReleaseGain.toReal) < t.toReal) (hj : k ≤ j) : y (m + j) = zero := by
  obtain ⟨e, he, hy⟩ := h
  have hrun := gate_run ha ha0 ha1 hr hr0 hr1 hm hov hx he
  have hX : 0 ≤ X := (abs_nonneg _).trans hm.2
  have hδ : 0 ≤ 6 * (f.u * X + f.tiny) := by have := f.u_pos; have := f.tiny_pos; positivity
  generalize 6 * (f.u * X + f.tiny) = δ at *
  generalize s.getReleaseGain.toReal = r at *
  have h1r : 0 < 1 - r := by linarith
  have hD : 0 ≤ δ / (1 - r) := div_nonneg hδ h1r.le
  have hDr : r * (δ / (1 - r)) + δ = δ / (1 - r) := by field_simp; ring
  have key : ∀ j, (e (m + j)).toReal - B ≤ r ^ j * (X - B) + δ / (1 - r) := fun j => by
    induction j with
    | zero =>
      have := (abs_le.mp (hrun m).1.2).2
      rw [pow_zero, one_mul]
      show (e m).toReal - B ≤ _
      linarith
    | succ j ih =>
      have h1 := (hrun (m + j)).2.2 B (hq _ (by omega))
      have h2 : max 0 ((e (m + j)).toReal - B) ≤ r ^ j * (X - B) + δ / (1 - r) := max_le (add_nonneg (mul_nonneg (pow_nonneg hr0 j) (by linarith)) hD) ih
      have h3 := mul_le_mul_of_nonneg_left h2 hr0
      rw [pow_succ]
      show (e (m + j + 1)).toReal - B ≤ _
      linarith
  rw [hy]
  refine gated_closed _ ht (hrun _).1.1 ?_
  have h1 := key j
  have h2 : r ^ j * (X - B) ≤ r ^ k * (X - B) := mul_le_mul_of_nonneg_right (pow_le_pow_of_le_one hr0 hr1.le hj) (by linarith)
  linarith

omit ha0 ha1 in
/-- **C161.** In floating point with immediate attack, every sample that reaches the threshold passes, bit for bit. -/
theorem C161_opens (ha0 : s.getAttackGain.toReal = 0) (ht : t.Finite) (h : Gates b t s x y) {n : ℕ} (hn : t.toReal ≤ |(x n).toReal|) : y n = x n := by
  obtain ⟨e, he, hy⟩ := h
  obtain ⟨h1, h2⟩ := reading_covers ha ha0 hr hr0 hr1 hm hov he n fun k _ => hx k
  rw [hy]
  exact gated_open _ ht h1.1 (hn.trans h2)

end float

/-! ## Exact arithmetic -/

section exact
variable {b : Build} {x y : ℕ → ℝ} {t len : ℝ}

theorem gated_real (t e z : ℝ) : gated t e z = if e < t then 0 else z := by
  unfold gated
  by_cases h : e < t
  · rw [if_pos h, if_pos ((real_lt _ _).mpr h)]; rfl
  · rw [if_neg h, if_neg (by rw [real_lt]; exact h)]

theorem new_release (hlen : 0 < len) : (PeakEnvDetector.new : PeakEnvDetector ℝ).setRelease len = ⟨0, Real.exp (-1 / len), 0⟩ := by
  unfold PeakEnvDetector.setRelease
  have : (lt (zero : ℝ) len && isFinite len) = true := by
    rw [Bool.and_eq_true, real_lt]; exact ⟨hlen, rfl⟩
  rw [if_pos this]; rfl

theorem exp_lt_one_of_len (hlen : 0 < len) : Real.exp (-1 / len) < 1 := Real.exp_lt_one_iff.mpr (by rw [neg_div]; exact neg_neg_of_pos (by positivity))

theorem exp_pow_len (k : ℕ) : Real.exp (-1 / len) ^ k = Real.exp (-(k / len)) := by
  rw [← Real.exp_nat_mul]; congr 1; ring

/-- **C161**, the hold time. On a new peak detector with only `set_release(len)` called, a sample `p` times as loud as the threshold keeps the gate open for at least
`len ln p` samples, whatever follows. -/
theorem C161_holds (hlen : 0 < len) (ht : 0 < t) (h : Gates b t ((PeakEnvDetector.new : PeakEnvDetector ℝ).setRelease len) x y) {m k : ℕ}
    (hk : k ≤ len * Real.log (|x m| / t)) (hp : t ≤ |x m|) : y (m + k) = x (m + k) := by
  rw [new_release hlen] at h
  obtain ⟨e, he, hy⟩ := h
  have hb := peak_real_bounds he (by constructor <;> norm_num [PeakEnvDetector.getAttackGain]) ⟨(Real.exp_pos _).le, exp_lt_one_of_len hlen⟩ le_rfl
  have hdecay : ∀ j, Real.exp (-1 / len) ^ j * e m ≤ e (m + j) := fun j => by
    induction j with
    | zero => simp
    | succ j ih =>
      rw [pow_succ, mul_comm _ (Real.exp _), mul_assoc]
      exact (mul_le_mul_of_nonneg_left ih (Real.exp_pos _).le).trans (hb (m + j)).2.1
  have h0 : |x m| ≤ e m := by
    have := (hb m).1
    simpa [PeakEnvDetector.getAttackGain] using this
  have hxm : 0 < |x m| := ht.trans_le hp
  have h1 : t ≤ e (m + k) := by
    refine le_trans ?_ (hdecay k)
    rw [exp_pow_len]
    refine le_trans ?_ (mul_le_mul_of_nonneg_left h0 (Real.exp_pos _).le)
    have h2 : (k : ℝ) / len ≤ Real.log (|x m| / t) := by rw [div_le_iff₀ hlen]; linarith
    have h3 := Real.exp_le_exp.mpr h2
    rw [Real.exp_log (by positivity)] at h3
    rw [Real.exp_neg, inv_mul_eq_div, le_div_iff₀ (Real.exp_pos _)]
    rw [le_div_iff₀ ht] at h3
    linarith
  rw [hy, gated_real, if_neg (not_lt.mpr h1)]

/-- **C161**, the release time. If no sample so far was above `X` and from then on none is above `B`, below the threshold, the gate is shut after
`len ln ((X - B)/(t - B))` samples at the latest. -/
theorem C161_released (hlen : 0 < len) {X B : ℝ} (hBt : B < t) (hBX : B < X) (h : Gates b t ((PeakEnvDetector.new : PeakEnvDetector ℝ).setRelease len) x y)
    (hX : ∀ n, |x n| ≤ X) {m k : ℕ} (hq : ∀ i, m < i → |x i| ≤ B) (hk : len * Real.log ((X - B) / (t - B)) < k) : y (m + k) = 0 := by
  rw [new_release hlen] at h
  obtain ⟨e, he, hy⟩ := h
  obtain ⟨v, v0, v1, v2⟩ := peak_real he
  have g1 : (⟨0, Real.exp (-1 / len), 0⟩ : PeakEnvDetector ℝ).getAttackGain = 0 := rfl
  have g2 : (⟨0, Real.exp (-1 / len), 0⟩ : PeakEnvDetector ℝ).getReleaseGain = Real.exp (-1 / len) := rfl
  have g3 : (⟨0, Real.exp (-1 / len), 0⟩ : PeakEnvDetector ℝ).lastOut = 0 := rfl
  rw [g1, g2] at v2
  rw [g3] at v0
  have r0 := (Real.exp_pos (-1 / len)).le
  have r1 := exp_lt_one_of_len hlen
  have hpow := fun k => exp_pow_len (len := len) k
  generalize Real.exp (-1 / len) = r at *
  have step : ∀ C n, |x n| ≤ C → e n - C ≤ r * max 0 (v n - C) := fun C n hC => by
    rcases lt_or_ge (v n) |x n| with hlt | hge
    · rw [(v2 n).1 hlt]
      have : 0 ≤ r * max 0 (v n - C) := mul_nonneg r0 (le_max_left _ _)
      linarith
    · rw [(v2 n).2 hge]
      have : r * (v n - C) ≤ r * max 0 (v n - C) := mul_le_mul_of_nonneg_left (le_max_right _ _) r0
      nlinarith
  have hup : ∀ n, v n ≤ X := fun n => by
    induction n with
    | zero => rw [v0]; exact (abs_nonneg _).trans (hX 0)
    | succ n ih =>
      rw [v1]
      have := step X n (hX n)
      rw [max_eq_left (by linarith), mul_zero] at this
      linarith
  have key : ∀ j, e (m + j) - B ≤ r ^ j * (X - B) := fun j => by
    induction j with
    | zero => rw [pow_zero, one_mul]; have := hup (m + 1); rw [v1] at this; show e m - B ≤ _; linarith
    | succ j ih =>
      have h1 := step B (m + j + 1) (hq _ (by omega))
      rw [v1] at h1
      have h2 : max 0 (e (m + j) - B) ≤ r ^ j * (X - B) := max_le (mul_nonneg (pow_nonneg r0 j) (by linarith)) ih
      have h3 := mul_le_mul_of_nonneg_left h2 r0
      rw [pow_succ]
      show e (m + j + 1) - B ≤ _
      linarith
  have hlt : e (m + k) < t := by
    have h1 := key k
    rw [hpow] at h1
    have h2 : Real.log ((X - B) / (t - B)) < k / len := by rw [lt_div_iff₀ hlen]; linarith
    have hXB : 0 < X - B := by linarith
    have htB : 0 < t - B := by linarith
    have h3 := Real.exp_lt_exp.mpr h2
    rw [Real.exp_log (by positivity), div_lt_iff₀ htB] at h3
    rw [Real.exp_neg, inv_mul_eq_div] at h1
    have h4 : (X - B) / Real.exp (k / len) < t - B := by rw [div_lt_iff₀ (Real.exp_pos _)]; linarith
    linarith
  rw [hy, gated_real, if_pos hlt]

/-- **C161**, a sinusoid. A gate on a cleared RMS detector with equal gains passes a sinusoid unchanged if its root mean square is clearly above the threshold and mutes it
if it is clearly below, clearly meaning by the ripple of the reading and what is left of the start. -/
theorem C161_sine {q : RmsEnvDetector ℝ} {g : ℝ} (hg : g ∈ Set.Ico (0 : ℝ) 1) (ha : q.getAttackGain = g) (hr : q.getReleaseGain = g) (b : Build) (ht : 0 ≤ t)
    {A w φ : ℝ} (hy : Gates b t q.clear (fun n => A * Real.sin (w * n + φ)) y) (n : ℕ) :
    (t ^ 2 ≤ A ^ 2 / 2 * (1 - (ripple g w + 2 * g ^ (n + 1))) → y n = A * Real.sin (w * n + φ)) ∧
    (A ^ 2 / 2 * (1 + (ripple g w + 2 * g ^ (n + 1))) < t ^ 2 → y n = 0) := by
  obtain ⟨e, he, hy⟩ := hy
  obtain ⟨e', he', -, hb⟩ := C110_rms_sine hg (s := q.clear) ha hr le_rfl b A w φ
  obtain rfl := Responds.unique he he'
  have hl : q.clear.lastOut = 0 := by show Real.sqrt 0 = 0; exact Real.sqrt_zero
  have hE0 : 0 ≤ e n := by
    obtain ⟨st, -, h1⟩ := he
    have := (Prod.mk.inj (Except.ok.inj (h1 n))).2
    rw [← this]
    exact Real.sqrt_nonneg _
  have hbn : |e n ^ 2 - A ^ 2 / 2| ≤ A ^ 2 / 2 * (ripple g w + 2 * g ^ (n + 1)) := by
    have := hb n
    rw [hl] at this
    refine this.trans (le_of_eq ?_)
    unfold ripple
    ring
  obtain ⟨b1, b2⟩ := abs_le.mp hbn
  rw [hy, gated_real]
  constructor
  · intro h
    have : t ≤ e n := (sq_le_sq₀ ht hE0).mp (by linarith)
    rw [if_neg (not_lt.mpr this)]
  · intro h
    have : e n < t := lt_of_pow_lt_pow_left₀ 2 ht (by linarith)
    rw [if_pos this]

end exact

/-- A tenfold sample with a release of 100 samples keeps the gate open for at least 200 samples. -/
example {b : Build} {x y : ℕ → ℝ} (h : Gates b (1 / 10) ((PeakEnvDetector.new : PeakEnvDetector ℝ).setRelease 100) x y) (h0 : x 0 = 1) : y 200 = x 200 := by
  have hl : (2 : ℝ) ≤ Real.log 10 := by
    rw [Real.le_log_iff_exp_le (by norm_num)]
    have := Real.exp_one_lt_d9
    rw [show (2 : ℝ) = 1 + 1 by norm_num, Real.exp_add]
    nlinarith [Real.exp_pos 1]
  have := C161_holds (m := 0) (k := 200) (by norm_num) (by norm_num) h (by rw [h0]; norm_num; linarith) (by rw [h0]; norm_num)
  simpa using this

/-- In f32, release gain one half, samples up to one and then up to 0.05, threshold 0.1: shut after five samples. -/
example {L : Libm binary32} {s : PeakEnvDetector (Fl L)} {b : Build} (ha : s.getAttackGain = zero) (hr : s.getReleaseGain.Finite) (hr0 : s.getReleaseGain.toReal = 1 / 2)
    {t : Fl L} (ht : t.Finite) (ht0 : 0.1 ≤ t.toReal) {x y : ℕ → Fl L} (hx : ∀ n, (x n).Within 1) (h : Gates b t s.clear x y) {m : ℕ}
    (hq : ∀ i, m < i → |(x i).toReal| ≤ 0.05) : y (m + 5) = zero := by
  have hu : binary32.u = 2⁻¹ ^ 24 := by norm_num [Fmt.u, binary32]
  have htiny := binary32_ordinary.tiny_le
  refine C161_closes (s := s.clear) (k := 5) (X := 1) (B := 0.05) (by show s.getAttackGain.Finite; rw [ha]; exact Fl.zero_finite)
    (by show 0 ≤ s.getAttackGain.toReal; rw [ha, Fl.zero_toReal]) (by show s.getAttackGain.toReal < 1; rw [ha, Fl.zero_toReal]; exact zero_lt_one) hr (by show 0 ≤ s.getReleaseGain.toReal; rw [hr0]; norm_num)
    (by show s.getReleaseGain.toReal < 1; rw [hr0]; norm_num) (by show Fl.Within 1 (zero : Fl L); exact ⟨Fl.zero_finite, by simp⟩) (by norm_num [binary32]) hx ht h (by norm_num) hq ?_ le_rfl
  show 0.05 + s.getReleaseGain.toReal ^ 5 * (1 - 0.05) + _ / (1 - s.getReleaseGain.toReal) < _
  rw [hr0]
  rw [hu] at htiny ⊢
  norm_num at htiny ht0 ⊢
  linarith

end Rasp
