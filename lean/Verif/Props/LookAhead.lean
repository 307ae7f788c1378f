import Verif.Props.Gate

/-!
# C156: the limiter with a line before the gain, in floating point
-/

namespace Rasp
open FloatOps
variable {f : Fmt} {L : Libm f} {b : Build} {s : PeakEnvDetector (Fl L)} {X : ℝ} {x y e : ℕ → Fl L} {t : Fl L}

/-- Pure arithmetic: the two roundings of `z / e * t`. -/
theorem two_roundings {u τ t Y w q p : ℝ} (hu0 : 0 ≤ u) (hu : u ≤ 1 / 4) (hτ : 0 ≤ τ) (ht : 0 ≤ t) (hw : |w| * t ≤ Y) (hq : |q - w| ≤ u * |w| + τ)
    (hp : |p - q * t| ≤ u * |q * t| + τ) : |p| ≤ (1 + 3 * u) * Y + 2 * (t + 1) * τ := by
  have h1 : |q| ≤ (1 + u) * |w| + τ := by
    have := abs_add_le (q - w) w
    rw [sub_add_cancel] at this
    linarith
  have h2 : |p| ≤ (1 + u) * |q * t| + τ := by
    have := abs_add_le (p - q * t) (q * t)
    rw [sub_add_cancel] at this
    linarith
  rw [abs_mul, abs_of_nonneg ht] at h2
  have h3 : |q| * t ≤ (1 + u) * Y + τ * t := by
    have := mul_le_mul_of_nonneg_right h1 ht
    nlinarith
  have hY : 0 ≤ Y := le_trans (by positivity) hw
  have h4 : (1 + u) * (|q| * t) ≤ (1 + u) * ((1 + u) * Y + τ * t) := mul_le_mul_of_nonneg_left h3 (by linarith)
  have h5 : u * u * Y ≤ u * Y := by
    have : u * u ≤ u := by nlinarith
    exact mul_le_mul_of_nonneg_right this hY
  have h6 : u * (τ * t) ≤ 1 * (τ * t) := mul_le_mul_of_nonneg_right (by linarith) (by positivity)
  nlinarith

/-- The reading `j` samples later. -/
theorem reading_decays (ha : s.getAttackGain.Finite) (ha0 : s.getAttackGain.toReal = 0) (hr : s.getReleaseGain.Finite) (hr0 : 0 ≤ s.getReleaseGain.toReal)
    (hr1 : s.getReleaseGain.toReal < 1) (hm : s.lastOut.Within X) (hov : 2 * X ≤ 2 ^ f.emax) (hx : ∀ n, (x n).Within X) (h : Responds b s x e) (m j : ℕ) :
    s.getReleaseGain.toReal ^ j * (e m).toReal - 6 * (f.u * X + f.tiny) / (1 - s.getReleaseGain.toReal) ≤ (e (m + j)).toReal := by
  have hcov := fun n => reading_covers ha ha0 hr hr0 hr1 hm hov h n fun k _ => hx k
  obtain ⟨v, hv0, hv, he⟩ := peak_readings h
  have hX : 0 ≤ X := (abs_nonneg _).trans hm.2
  have hδ : 0 ≤ 6 * (f.u * X + f.tiny) := by have := f.u_pos; have := f.tiny_pos; positivity
  have step : ∀ n, s.getReleaseGain.toReal * (e n).toReal - 6 * (f.u * X + f.tiny) ≤ (e (n + 1)).toReal := fun n => by
    have hi : (abs (x (n + 1))).Within X := ⟨Fl.abs_finite.mpr (hx _).1, by rw [Fl.abs_toReal, abs_abs]; exact (hx _).2⟩
    have hvn : (v (n + 1)).Within X := by rw [hv]; exact (hcov n).1
    have hen : 0 ≤ (e n).toReal := (abs_nonneg _).trans (hcov n).2
    by_cases hlt : lt (v (n + 1)) (abs (x (n + 1))) = true
    · have h1 := (Fl.lt_iff hvn.1 hi.1).mp hlt
      rw [hv, Fl.abs_toReal] at h1
      have h2 := (hcov (n + 1)).2
      nlinarith
    · have h1 := step_error hr hr0 hr1 hi hvn hov
      have h2 := he (n + 1)
      rw [if_neg hlt] at h2
      rw [← h2, hv, Fl.abs_toReal] at h1
      have h3 := (abs_le.mp h1.2.2).1
      have h4 := abs_nonneg (x (n + 1)).toReal
      nlinarith
  generalize 6 * (f.u * X + f.tiny) = δ at *
  generalize s.getReleaseGain.toReal = r at *
  have h1r : 0 < 1 - r := by linarith
  have hDr : r * (δ / (1 - r)) + δ = δ / (1 - r) := by field_simp; ring
  induction j with
  | zero =>
    rw [pow_zero, one_mul]
    have : 0 ≤ δ / (1 - r) := div_nonneg hδ h1r.le
    show _ ≤ (e m).toReal
    linarith
  | succ j ih =>
    have h1 := step (m + j)
    have h2 := mul_le_mul_of_nonneg_left ih hr0
    rw [pow_succ]
    show _ ≤ (e (m + j + 1)).toReal
    linarith

/-- **C156**. In floating point, with immediate attack and a line of `d` samples before the gain, no output is above `(t + D)/r^d` by more than its rounding error, where
`r` is the release gain and `D = 6 (2^-p X + 2^emin)/(1 - r)`. -/
theorem C156_lookahead_float [Target] (hf : f.Ordinary) (ha : s.getAttackGain.Finite) (ha0 : s.getAttackGain.toReal = 0) (hr : s.getReleaseGain.Finite)
    (hr0 : 0 < s.getReleaseGain.toReal) (hr1 : s.getReleaseGain.toReal < 1) (hm : s.lastOut.Within X) (hov : 2 * X ≤ 2 ^ f.emax) (hx : ∀ n, (x n).Within X)
    (ht : t.Finite) (ht0 : 0 < t.toReal) {d m : ℕ} (hal : Allocatable (Fl L) m) (hd : d ≤ m) {l : Delay (Fl L)} (hl : Delay.new b d m = .ok l) {D : ℝ}
    (hD : 6 * (f.u * X + f.tiny) / (1 - s.getReleaseGain.toReal) = D) (hQ : 2 * ((t.toReal + D) / s.getReleaseGain.toReal ^ d) ≤ 2 ^ f.emax)
    (hQ' : (t.toReal + D) / s.getReleaseGain.toReal ^ d ≤ 2 ^ f.emax * t.toReal) (h : LooksAhead b t s l x y) (n : ℕ) :
    (y n).Finite ∧ |(y n).toReal| ≤ (1 + 3 * f.u) * ((t.toReal + D) / s.getReleaseGain.toReal ^ d) + 2 * (t.toReal + 1) * f.tiny := by
  obtain ⟨e, z, he, hz, hy⟩ := h
  obtain ⟨l', hl', hi⟩ := C07_new_delay_is_pure_delay (b := b) (d := d) hal
  obtain rfl := Except.ok.inj (hl.symm.trans hl')
  rw [min_eq_left hd] at hi
  rw [hi] at hz
  have hcov := fun n => reading_covers ha ha0 hr hr0.le hr1 hm hov he n fun k _ => hx k
  have hX : 0 ≤ X := (abs_nonneg _).trans hm.2
  have u0 := f.u_pos
  have t0 := f.tiny_pos
  have hD0 : 0 ≤ D := by rw [← hD]; have : 0 < 1 - s.getReleaseGain.toReal := by linarith
                         positivity
  have hrd : 0 < s.getReleaseGain.toReal ^ d := pow_pos hr0 d
  have hrd1 : s.getReleaseGain.toReal ^ d ≤ 1 := pow_le_one₀ hr0.le hr1.le
  have hen : 0 ≤ (e n).toReal := (abs_nonneg _).trans (hcov n).2
  have hzn : (z n).Within X ∧ s.getReleaseGain.toReal ^ d * |(z n).toReal| ≤ (e n).toReal + D := by
    rw [hz]
    beta_reduce
    split
    · rename_i hn
      refine ⟨hx _, ?_⟩
      have h1 := reading_decays ha ha0 hr hr0.le hr1 hm hov hx he (n - d) d
      rw [Nat.sub_add_cancel hn, hD] at h1
      have h2 := mul_le_mul_of_nonneg_left (hcov (n - d)).2 hrd.le
      linarith
    · refine ⟨⟨Fl.zero_finite, by simpa using hX⟩, ?_⟩
      rw [Fl.zero_toReal, abs_zero, mul_zero]
      linarith
  rw [hy n]
  obtain ⟨hzw, hze⟩ := hzn
  generalize z n = z at *
  have heF := (hcov n).1.1
  generalize e n = e at *
  generalize s.getReleaseGain.toReal ^ d = R at *
  have hYt : t.toReal ≤ (t.toReal + D) / R := by
    rw [le_div_iff₀ hrd]; nlinarith
  unfold limited
  by_cases hlt : lt t e = true
  · rw [if_pos hlt]
    have hte := (Fl.lt_iff ht heF).mp hlt
    have he0 : 0 < e.toReal := ht0.trans hte
    have hw : |z.toReal / e.toReal| * t.toReal ≤ (t.toReal + D) / R := by
      rw [abs_div, abs_of_pos he0, le_div_iff₀ hrd, div_mul_eq_mul_div, div_mul_eq_mul_div, div_le_iff₀ he0]
      have h1 := mul_le_mul_of_nonneg_right hze ht0.le
      have h2 : D * t.toReal ≤ D * e.toReal := mul_le_mul_of_nonneg_left hte.le hD0
      linarith
    have hw2 : |z.toReal / e.toReal| ≤ 2 ^ f.emax := le_of_mul_le_mul_right (hw.trans hQ') ht0
    obtain ⟨q1, q2⟩ := Fl.div_val hzw.1 heF he0.ne' (Fl.noOvf_of_le_emax hw2)
    have hq := abs_rnd_sub_le_u f (z.toReal / e.toReal)
    rw [← q2] at hq
    have hq3 : |(z /. e).toReal * t.toReal| ≤ 2 ^ f.emax := by
      rw [abs_mul, abs_of_pos ht0]
      have h1 := abs_add_le ((z /. e).toReal - z.toReal / e.toReal) (z.toReal / e.toReal)
      rw [sub_add_cancel] at h1
      have h2 : |(z /. e).toReal| ≤ (1 + f.u) * |z.toReal / e.toReal| + f.tiny := by linarith
      have h3 := mul_le_mul_of_nonneg_right h2 ht0.le
      have h4 := f.u_le
      have h5 := hf.tiny_le
      have h6 : (1 + f.u) * (|z.toReal / e.toReal| * t.toReal) ≤ (1 + 1 / 4) * ((t.toReal + D) / R) :=
        mul_le_mul (by linarith) hw (by positivity) (by norm_num)
      have h7 : f.tiny * t.toReal ≤ 1 / 4 * ((t.toReal + D) / R) := mul_le_mul (by linarith) hYt ht0.le (by norm_num)
      nlinarith
    obtain ⟨p1, p2⟩ := Fl.mul_val q1 ht (Fl.noOvf_of_le_emax hq3)
    have hp := abs_rnd_sub_le_u f ((z /. e).toReal * t.toReal)
    rw [← p2] at hp
    exact ⟨p1, two_roundings u0.le f.u_le t0.le ht0.le hw hq hp⟩
  · rw [if_neg hlt]
    have hte := (Fl.lt_false_iff ht heF).mp (Bool.not_eq_true _ ▸ hlt)
    refine ⟨hzw.1, ?_⟩
    have h1 : |z.toReal| ≤ (t.toReal + D) / R := by rw [le_div_iff₀ hrd]; linarith
    have h2 : 0 ≤ 3 * f.u * ((t.toReal + D) / R) := by
      have : 0 ≤ (t.toReal + D) / R := ht0.le.trans hYt
      positivity
    have h3 : 0 ≤ 2 * (t.toReal + 1) * f.tiny := by positivity
    linarith

/-- In f32 with release gain 1/2, four samples ahead, threshold one half and samples up to one: at most 8.001. -/
example [Target] {L : Libm binary32} {s : PeakEnvDetector (Fl L)} (ha : s.getAttackGain = zero) (hr : s.getReleaseGain.Finite) (hr0 : s.getReleaseGain.toReal = 1 / 2)
    {t : Fl L} (ht : t.Finite) (ht0 : t.toReal = 1 / 2) {x y : ℕ → Fl L} (hx : ∀ n, (x n).Within 1) (hal : Allocatable (Fl L) 4) {l : Delay (Fl L)}
    (hl : Delay.new b 4 4 = .ok l) (h : LooksAhead b t s.clear l x y) (n : ℕ) : |(y n).toReal| ≤ 8.001 := by
  have hu : binary32.u = 2⁻¹ ^ 24 := by norm_num [Fmt.u, binary32]
  have htiny := binary32_ordinary.tiny_le
  have t0 := binary32.tiny_pos
  have hE := binary32_ordinary.emax_ge
  have hr' : s.clear.getReleaseGain.toReal = 1 / 2 := hr0
  obtain ⟨D, hD⟩ : ∃ D, 6 * (binary32.u * 1 + binary32.tiny) / (1 - s.clear.getReleaseGain.toReal) = D := ⟨_, rfl⟩
  have hD' := hD
  rw [hr'] at hD'
  have hDb : D ≤ 1e-6 ∧ 0 ≤ D := by
    rw [hu] at htiny hD'
    norm_num at htiny hD' ⊢
    constructor <;> linarith
  have := (C156_lookahead_float (s := s.clear) binary32_ordinary (by show s.getAttackGain.Finite; rw [ha]; exact Fl.zero_finite)
    (by show s.getAttackGain.toReal = 0; rw [ha, Fl.zero_toReal]) hr (by rw [hr']; norm_num) (by rw [hr']; norm_num) (X := 1)
    (by show Fl.Within 1 (zero : Fl L); exact ⟨Fl.zero_finite, by simp⟩) (by norm_num [binary32]) hx ht (by rw [ht0]; norm_num) hal le_rfl hl hD
    (by rw [ht0, hr']; norm_num at hE hDb ⊢; linarith [hDb.1]) (by rw [ht0, hr']; norm_num at hE hDb ⊢; linarith [hDb.1]) h n).2
  rw [ht0, hr', hu] at this
  rw [hu] at htiny
  norm_num at this htiny hDb ⊢
  linarith [hDb.1]

end Rasp
