import Verif.Spec.Limiter
import Verif.Spec.MetersFloat
import Verif.Props.RoundingAnalysis
import Verif.Props.EnvelopeScale
import Verif.Props.Meters
import Verif.Props.Delay

/-!
# C156: limiters and levellers built on the detectors
-/

namespace Rasp
open FloatOps

/-- The readings of a peak detector, from the envelope before each sample. -/
theorem peak_readings {T : Type} [FloatOps T] {b : Build} {s : PeakEnvDetector T} {x e : ℕ → T} (h : Responds b s x e) :
    ∃ v : ℕ → T, v 0 = s.lastOut ∧ (∀ n, v (n + 1) = e n) ∧
      ∀ n, e n = abs (x n) +. (if lt (v n) (abs (x n)) then s.getAttackGain else s.getReleaseGain) *. (v n -. abs (x n)) := by
  obtain ⟨st, h0, h1⟩ := h
  have hp : ∀ n, st (n + 1) = ((st n).process (x n)).1 ∧ e n = ((st n).process (x n)).2 := fun n => by
    have := Except.ok.inj (h1 n)
    exact ⟨(Prod.mk.inj this).1.symm, (Prod.mk.inj this).2.symm⟩
  have hg : ∀ n, (st n).attack_gain = s.getAttackGain ∧ (st n).release_gain = s.getReleaseGain := fun n => by
    induction n with
    | zero => rw [h0]; exact ⟨rfl, rfl⟩
    | succ n ih => rw [(hp n).1]; exact ih
  refine ⟨fun n => (st n).envelope, by show (st 0).envelope = _; rw [h0]; rfl, fun n => ?_, fun n => ?_⟩
  · show (st (n + 1)).envelope = _; rw [(hp n).1, (hp n).2]; rfl
  · rw [(hp n).2, ← (hg n).1, ← (hg n).2]; rfl

/-! ## Floating point -/

section float
variable {f : Fmt} {L : Libm f} {b : Build} {s : PeakEnvDetector (Fl L)} {X : ℝ} {x y e : ℕ → Fl L} {t : Fl L}

/-- With an immediate attack the reading is never below the sample, rounding included. -/
theorem reading_covers (ha : s.getAttackGain.Finite) (ha0 : s.getAttackGain.toReal = 0) (hr : s.getReleaseGain.Finite) (hr0 : 0 ≤ s.getReleaseGain.toReal)
    (hr1 : s.getReleaseGain.toReal < 1) (hm : s.lastOut.Within X) (hov : 2 * X ≤ 2 ^ f.emax) (h : Responds b s x e) (n : ℕ)
    (hx : ∀ k ≤ n, (x k).Within X) : (e n).Within X ∧ |(x n).toReal| ≤ (e n).toReal := by
  obtain ⟨v, hv0, hv, he⟩ := peak_readings h
  have key : ∀ k ≤ n, (v k).Within X → (e k).Within X ∧ |(x k).toReal| ≤ (e k).toReal := fun k hk hvk => by
    have hi : (abs (x k)).Within X := ⟨Fl.abs_finite.mpr (hx k hk).1, by rw [Fl.abs_toReal, abs_abs]; exact (hx k hk).2⟩
    rw [he k]
    by_cases hlt : lt (v k) (abs (x k)) = true
    · rw [if_pos hlt]
      have h1 := step_error ha ha0.ge (by rw [ha0]; exact zero_lt_one) hi hvk hov
      refine ⟨h1.1, ?_⟩
      have hd : |(v k).toReal - (abs (x k)).toReal| ≤ 2 * X := by
        have p := abs_le.mp hvk.2; have q := abs_le.mp hi.2
        rw [abs_le]; constructor <;> linarith [p.1, p.2, q.1, q.2]
      have c1 := Fl.sub_val hvk.1 hi.1 (Fl.noOvf_of_le_emax (hd.trans hov))
      have c2 := Fl.mul_val ha c1.1 (by rw [ha0, zero_mul]; exact Fl.noOvf_of_abs_le (y := (zero : Fl L)) (by simp))
      rw [ha0, zero_mul, rnd_zero] at c2
      have c3 := Fl.add_zero_val hi.1 c2.1 c2.2
      rw [c3.2, Fl.abs_toReal]
    · rw [if_neg hlt]
      have h1 := step_error hr hr0 hr1 hi hvk hov
      refine ⟨h1.1, le_trans (le_min ?_ ?_) h1.2.1⟩
      · rw [Fl.abs_toReal]
      · have := (Fl.lt_false_iff hvk.1 hi.1).mp (Bool.not_eq_true _ ▸ hlt)
        rwa [Fl.abs_toReal] at this
  have hvw : ∀ k ≤ n, (v k).Within X := fun k => by
    induction k with
    | zero => intro _; rw [hv0]; exact hm
    | succ k ih => intro hk; rw [hv]; exact (key k (by omega) (ih (by omega))).1
  exact key n le_rfl (hvw n le_rfl)

theorem div_zero_zero {v w : Fl L} (hv : v.Finite) (hw : w.Finite) (h : v.toReal = 0) (h' : w.toReal = 0) : (v /. w).IsNaN := by
  obtain ⟨s1, a1, ha1, rfl⟩ := FP.finite_cases hv
  obtain ⟨s2, a2, ha2, rfl⟩ := FP.finite_cases hw
  have z : ∀ (s : Bool) (a : ℝ) (ha), (FP.fin s a ha : FP f).toReal = 0 → a = 0 := fun s a ha h => by
    cases s
    · simpa [FP.toReal] using h
    · simpa [FP.toReal] using h
  have z1 := z _ _ _ h
  have z2 := z _ _ _ h'
  show FP.IsNaN (FP.div _ _)
  unfold FP.div
  simp only [z1, z2, if_true]
  trivial

/-- A quotient of at most one times the threshold. -/
theorem scaled_le {e z : Fl L} (he : e.Finite) (hz : z.Finite) (ht : t.Finite) (he0 : 0 < e.toReal) (ht0 : 0 ≤ t.toReal) (h : |z.toReal| ≤ e.toReal) :
    (z /. e *. t).Finite ∧ |(z /. e *. t).toReal| ≤ t.toReal := by
  have hq : |z.toReal / e.toReal| ≤ 1 := by rw [abs_div, abs_of_pos he0]; exact div_le_one_of_le₀ h he0.le
  have h1 := Fl.div_val hz he he0.ne' (Fl.noOvf_of_abs_le (y := (one : Fl L)) (by rw [Fl.one_toReal, abs_one]; exact hq))
  have hone : IsRep f 1 := by have := Fl.isRep_toReal (one : Fl L); rwa [Fl.one_toReal] at this
  have h2 : |(z /. e).toReal| ≤ 1 := by rw [h1.2]; exact abs_rnd_le_of_le hone hq
  have h3 : |(z /. e).toReal * t.toReal| ≤ t.toReal := by
    rw [abs_mul, abs_of_nonneg ht0]; exact mul_le_of_le_one_left ht0 h2
  have h4 := Fl.mul_val h1.1 ht (Fl.noOvf_of_abs_le (y := t) (by rw [abs_of_nonneg ht0]; exact h3))
  exact ⟨h4.1, by rw [h4.2]; exact abs_rnd_le_of_le (Fl.isRep_toReal t) h3⟩

/-- **C156**. A limiter on a peak detector with immediate attack never lets anything above its threshold through, in floating point, not even by a
rounding error. -/
theorem C156_limiter (ha : s.getAttackGain.Finite) (ha0 : s.getAttackGain.toReal = 0) (hr : s.getReleaseGain.Finite) (hr0 : 0 ≤ s.getReleaseGain.toReal)
    (hr1 : s.getReleaseGain.toReal < 1) (hm : s.lastOut.Within X) (hov : 2 * X ≤ 2 ^ f.emax) (hx : ∀ n, (x n).Within X) (ht : t.Finite) (ht0 : 0 ≤ t.toReal)
    (h : Limits b t s x y) (n : ℕ) : (y n).Finite ∧ |(y n).toReal| ≤ t.toReal := by
  obtain ⟨e, he, hy⟩ := h
  obtain ⟨h1, h2⟩ := reading_covers ha ha0 hr hr0 hr1 hm hov he n fun k _ => hx k
  rw [hy n]
  unfold limited
  by_cases hlt : lt t (e n) = true
  · rw [if_pos hlt]
    have := (Fl.lt_iff ht h1.1).mp hlt
    exact scaled_le h1.1 (hx n).1 ht (ht0.trans_lt this) ht0 h2
  · rw [if_neg hlt]
    exact ⟨(hx n).1, h2.trans ((Fl.lt_false_iff ht h1.1).mp (Bool.not_eq_true _ ▸ hlt))⟩

/-- **C156**. As long as nothing has been above the threshold it changes nothing, bit for bit. -/
theorem C156_transparent (ha : s.getAttackGain.Finite) (ha0 : s.getAttackGain.toReal = 0) (hr : s.getReleaseGain.Finite) (hr0 : 0 ≤ s.getReleaseGain.toReal)
    (hr1 : s.getReleaseGain.toReal < 1) (ht : t.Finite) (hov : 2 * t.toReal ≤ 2 ^ f.emax) (hm : s.lastOut.Within t.toReal) {n : ℕ}
    (hx : ∀ k ≤ n, (x k).Within t.toReal) (h : Limits b t s x y) : y n = x n := by
  obtain ⟨e, he, hy⟩ := h
  obtain ⟨h1, -⟩ := reading_covers ha ha0 hr hr0 hr1 hm hov he n hx
  rw [hy n]
  unfold limited
  rw [if_neg]
  rw [Fl.lt_iff ht h1.1, not_lt]
  exact (le_abs_self _).trans h1.2

/-- **C156**. A leveller stays below its target too, but gives NaN where the reading is zero: at every leading silence. -/
theorem C156_leveller (ha : s.getAttackGain.Finite) (ha0 : s.getAttackGain.toReal = 0) (hr : s.getReleaseGain.Finite) (hr0 : 0 ≤ s.getReleaseGain.toReal)
    (hr1 : s.getReleaseGain.toReal < 1) (hm : s.lastOut.Within X) (hov : 2 * X ≤ 2 ^ f.emax) (hx : ∀ n, (x n).Within X) (ht : t.Finite) (ht0 : 0 ≤ t.toReal)
    (h : Levels b t s x y) (n : ℕ) :
    ((x n).toReal ≠ 0 → (y n).Finite ∧ |(y n).toReal| ≤ t.toReal) ∧ (s.lastOut.toReal = 0 → (∀ k ≤ n, (x k).toReal = 0) → (y n).IsNaN) := by
  obtain ⟨e, he, hy⟩ := h
  obtain ⟨h1, h2⟩ := reading_covers ha ha0 hr hr0 hr1 hm hov he n fun k _ => hx k
  rw [hy n]
  refine ⟨fun h0 => scaled_le h1.1 (hx n).1 ht ((abs_pos.mpr h0).trans_le h2) ht0 h2, fun hs0 h0 => ?_⟩
  have h3 := (reading_covers ha ha0 hr hr0 hr1 (X := 0) ⟨hm.1, by rw [hs0, abs_zero]⟩ (by rw [mul_zero]; positivity) he n
    fun k hk => ⟨(hx k).1, by rw [h0 k hk, abs_zero]⟩).1
  have h4 : (e n).toReal = 0 := abs_eq_zero.mp (le_antisymm h3.2 (abs_nonneg _))
  refine Fl.mul_nan_left ?_
  exact div_zero_zero (hx n).1 h1.1 (h0 n le_rfl) h4

end float

/-- **C156**. The order matters: in f64 the gain `t / e` worked out first and then multiplied with the sample can give more than the threshold `t`. -/
theorem C156_gain_first (L : Libm binary64) : ∃ t z : Fl L, t.Finite ∧ z.Finite ∧ 0 < t.toReal ∧ t.toReal < z.toReal ∧
    t.toReal < (t /. z *. z).toReal ∧ (z /. z *. t).toReal ≤ t.toReal := by
  have hint : ∀ n : ℤ, |n| ≤ 2 ^ 53 → IsRep binary64 n := fun n hn => isRep_int (f := binary64) hn
  have hlim : ∀ v : ℝ, |v| ≤ 2 ^ 54 → |v| < binary64.lim := fun v hv => hv.trans_lt (by
    unfold Fmt.lim
    show (2 : ℝ) ^ 54 < 2 ^ (1023 + 1 : ℤ)
    rw [← zpow_natCast]
    exact zpow_lt_zpow_right₀ (by norm_num) (by norm_num))
  have hov : ∀ v : ℝ, |v| ≤ 2 ^ 54 → FP.NoOvf binary64 v := fun v hv => Fl.noOvf_of_le_emax (hv.trans (by
    show (2 : ℝ) ^ 54 ≤ 2 ^ (1023 : ℤ)
    rw [← zpow_natCast]
    exact zpow_le_zpow_right₀ (by norm_num) (by norm_num)))
  obtain ⟨t, ht, htv⟩ := Fl.exists_of_isRep L (v := 2 ^ 53 - 1) (by
    have := hint (2 ^ 53 - 1) (by norm_num); norm_num at this ⊢; exact this) (hlim _ (by norm_num [abs_le]))
  obtain ⟨z, hz, hzv⟩ := Fl.exists_of_isRep L (v := 2 ^ 53 + 2 ^ 26) (by
    have := isRep_of_le (f := binary64) (m := 2 ^ 52 + 2 ^ 25) (e := 1) (by norm_num [binary64]) (by norm_num [binary64])
    norm_num at this ⊢; exact this) (hlim _ (by norm_num [abs_le]))
  have hq : rnd binary64 ((2 ^ 53 - 1) / (2 ^ 53 + 2 ^ 26)) = 1 - 1 / 2 ^ 27 := by
    have hc : cexp binary64 ((2 ^ 53 - 1) / (2 ^ 53 + 2 ^ 26)) = -53 := by
      apply le_antisymm
      · refine cexp_le_of_lt (by norm_num) (by norm_num [binary64]) ?_
        norm_num [binary64, abs_lt]
      · refine le_cexp_of_le ?_
        norm_num [binary64, abs_of_pos]
    have hr : rne ((2 ^ 53 - 1) / (2 ^ 53 + 2 ^ 26) / 2 ^ (-53 : ℤ)) = 2 ^ 53 - 2 ^ 26 := by
      refine rne_eq_of_lt ?_
      rw [abs_lt]
      constructor <;> norm_num
    unfold rnd
    rw [hc, hr]
    norm_num
  have hm : rnd binary64 ((1 - 1 / 2 ^ 27) * (2 ^ 53 + 2 ^ 26)) = 2 ^ 53 := by
    have e : ((1 - 1 / 2 ^ 27) * (2 ^ 53 + 2 ^ 26) : ℝ) = ((2 ^ 53 - 1 : ℤ) : ℝ) + 1 / 2 := by norm_num
    have hc := cexp_eq_zero (f := binary64) (x := ((2 ^ 53 - 1 : ℤ) : ℝ) + 1 / 2) (by norm_num [binary64]) (by norm_num [binary64])
    rw [e]
    unfold rnd
    rw [hc, zpow_zero, div_one, mul_one, rne_half_odd (by decide)]
    norm_num
  have h1 := Fl.div_val ht hz (by rw [hzv]; positivity) (by rw [htv, hzv]; exact hov _ (by rw [abs_of_pos (by norm_num)]; norm_num))
  rw [htv, hzv, hq] at h1
  have h2 := Fl.mul_val h1.1 hz (by rw [h1.2, hzv]; exact hov _ (by rw [abs_of_pos (by norm_num)]; norm_num))
  rw [h1.2, hzv, hm] at h2
  refine ⟨t, z, ht, hz, by rw [htv]; norm_num, by rw [htv, hzv]; norm_num, by rw [h2.2, htv]; norm_num, ?_⟩
  exact (le_abs_self _).trans (scaled_le hz hz ht (by rw [hzv]; positivity) (by rw [htv]; norm_num) (by rw [abs_of_pos (by rw [hzv]; positivity)])).2

/-! ## Exact arithmetic -/

section exact
variable {b : Build} {x y e : ℕ → ℝ} {a r t : ℝ}

theorem peak_real {s : PeakEnvDetector ℝ} (h : Responds b s x e) : ∃ v : ℕ → ℝ, v 0 = s.lastOut ∧ (∀ n, v (n + 1) = e n) ∧
    ∀ n, (v n < |x n| → e n = |x n| + s.getAttackGain * (v n - |x n|)) ∧ (|x n| ≤ v n → e n = |x n| + s.getReleaseGain * (v n - |x n|)) := by
  obtain ⟨v, h0, h1, h2⟩ := peak_readings h
  refine ⟨v, h0, h1, fun n => ⟨fun hn => ?_, fun hn => ?_⟩⟩
  · rw [h2 n, real_abs, if_pos ((real_lt _ _).mpr hn)]; rfl
  · rw [h2 n, real_abs, if_neg (by rw [real_lt]; exact not_lt.mpr hn)]; rfl

/-- Readings are at least `1 - a` of the sample, and fall by at most the factor `r` per sample. -/
theorem peak_real_bounds {s : PeakEnvDetector ℝ} (h : Responds b s x e) (ha : s.getAttackGain ∈ Set.Ico (0 : ℝ) 1) (hr : s.getReleaseGain ∈ Set.Ico (0 : ℝ) 1)
    (hs : 0 ≤ s.lastOut) (n : ℕ) : (1 - s.getAttackGain) * |x n| ≤ e n ∧ s.getReleaseGain * e n ≤ e (n + 1) ∧ 0 ≤ e n := by
  obtain ⟨v, h0, h1, h2⟩ := peak_real h
  have hx := fun n => abs_nonneg (x n)
  have step : ∀ n, 0 ≤ v n → (1 - s.getAttackGain) * |x n| ≤ e n ∧ s.getReleaseGain * v n ≤ e n := fun n hv => by
    have hxn := hx n
    obtain ⟨ha0, ha1⟩ := ha
    obtain ⟨hr0, hr1⟩ := hr
    rcases lt_or_ge (v n) |x n| with hlt | hge
    · rw [(h2 n).1 hlt]
      constructor <;> nlinarith [mul_nonneg ha0 hv]
    · rw [(h2 n).2 hge]
      constructor <;> nlinarith [mul_nonneg ha0 hxn, mul_nonneg hr0 hxn]
  have hv : ∀ n, 0 ≤ v n := fun n => by
    induction n with
    | zero => rw [h0]; exact hs
    | succ n ih =>
      rw [h1]
      exact (mul_nonneg (by linarith [ha.2]) (hx n)).trans (step n ih).1
  refine ⟨(step n (hv n)).1, ?_, ?_⟩
  · have := (step (n + 1) (hv (n + 1))).2
    rwa [h1] at this
  · rw [← h1]; exact hv _

theorem limited_real (t e z : ℝ) : limited t e z = if t < e then z / e * t else z := by
  unfold limited
  by_cases h : t < e
  · rw [if_pos h, if_pos ((real_lt _ _).mpr h)]; rfl
  · rw [if_neg h, if_neg (by rw [real_lt]; exact h)]

/-- A sample that the reading covers up to the factor `c` comes out below the threshold up to the factor `c`. -/
theorem limited_le {t e z c : ℝ} (ht : 0 < t) (hc : 0 < c) (h : c * |z| ≤ e) : |limited t e z| ≤ t / c := by
  rw [limited_real]
  split
  · rename_i hlt
    have he : 0 < e := ht.trans hlt
    rw [abs_mul, abs_div, abs_of_pos he, abs_of_pos ht, le_div_iff₀ hc, div_mul_eq_mul_div, div_mul_eq_mul_div, div_le_iff₀ he]
    nlinarith
  · rename_i hle
    rw [le_div_iff₀ hc]
    linarith

/-- The response of a cleared peak detector to a single sample. -/
theorem peak_of_one (s : PeakEnvDetector ℝ) (b : Build) (ha : s.getAttackGain ∈ Set.Ico (0 : ℝ) 1) (hr : 0 ≤ s.getReleaseGain) {X : ℝ}
    (hX : 0 < X) : ∃ e, Responds b s.clear (fun n => if n = 0 then X else 0) e ∧ ∀ n, e n = s.getReleaseGain ^ n * ((1 - s.getAttackGain) * X) := by
  obtain ⟨e, he⟩ := C89_peak_scales s b (fun n => if n = 0 then X else 0) 1
  have he := he.1
  refine ⟨e, he, ?_⟩
  obtain ⟨v, h0, h1, h2⟩ := peak_real he
  have g1 : s.clear.getAttackGain = s.getAttackGain := rfl
  have g2 : s.clear.getReleaseGain = s.getReleaseGain := rfl
  have hv0 : v 0 = 0 := h0
  intro n
  induction n with
  | zero =>
    have := (h2 0).1 (by rw [hv0]; simpa using hX.ne')
    rw [this, hv0, g1]
    simp only [if_true, abs_of_pos hX]
    ring
  | succ n ih =>
    have h1a : 0 ≤ 1 - s.getAttackGain := by linarith [ha.2]
    have hen : 0 ≤ e n := by rw [ih]; positivity
    have := (h2 (n + 1)).2 (by rw [h1]; simpa using hen)
    rw [this, h1, g2, ih]
    simp only [Nat.succ_ne_zero, if_false, abs_zero]
    ring

/-- **C156**. In exact arithmetic, with attack gain `a` the limiter overshoots by up to `1 / (1 - a)`: that times the threshold is the least bound. -/
theorem C156_overshoot {s : PeakEnvDetector ℝ} (ha : s.getAttackGain ∈ Set.Ico (0 : ℝ) 1) (hr : s.getReleaseGain ∈ Set.Ico (0 : ℝ) 1) (ht : 0 < t) (b : Build) :
    Ceiling (Limits b t s.clear) (t / (1 - s.getAttackGain)) := by
  have h1a : 0 < 1 - s.getAttackGain := by linarith [ha.2]
  refine ⟨?_, fun B hB => hB ?_⟩
  · rintro v ⟨x, y, n, ⟨e, he, hy⟩, rfl⟩
    rw [hy n]
    exact limited_le ht h1a (peak_real_bounds he ha hr le_rfl n).1
  · have hX : 0 < 2 * t / (1 - s.getAttackGain) := by positivity
    obtain ⟨e, he, hen⟩ := peak_of_one s b ha hr.1 hX
    refine ⟨_, _, 0, ⟨e, he, fun n => rfl⟩, ?_⟩
    have h0 : e 0 = 2 * t := by rw [hen, pow_zero, one_mul]; field_simp
    rw [if_pos rfl, h0, limited_real, if_pos (by linarith), abs_of_pos (by positivity)]
    field_simp

/-- **C156**. With immediate attack and a line of `d` samples before the gain, the limiter overshoots by up to `1 / r^d`, where `r` is the release gain: by the
time the sample arrives the reading has fallen that far. -/
theorem C156_lookahead [Target] {s : PeakEnvDetector ℝ} (ha : s.getAttackGain = 0) (hr : s.getReleaseGain ∈ Set.Ioo (0 : ℝ) 1) (ht : 0 < t) (b : Build) {d m : ℕ}
    (hm : Allocatable ℝ m) (hd : d ≤ m) {l : Delay ℝ} (hl : Delay.new b d m = .ok l) :
    Ceiling (LooksAhead b t s.clear l) (t / s.getReleaseGain ^ d) := by
  have ha' : s.getAttackGain ∈ Set.Ico (0 : ℝ) 1 := by rw [ha]; exact ⟨le_rfl, zero_lt_one⟩
  have hr' : s.getReleaseGain ∈ Set.Ico (0 : ℝ) 1 := ⟨hr.1.le, hr.2⟩
  have hrd : 0 < s.getReleaseGain ^ d := pow_pos hr.1 d
  obtain ⟨l', hl', hi⟩ := C07_new_delay_is_pure_delay (b := b) (d := d) hm
  obtain rfl := Except.ok.inj (hl.symm.trans hl')
  rw [min_eq_left hd] at hi
  refine ⟨?_, fun B hB => hB ?_⟩
  · rintro v ⟨x, y, n, ⟨e, z, he, hz, hy⟩, rfl⟩
    rw [hi] at hz
    rw [hy n, hz]
    refine limited_le ht hrd ?_
    beta_reduce
    have hb := peak_real_bounds he ha' hr' le_rfl
    split
    · rename_i hn
      have hdecay : ∀ j k, s.getReleaseGain ^ j * e k ≤ e (k + j) := fun j k => by
        induction j with
        | zero => simp
        | succ j ih =>
          rw [pow_succ, mul_comm _ s.getReleaseGain, mul_assoc]
          exact (mul_le_mul_of_nonneg_left ih hr.1.le).trans (hb (k + j)).2.1
      have h1 := hdecay d (n - d)
      rw [Nat.sub_add_cancel hn] at h1
      have h2 := (hb (n - d)).1
      have h3 : s.clear.getAttackGain = 0 := ha
      rw [h3, sub_zero, one_mul] at h2
      exact (mul_le_mul_of_nonneg_left h2 hrd.le).trans h1
    · show _ * |(0 : ℝ)| ≤ _
      rw [abs_zero, mul_zero]
      exact (hb n).2.2
  · have hX : 0 < 2 * t / s.getReleaseGain ^ d := by positivity
    obtain ⟨e, he, hen⟩ := peak_of_one s b ha' hr.1.le hX
    refine ⟨_, _, d, ⟨e, _, he, (hi _ _).mpr rfl, fun n => rfl⟩, ?_⟩
    have h0 : e d = 2 * t := by rw [hen, ha, sub_zero, one_mul]; field_simp
    rw [h0, limited_real, if_pos (by linarith), if_pos le_rfl, Nat.sub_self, if_pos rfl, abs_of_pos (by positivity)]
    field_simp

/-- **C156**. A leveller on a cleared detector of either kind does not see how loud its input is: any factor changes at most the sign. -/
theorem C156_any_level (s : PeakEnvDetector ℝ) (q : RmsEnvDetector ℝ) (b : Build) (t : ℝ) {c : ℝ} (hc : c ≠ 0) (x : ℕ → ℝ) :
    (∃ y, Levels b t s.clear x y ∧ Levels b t s.clear (fun n => c * x n) (fun n => c / |c| * y n)) ∧
    ∃ y, Levels b t q.clear x y ∧ Levels b t q.clear (fun n => c * x n) (fun n => c / |c| * y n) := by
  have hc' := abs_ne_zero.mpr hc
  have key : ∀ u v : ℝ, c / |c| * (u /. v *. t) = (c * u) /. (|c| * v) *. t := fun u v => by
    show c / |c| * (u / v * t) = c * u / (|c| * v) * t
    rw [mul_div_mul_comm]; ring
  obtain ⟨e, h1, h2⟩ := C89_peak_scales s b x c
  obtain ⟨e', h1', h2'⟩ := C89_rms_scales q b x c
  exact ⟨⟨_, ⟨e, h1, fun n => rfl⟩, _, h2, fun n => key _ _⟩, _, ⟨e', h1', fun n => rfl⟩, _, h2', fun n => key _ _⟩

private theorem level_error {A S E τ t : ℝ} (hA : A ≠ 0) (ht : 0 ≤ t) (hE : 0 ≤ E) (hτ : τ ≤ 1 / 2) (hS : |S| ≤ 1) (h : |E ^ 2 - A ^ 2 / 2| ≤ A ^ 2 / 2 * τ) :
    |A * S / E * t - A / |A| * (√2 * t * S)| ≤ √2 * t * τ := by
  have hA2 : 0 < A ^ 2 := by positivity
  have ha : 0 < |A| := abs_pos.mpr hA
  have hs2 : √2 ^ 2 = 2 := Real.sq_sqrt (by norm_num)
  have hs0 : 0 < √2 := by positivity
  obtain ⟨k, hk⟩ : ∃ k, k = √2 * E / |A| := ⟨_, rfl⟩
  have hk0 : 0 ≤ k := by rw [hk]; positivity
  have hk2 : k ^ 2 = 2 * E ^ 2 / A ^ 2 := by rw [hk, div_pow, mul_pow, hs2, sq_abs]
  have hkτ : |k ^ 2 - 1| ≤ τ := by
    rw [hk2, show 2 * E ^ 2 / A ^ 2 - 1 = (E ^ 2 - A ^ 2 / 2) / (A ^ 2 / 2) by field_simp, abs_div, abs_of_pos (by positivity : 0 < A ^ 2 / 2),
      div_le_iff₀ (by positivity)]
    linarith
  obtain ⟨h1, h2⟩ := abs_le.mp hkτ
  have hk1 : 1 / 2 ≤ k ^ 2 := by linarith
  have hkp : 1 / 2 < k := by nlinarith
  have hEk : E = k * |A| / √2 := by rw [hk]; field_simp
  have e1 : A * S / E * t - A / |A| * (√2 * t * S) = A / |A| * (√2 * t * S) * (1 / k - 1) := by
    rw [hEk]; field_simp
  have hinv : |1 / k - 1| ≤ τ := by
    have hkpos : 0 < k := by linarith
    rw [show 1 / k - 1 = (1 - k ^ 2) / (k * (1 + k)) by field_simp; ring, abs_div, abs_of_pos (by positivity : 0 < k * (1 + k)), div_le_iff₀ (by positivity),
      abs_sub_comm]
    have : 1 ≤ k * (1 + k) := by nlinarith
    have h0 : 0 ≤ τ := (abs_nonneg _).trans hkτ
    nlinarith
  rw [e1, abs_mul, abs_mul, abs_div, abs_abs, div_self ha.ne', one_mul, abs_mul, abs_of_nonneg (by positivity : 0 ≤ √2 * t)]
  have h0 : 0 ≤ √2 * t := by positivity
  calc √2 * t * |S| * |1 / k - 1| ≤ √2 * t * 1 * τ := by gcongr
    _ = _ := by ring

/-- **C156**. On a sinusoid of any amplitude a leveller on a cleared RMS detector with equal gains gives the sinusoid of amplitude `√2 t`, that is of
root mean square `t`, up to the ripple of the reading and what is left of the start. -/
theorem C156_levelled {q : RmsEnvDetector ℝ} {g : ℝ} (hg : g ∈ Set.Ico (0 : ℝ) 1) (ha : q.getAttackGain = g) (hr : q.getReleaseGain = g) (b : Build) (ht : 0 ≤ t)
    {A w φ : ℝ} (hA : A ≠ 0) (hy : Levels b t q.clear (fun n => A * Real.sin (w * n + φ)) y) {n : ℕ} (hn : ripple g w + 2 * g ^ (n + 1) ≤ 1 / 2) :
    |y n - A / |A| * (√2 * t * Real.sin (w * n + φ))| ≤ √2 * t * (ripple g w + 2 * g ^ (n + 1)) := by
  obtain ⟨e, he, hy⟩ := hy
  obtain ⟨e', he', -, hb⟩ := C110_rms_sine hg (s := q.clear) ha hr le_rfl b A w φ
  obtain rfl := Responds.unique he he'
  rw [hy n]
  have hl : q.clear.lastOut = 0 := by show Real.sqrt 0 = 0; exact Real.sqrt_zero
  refine level_error hA ht ?_ hn (Real.abs_sin_le_one _) ?_
  · obtain ⟨st, -, h1⟩ := he
    have := (Prod.mk.inj (Except.ok.inj (h1 n))).2
    rw [← this]
    exact Real.sqrt_nonneg _
  · have := hb n
    rw [hl] at this
    refine this.trans (le_of_eq ?_)
    unfold ripple
    ring

end exact

/-- A new detector with only its release set: what is above one half comes out as one half or less. -/
example {L : Libm binary32} {s : PeakEnvDetector (Fl L)} (h : s.getAttackGain = zero) (hr : s.getReleaseGain.Finite) (hr0 : 0 ≤ s.getReleaseGain.toReal)
    (hr1 : s.getReleaseGain.toReal < 1) {b : Build} {t : Fl L} (ht : t.Finite) (ht0 : t.toReal = 1 / 2) {x y : ℕ → Fl L} (hx : ∀ n, (x n).Within 1)
    (hy : Limits b t s.clear x y) (n : ℕ) : |(y n).toReal| ≤ 1 / 2 := by
  have := (C156_limiter (s := s.clear) (by show s.getAttackGain.Finite; rw [h]; exact Fl.zero_finite) (by show s.getAttackGain.toReal = 0; rw [h, Fl.zero_toReal])
    hr hr0 hr1 (X := 1) (by show Fl.Within 1 (zero : Fl L); exact ⟨Fl.zero_finite, by simp⟩) (by norm_num [binary32]) hx ht (by rw [ht0]; norm_num) hy n).2
  rwa [ht0] at this

/-- With gains of one half, four samples ahead and threshold one the largest output is sixteen. -/
example [Target] (b : Build) (hm : Allocatable ℝ 4) {l : Delay ℝ} (hl : Delay.new b 4 4 = .ok l) :
    Ceiling (LooksAhead b 1 ((⟨0, 1 / 2, 0⟩ : PeakEnvDetector ℝ).clear) l) 16 := by
  have := C156_lookahead (s := (⟨0, 1 / 2, 0⟩ : PeakEnvDetector ℝ)) rfl ⟨by norm_num [PeakEnvDetector.getReleaseGain], by norm_num [PeakEnvDetector.getReleaseGain]⟩
    zero_lt_one b hm le_rfl hl
  have e : (1 : ℝ) / (⟨0, 1 / 2, 0⟩ : PeakEnvDetector ℝ).getReleaseGain ^ 4 = 16 := by norm_num [PeakEnvDetector.getReleaseGain]
  rwa [e] at this

end Rasp
