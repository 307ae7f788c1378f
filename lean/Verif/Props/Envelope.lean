import Verif.Spec.Analysis
import Verif.Lemmas.SmoothFl
import Verif.Lemmas.Stream
import Verif.Float.Real

/-!
# C49–C54: PeakEnvDetector and RmsEnvDetector (and C05 for the latter)
-/

namespace Rasp
open FloatOps Filter Topology

/-! ## C05 -/

/-- **C05** for `RmsEnvDetector` in IEEE arithmetic: `last_out` after `clear` is `+0`. -/
theorem C05_rms_ieee {f : Fmt} {L : Libm f} (s : RmsEnvDetector (Fl L)) :
    Processor.lastOut (Processor.clear s) = (zero : Fl L) := by
  show FloatOps.sqrt (zero : Fl L) = zero
  have h := Fl.sqrt_val (x := (zero : Fl L)) Fl.zero_finite (by simp)
  rw [Fl.zero_toReal, Real.sqrt_zero, rnd_zero] at h
  apply Fl.ext_of_finite h.1 Fl.zero_finite (by simp [h.2])
  obtain ⟨s0, a, ha, h0⟩ := FP.finite_cases (f := f) (Fl.zero_finite (L := L))
  have hz : a = 0 := by
    have h1 : (zero : Fl L).toReal = 0 := Fl.zero_toReal
    have h2 := FP.abs_toReal_fin s0 a ha
    rw [← h0] at h2
    rw [← h2, show FP.toReal (f := f) (zero : Fl L) = 0 from h1, abs_zero]
  show FP.signBit (FP.sqrt (f := f) (zero : Fl L)) = FP.signBit (f := f) (zero : Fl L)
  rw [h0]
  simp only [FP.sqrt, if_pos hz]
  rw [FP.signBit_ofReal_zero]
  rfl

/-! ## C49 -/

section C49
variable {f : Fmt} {L : Libm f}

theorem lengthOk_iff (n : Fl L) : (lt zero n && isFinite n) = true ↔ n.Finite ∧ 0 < n.toReal := by
  rw [Bool.and_eq_true, Fl.isFinite_iff]
  constructor
  · rintro ⟨h1, h2⟩
    rw [Fl.lt_iff Fl.zero_finite h2, Fl.zero_toReal] at h1
    exact ⟨h2, h1⟩
  · rintro ⟨h2, h1⟩
    rw [Fl.lt_iff Fl.zero_finite h2, Fl.zero_toReal]
    exact ⟨h1, h2⟩

/-- **C49.** Zero, negative, NaN and infinite lengths change nothing. -/
theorem C49_rejects (n : Fl L) (h : ¬ (n.Finite ∧ 0 < n.toReal)) :
    (∀ s : PeakEnvDetector (Fl L), s.setAttack n = s ∧ s.setRelease n = s) ∧
    (∀ s : RmsEnvDetector (Fl L), s.setAttack n = s ∧ s.setRelease n = s) := by
  have hc : ¬ (lt zero n && isFinite n) = true := by rwa [lengthOk_iff]
  refine ⟨fun s => ⟨?_, ?_⟩, fun s => ⟨?_, ?_⟩⟩ <;> exact if_neg hc

/-- **C49.** Positive finite lengths set exactly the one gain, to the platform's `exp(-1/length)`. -/
theorem C49_accepts (n : Fl L) (hf : n.Finite) (h0 : 0 < n.toReal) :
    (∀ s : PeakEnvDetector (Fl L), s.setAttack n = { s with attack_gain := exp (neg one /. n) } ∧
      s.setRelease n = { s with release_gain := exp (neg one /. n) }) ∧
    (∀ s : RmsEnvDetector (Fl L), s.setAttack n = { s with attack_gain := exp (neg one /. n) } ∧
      s.setRelease n = { s with release_gain := exp (neg one /. n) }) := by
  have hc : (lt zero n && isFinite n) = true := (lengthOk_iff n).mpr ⟨hf, h0⟩
  refine ⟨fun s => ⟨?_, ?_⟩, fun s => ⟨?_, ?_⟩⟩ <;> exact if_pos hc

/-- Both kinds of argument exist: `1` is accepted, `0` is not. -/
example : ((one : Fl L).Finite ∧ 0 < (one : Fl L).toReal) ∧ ¬ ((zero : Fl L).Finite ∧ 0 < (zero : Fl L).toReal) :=
  ⟨⟨Fl.one_finite, by simp⟩, by simp⟩

/-- **C49.** The setters never touch the other gain or the output; `process` and `clear` never touch the gains. -/
theorem C49_independent {T : Type} [FloatOps T] (n x : T) :
    (∀ s : PeakEnvDetector T, (s.setAttack n).getReleaseGain = s.getReleaseGain ∧
      (s.setRelease n).getAttackGain = s.getAttackGain ∧ (s.setAttack n).lastOut = s.lastOut ∧
      (s.setRelease n).lastOut = s.lastOut ∧ (s.process x).1.getAttackGain = s.getAttackGain ∧
      (s.process x).1.getReleaseGain = s.getReleaseGain ∧ s.clear.getAttackGain = s.getAttackGain ∧
      s.clear.getReleaseGain = s.getReleaseGain) ∧
    (∀ s : RmsEnvDetector T, (s.setAttack n).getReleaseGain = s.getReleaseGain ∧
      (s.setRelease n).getAttackGain = s.getAttackGain ∧ (s.setAttack n).lastOut = s.lastOut ∧
      (s.setRelease n).lastOut = s.lastOut ∧ (s.process x).1.getAttackGain = s.getAttackGain ∧
      (s.process x).1.getReleaseGain = s.getReleaseGain ∧ s.clear.getAttackGain = s.getAttackGain ∧
      s.clear.getReleaseGain = s.getReleaseGain) := by
  constructor <;> intro s
  · unfold PeakEnvDetector.setAttack PeakEnvDetector.setRelease
    split <;> exact ⟨rfl, rfl, rfl, rfl, rfl, rfl, rfl, rfl⟩
  · unfold RmsEnvDetector.setAttack RmsEnvDetector.setRelease
    split <;> exact ⟨rfl, rfl, rfl, rfl, rfl, rfl, rfl, rfl⟩

/-- **C49.** In exact arithmetic the new gain is `e^(-1/length)`, strictly between 0 and 1. -/
theorem C49_real (n : ℝ) (h : 0 < n) :
    (0 < Real.exp (-1 / n) ∧ Real.exp (-1 / n) < 1) ∧
    (∀ s : PeakEnvDetector ℝ, (s.setAttack n).getAttackGain = Real.exp (-1 / n) ∧
      (s.setRelease n).getReleaseGain = Real.exp (-1 / n)) ∧
    (∀ s : RmsEnvDetector ℝ, (s.setAttack n).getAttackGain = Real.exp (-1 / n) ∧
      (s.setRelease n).getReleaseGain = Real.exp (-1 / n)) := by
  have hc : (lt (zero : ℝ) n && isFinite n) = true := by simpa using h
  refine ⟨⟨Real.exp_pos _, ?_⟩, fun s => ?_, fun s => ?_⟩
  · rw [Real.exp_lt_one_iff]
    exact div_neg_of_neg_of_pos (by norm_num) h
  · unfold PeakEnvDetector.setAttack PeakEnvDetector.setRelease
    rw [if_pos hc, if_pos hc]
    exact ⟨rfl, rfl⟩
  · unfold RmsEnvDetector.setAttack RmsEnvDetector.setRelease
    rw [if_pos hc, if_pos hc]
    exact ⟨rfl, rfl⟩

/-- **C49.** In exact arithmetic non-positive lengths change nothing. -/
theorem C49_real_rejects (n : ℝ) (h : n ≤ 0) :
    (∀ s : PeakEnvDetector ℝ, s.setAttack n = s ∧ s.setRelease n = s) ∧
    (∀ s : RmsEnvDetector ℝ, s.setAttack n = s ∧ s.setRelease n = s) := by
  have hc : ¬ (lt (zero : ℝ) n && isFinite n) = true := by simpa using h
  refine ⟨fun s => ⟨?_, ?_⟩, fun s => ⟨?_, ?_⟩⟩ <;> exact if_neg hc

end C49

/-! ## C50 -/

section C50
variable {f : Fmt} {L : Libm f}

/-- **C50**, one step of Peak: for gains in `[0, 1]` and any bound `B` with an even significand, an envelope and an input
in `[0, B]` and `[-B, B]` give an output in `[0, B]`. -/
theorem C50_peak_step {B : ℝ} (hB : EvenSig f B) (hl : B < f.lim) {s : PeakEnvDetector (Fl L)}
    (ha : Fl.In 0 1 s.getAttackGain) (hr : Fl.In 0 1 s.getReleaseGain) (he : Fl.In 0 B s.lastOut) {x : Fl L}
    (hx : Fl.In (-B) B x) : Fl.In 0 B (s.process x).2 := by
  have hx' : |x.toReal| ≤ B := abs_le.mpr ⟨hx.2.1, hx.2.2⟩
  have key : ∀ g : Fl L, Fl.In 0 1 g → Fl.In 0 B (abs x +. g *. (s.envelope -. abs x)) := fun g hg =>
    Fl.follow_mem hB hl hg.1 hg.2.1 hg.2.2 (Fl.abs_finite.mpr hx.1) (by simp) (by simpa using hx') he.1 he.2.1 he.2.2
  show Fl.In 0 B (abs x +. (if lt s.envelope (abs x) then s.attack_gain else s.release_gain) *. (s.envelope -. abs x))
  split
  · exact key _ ha
  · exact key _ hr

/-- **C50**, one step of the squared envelope of RMS. -/
theorem rms_step {s : RmsEnvDetector (Fl L)}
    (ha : Fl.In 0 1 s.getAttackGain) (hr : Fl.In 0 1 s.getReleaseGain) (he : Fl.In 0 1 s.envelope) {x : Fl L}
    (hx : Fl.In (-1) 1 x) : Fl.In 0 1 (s.process x).1.envelope := by
  have hsq : x.toReal * x.toReal ≤ 1 := by nlinarith [hx.2.1, hx.2.2]
  have hsq0 : 0 ≤ x.toReal * x.toReal := mul_self_nonneg _
  have hm := Fl.mul_val hx.1 hx.1 (FP.noOvf_of_le (isRep_one f) (FP.one_lt_lim f) (by rwa [abs_of_nonneg hsq0]))
  have key : ∀ g : Fl L, Fl.In 0 1 g → Fl.In 0 1 (x *. x +. g *. (s.envelope -. x *. x)) := fun g hg =>
    Fl.follow_mem (evenSig_one f) (FP.one_lt_lim f) hg.1 hg.2.1 hg.2.2 hm.1 (by rw [hm.2]; exact rnd_nonneg hsq0)
      (by rw [hm.2]; exact rnd_le_of_le (isRep_one f) hsq) he.1 he.2.1 he.2.2
  show Fl.In 0 1 (x *. x +. (if lt s.envelope (x *. x) then s.attack_gain else s.release_gain) *. (s.envelope -. x *. x))
  split
  · exact key _ ha
  · exact key _ hr

theorem sqrt_unit {e : Fl L} (h : Fl.In 0 1 e) : Fl.In 0 1 (FloatOps.sqrt e) := by
  obtain ⟨h1, h2⟩ := Fl.sqrt_val h.1 h.2.1
  refine ⟨h1, ?_, ?_⟩
  · rw [h2]; exact rnd_nonneg (Real.sqrt_nonneg _)
  · rw [h2]; exact rnd_le_of_le (isRep_one f) (Real.sqrt_le_one.mpr h.2.2)

theorem zero_in {B : ℝ} (hB : 0 ≤ B) : Fl.In 0 B (zero : Fl L) :=
  ⟨Fl.zero_finite, by simp, by simpa using hB⟩

theorem div_sign {m n : Fl L} (hm : m.Finite) (hn : n.Finite) (hm0 : m.toReal < 0) (hn0 : 0 < n.toReal) :
    ¬ (m /. n).IsNaN ∧ isSignNegative (m /. n) = true := by
  have hv : m /. n = FP.ofReal f (FP.signBit (f := f) m != FP.signBit (f := f) n) (m.toReal / n.toReal) :=
    FP.div_fin hm hn hn0.ne'
  rw [hv]
  exact ⟨FP.ofReal_not_nan _ _, FP.signBit_ofReal_neg (div_neg_of_neg_of_pos hm0 hn0)⟩

/-- The gain stored for an accepted length. -/
theorem gain_in (hE : ExpUnit L) {n : Fl L} (h : n.Finite ∧ 0 < n.toReal) : Fl.In 0 1 (exp (neg one /. n)) := by
  obtain ⟨h1, h2⟩ := div_sign (m := neg (one : Fl L)) (Fl.neg_finite.mpr Fl.one_finite) h.1 (by simp) h.2
  exact hE _ h1 h2

theorem peak_gains (hE : ExpUnit L) {P : Fl L → Prop} {s : PeakEnvDetector (Fl L)} (h : s.Reach P) :
    Fl.In 0 1 s.getAttackGain ∧ Fl.In 0 1 s.getReleaseGain := by
  induction h with
  | new => exact ⟨zero_in zero_le_one, zero_in zero_le_one⟩
  | setAttack n _ ih =>
    unfold PeakEnvDetector.setAttack
    split
    · rename_i hn; exact ⟨gain_in hE ((lengthOk_iff n).mp hn), ih.2⟩
    · exact ih
  | setRelease n _ ih =>
    unfold PeakEnvDetector.setRelease
    split
    · rename_i hn; exact ⟨ih.1, gain_in hE ((lengthOk_iff n).mp hn)⟩
    · exact ih
  | process x _ _ ih => exact ih
  | clear _ ih => exact ih

theorem rms_gains (hE : ExpUnit L) {P : Fl L → Prop} {s : RmsEnvDetector (Fl L)} (h : s.Reach P) :
    Fl.In 0 1 s.getAttackGain ∧ Fl.In 0 1 s.getReleaseGain := by
  induction h with
  | new => exact ⟨zero_in zero_le_one, zero_in zero_le_one⟩
  | setAttack n _ ih =>
    unfold RmsEnvDetector.setAttack
    split
    · rename_i hn; exact ⟨gain_in hE ((lengthOk_iff n).mp hn), ih.2⟩
    · exact ih
  | setRelease n _ ih =>
    unfold RmsEnvDetector.setRelease
    split
    · rename_i hn; exact ⟨ih.1, gain_in hE ((lengthOk_iff n).mp hn)⟩
    · exact ih
  | process x _ _ ih => exact ih
  | clear _ ih => exact ih

/-- **C50.** Peak: after any history of setters, `clear` and samples in `[-B, B]`, where `B` has an even significand, the
output is a number in `[0, B]`. -/
theorem C50_peak (hE : ExpUnit L) {B : ℝ} (hB : EvenSig f B) (h0 : 0 ≤ B) (hl : B < f.lim) {s : PeakEnvDetector (Fl L)}
    (h : s.Reach (Fl.In (-B) B)) : Fl.In 0 B s.lastOut := by
  induction h with
  | new => exact zero_in h0
  | setAttack n _ ih => rw [((C49_independent n zero).1 _).2.2.1]; exact ih
  | setRelease n _ ih => rw [((C49_independent n zero).1 _).2.2.2.1]; exact ih
  | process x hs hx ih => exact C50_peak_step hB hl (peak_gains hE hs).1 (peak_gains hE hs).2 ih hx
  | clear _ ih => exact zero_in h0

/-- **C50.** Peak with samples in `[-1, 1]`. -/
theorem C50_peak_unit (hE : ExpUnit L) {s : PeakEnvDetector (Fl L)} (h : s.Reach (Fl.In (-1) 1)) :
    Fl.In 0 1 s.lastOut := C50_peak hE (evenSig_one f) zero_le_one (FP.one_lt_lim f) h

/-- **C50.** RMS: after any history of setters, `clear` and samples in `[-1, 1]` the output is a number in `[0, 1]`. -/
theorem C50_rms (hE : ExpUnit L) {s : RmsEnvDetector (Fl L)} (h : s.Reach (Fl.In (-1) 1)) : Fl.In 0 1 s.lastOut := by
  have : Fl.In 0 1 s.envelope := by
    induction h with
    | new => exact zero_in zero_le_one
    | setAttack n _ ih => unfold RmsEnvDetector.setAttack; split <;> exact ih
    | setRelease n _ ih => unfold RmsEnvDetector.setRelease; split <;> exact ih
    | process x hs hx ih => exact rms_step (rms_gains hE hs).1 (rms_gains hE hs).2 ih hx
    | clear _ ih => exact zero_in zero_le_one
  exact sqrt_unit this

/-- The assumption on `exp` holds for a correctly rounded one, and `B = 1` is an even bound. -/
example : ExpUnit (Libm.roundedExp binary32) ∧ EvenSig binary32 1 := ⟨Libm.roundedExp_unit _, evenSig_one _⟩

theorem rne_half_odd {n : ℤ} (h : Odd n) : rne ((n : ℝ) + 1 / 2) = n + 1 := by
  have hf : ⌊(n : ℝ) + 1 / 2⌋ = n := by
    rw [Int.floor_eq_iff]; constructor <;> linarith
  have hr : Int.fract ((n : ℝ) + 1 / 2) = 1 / 2 := by
    rw [Int.fract, hf]; ring
  unfold rne
  rw [hr, hf, if_neg (lt_irrefl _), if_neg (lt_irrefl _), if_neg (Int.not_even_iff_odd.mpr h)]

theorem cexp_eq_zero {x : ℝ} (h1 : (2 : ℝ) ^ (f.p - 1) ≤ x) (h2 : x < 2 ^ f.p) : cexp f x = 0 := by
  have hp := f.hp; have hm := f.hemin
  have hx : 0 < x := lt_of_lt_of_le (by positivity) h1
  apply le_antisymm
  · apply cexp_le_of_lt hx.ne' (by omega)
    rw [abs_of_pos hx, add_zero, zpow_natCast]; exact h2
  · apply le_cexp_of_le
    rw [abs_of_pos hx, add_zero, show (f.p : ℤ) - 1 = ((f.p - 1 : ℕ) : ℤ) by omega, zpow_natCast]; exact h1

/-- **C50.** Even significands are needed when a gain is 1 (as `exp(-1/n)` rounds to for large `n`): samples up to the odd
`B = 2^p - 1` push the envelope to `2^p`. -/
theorem C50_odd_bound_exceeded (hp3 : 3 ≤ f.p) : ∃ (s : PeakEnvDetector (Fl L)) (x : Fl L), 
    Fl.In 0 1 s.getAttackGain ∧ Fl.In 0 1 s.getReleaseGain ∧ Fl.In 0 (2 ^ f.p - 1) s.lastOut ∧
    Fl.In 0 (2 ^ f.p - 1) x ∧ (s.process x).2.toReal = 2 ^ f.p := by
  have hemin := f.hemin; have hemax := f.hemax
  obtain ⟨k, hk⟩ : ∃ k, f.p = k + 3 := ⟨f.p - 3, by omega⟩
  have hPZ : (8 : ℤ) ≤ 2 ^ f.p := by
    rw [hk, pow_add]; have : (1 : ℤ) ≤ 2 ^ k := one_le_pow₀ (by norm_num); linarith
  have hP : (8 : ℝ) ≤ 2 ^ f.p := by exact_mod_cast hPZ
  have hlim : (2 : ℝ) ^ f.p < f.lim := by
    unfold Fmt.lim
    rw [← zpow_natCast]
    exact zpow_lt_zpow_right₀ (by norm_num) (by omega)
  have hhalf : (2 : ℝ) ^ (f.p - 1) = 2 ^ f.p / 2 := by
    rw [hk, show k + 3 - 1 = k + 2 by omega, pow_succ (2 : ℝ) (k + 2)]; ring
  obtain ⟨e, he, hev⟩ := Fl.exists_of_isRep L (v := 2 ^ f.p - 1) (by
    have := isRep_int (f := f) (n := 2 ^ f.p - 1) (by rw [abs_of_nonneg (by linarith)]; linarith)
    push_cast at this; exact this) (by rw [abs_of_nonneg (by linarith)]; linarith)
  obtain ⟨x, hx, hxv⟩ := Fl.exists_of_isRep L (v := 3 / 2) (by
    have := isRep_of_le (f := f) (m := 3) (e := -1) (by rw [abs_of_nonneg (by norm_num)]; linarith) (by omega)
    norm_num at this; exact this) (by rw [abs_of_nonneg (by norm_num)]; linarith)
  refine ⟨{ attack_gain := zero, release_gain := one, envelope := e }, x, zero_in zero_le_one,
    ⟨Fl.one_finite, by simp [PeakEnvDetector.getReleaseGain], by simp [PeakEnvDetector.getReleaseGain]⟩, ⟨he, ?_, ?_⟩,
    ⟨hx, ?_, ?_⟩, ?_⟩
  · show 0 ≤ e.toReal
    rw [hev]; linarith
  · show e.toReal ≤ _
    rw [hev]
  · rw [hxv]; norm_num
  · rw [hxv]; linarith
  · have hax : (abs x).Finite := Fl.abs_finite.mpr hx
    have haxv : (abs x).toReal = 3 / 2 := by rw [Fl.abs_toReal, hxv]; norm_num
    have hlt : lt e (abs x) = false := by rw [Fl.lt_false_iff he hax, hev, haxv]; linarith
    show (abs x +. (if lt e (abs x) then _ else one) *. (e -. abs x)).toReal = _
    rw [hlt]
    show (abs x +. one *. (e -. abs x)).toReal = _
    obtain ⟨hd, hdv⟩ := Fl.sub_val he hax (Fl.noOvf_of_abs_le (y := e) (by
      rw [hev, haxv, abs_of_nonneg (by linarith), abs_of_nonneg (by linarith)]; linarith))
    have hr1 : rnd f (2 ^ f.p - 1 - 3 / 2) = 2 ^ f.p - 2 := by
      have hc := cexp_eq_zero (f := f) (x := 2 ^ f.p - 1 - 3 / 2) (by rw [hhalf]; linarith) (by linarith)
      unfold rnd
      rw [hc, zpow_zero, div_one, mul_one]
      have h1 : (2 : ℝ) ^ f.p - 1 - 3 / 2 = (((2 : ℤ) ^ f.p - 3 : ℤ) : ℝ) + 1 / 2 := by push_cast; ring
      have hodd : Odd ((2 : ℤ) ^ f.p - 3) := by
        rw [hk, pow_succ]
        exact ⟨2 ^ (k + 2) - 2, by ring⟩
      rw [h1, rne_half_odd hodd]
      push_cast; ring
    rw [hev, haxv, hr1] at hdv
    obtain ⟨hm, hmv⟩ := Fl.one_mul_val hd
    rw [hdv] at hmv
    have hr2 : rnd f (3 / 2 + (2 ^ f.p - 2)) = 2 ^ f.p := by
      have hc := cexp_eq_zero (f := f) (x := 3 / 2 + (2 ^ f.p - 2)) (by rw [hhalf]; linarith) (by linarith)
      unfold rnd
      rw [hc, zpow_zero, div_one, mul_one]
      have h1 : (3 : ℝ) / 2 + (2 ^ f.p - 2) = (((2 : ℤ) ^ f.p - 1 : ℤ) : ℝ) + 1 / 2 := by push_cast; ring
      have hodd : Odd ((2 : ℤ) ^ f.p - 1) := by
        rw [hk, pow_succ]
        exact ⟨2 ^ (k + 2) - 1, by ring⟩
      rw [h1, rne_half_odd hodd]
      push_cast; ring
    obtain ⟨-, hsv⟩ := Fl.add_val hax hm (by
      rw [haxv, hmv]
      show |rnd f _| < _
      rw [hr2, abs_of_nonneg (by linarith)]; exact hlim)
    rw [hsv, haxv, hmv, hr2]

end C50

/-! ## C51 -/

/-- The rule the detectors follow on the level `i` (magnitude or square): approach it with the attack factor `a` if it is
above the envelope `e`, with the release factor `r` otherwise. -/
noncomputable def followed (a r e i : ℝ) : ℝ := if e < i then i + a * (e - i) else i + r * (e - i)

/-- **C51.** Peak follows the magnitude of the input. -/
theorem C51_peak_rule (s : PeakEnvDetector ℝ) (x : ℝ) :
    (s.process x).2 = followed s.getAttackGain s.getReleaseGain s.lastOut |x| := by
  show |x| + (if lt s.envelope |x| then s.attack_gain else s.release_gain) * (s.envelope - |x|) = _
  unfold followed PeakEnvDetector.getAttackGain PeakEnvDetector.getReleaseGain PeakEnvDetector.lastOut
  simp only [real_lt]
  split <;> rfl

/-- **C51.** RMS follows the square of the input in the square of the output. -/
theorem C51_rms_rule (s : RmsEnvDetector ℝ) (h0 : 0 ≤ s.envelope) (x : ℝ) (ha : s.getAttackGain ∈ Set.Icc (0 : ℝ) 1)
    (hr : s.getReleaseGain ∈ Set.Icc (0 : ℝ) 1) :
    (s.process x).2 ^ 2 = followed s.getAttackGain s.getReleaseGain (s.lastOut ^ 2) (x ^ 2) ∧ 0 ≤ (s.process x).2 ∧
      0 ≤ (s.process x).1.envelope := by
  have hl : s.lastOut ^ 2 = s.envelope := Real.sq_sqrt h0
  have he : (s.process x).1.envelope = followed s.getAttackGain s.getReleaseGain (s.lastOut ^ 2) (x ^ 2) := by
    rw [hl]
    show x * x + (if lt s.envelope (x * x) then s.attack_gain else s.release_gain) * (s.envelope - x * x) = _
    unfold followed RmsEnvDetector.getAttackGain RmsEnvDetector.getReleaseGain
    simp only [real_lt, pow_two]
    split <;> rfl
  have h1 : 0 ≤ (s.process x).1.envelope := by
    rw [he, hl]
    unfold followed
    have hx := sq_nonneg x
    split
    · nlinarith [ha.1, ha.2]
    · nlinarith [hr.1, hr.2]
  refine ⟨?_, Real.sqrt_nonneg _, h1⟩
  rw [← he]
  exact Real.sq_sqrt h1

theorem followed_between {a r : ℝ} (ha : a ∈ Set.Icc (0 : ℝ) 1) (hr : r ∈ Set.Icc (0 : ℝ) 1) (e i : ℝ) :
    min e i ≤ followed a r e i ∧ followed a r e i ≤ max e i := by
  unfold followed
  split
  · rename_i h
    rw [min_eq_left h.le, max_eq_right h.le]
    constructor <;> nlinarith [ha.1, ha.2]
  · rename_i h
    push Not at h
    rw [min_eq_right h, max_eq_left h]
    constructor <;> nlinarith [hr.1, hr.2]

theorem followed_mono {a r : ℝ} (ha : a ∈ Set.Icc (0 : ℝ) 1) (hr : r ∈ Set.Icc (0 : ℝ) 1) {e i e' i' : ℝ} (he : e ≤ e')
    (hi : i ≤ i') : followed a r e i ≤ followed a r e' i' := by
  unfold followed
  obtain ⟨a0, a1⟩ := ha
  obtain ⟨r0, r1⟩ := hr
  split_ifs with h h' h'
  · nlinarith
  · push Not at h'; nlinarith
  · push Not at h; nlinarith
  · push Not at h h'; nlinarith

/-- **C51.** Peak: the new output lies between the previous one and `|x|`. -/
theorem C51_peak_between (s : PeakEnvDetector ℝ) (ha : s.getAttackGain ∈ Set.Icc (0 : ℝ) 1)
    (hr : s.getReleaseGain ∈ Set.Icc (0 : ℝ) 1) (x : ℝ) :
    min s.lastOut |x| ≤ (s.process x).2 ∧ (s.process x).2 ≤ max s.lastOut |x| := by
  rw [C51_peak_rule]
  exact followed_between ha hr _ _

/-- **C51.** RMS: the new output lies between the previous one and `|x|`. -/
theorem C51_rms_between (s : RmsEnvDetector ℝ) (h0 : 0 ≤ s.envelope) (ha : s.getAttackGain ∈ Set.Icc (0 : ℝ) 1)
    (hr : s.getReleaseGain ∈ Set.Icc (0 : ℝ) 1) (x : ℝ) :
    min s.lastOut |x| ≤ (s.process x).2 ∧ (s.process x).2 ≤ max s.lastOut |x| := by
  obtain ⟨h1, h2, -⟩ := C51_rms_rule s h0 x ha hr
  have h3 := followed_between ha hr (s.lastOut ^ 2) (x ^ 2)
  rw [← h1] at h3
  have hl : 0 ≤ s.lastOut := Real.sqrt_nonneg _
  rcases le_total s.lastOut |x| with h | h
  · have h4 : s.lastOut ^ 2 ≤ x ^ 2 := by rw [← sq_abs x]; gcongr
    rw [min_eq_left h4, max_eq_right h4] at h3
    rw [min_eq_left h, max_eq_right h]
    exact ⟨(sq_le_sq₀ hl h2).mp h3.1, abs_le_of_sq_le_sq' (by linarith [h3.2, sq_abs x]) (abs_nonneg x) |>.2⟩
  · have h4 : x ^ 2 ≤ s.lastOut ^ 2 := by rw [← sq_abs x]; gcongr
    rw [min_eq_right h4, max_eq_left h4] at h3
    rw [min_eq_right h, max_eq_left h]
    exact ⟨abs_le_of_sq_le_sq' (by linarith [h3.1, sq_abs x]) h2 |>.2, (sq_le_sq₀ h2 hl).mp h3.2⟩

/-- C51. Peak: larger magnitudes never give smaller outputs. -/
theorem peak_monotone (s t : PeakEnvDetector ℝ) (hga : s.getAttackGain = t.getAttackGain)
    (hgr : s.getReleaseGain = t.getReleaseGain) (hst : s.lastOut ≤ t.lastOut)
    (ha : s.getAttackGain ∈ Set.Icc (0 : ℝ) 1) (hr : s.getReleaseGain ∈ Set.Icc (0 : ℝ) 1) (b : Build)
    (x x' y y' : ℕ → ℝ) (hx : ∀ n, |x n| ≤ |x' n|) (h : Responds b s x y) (h' : Responds b t x' y') (n : ℕ) :
    y n ≤ y' n := by
  obtain ⟨st, h0, hs⟩ := h
  obtain ⟨st', h0', hs'⟩ := h'
  have step : ∀ n, ((st n).process (x n)).1 = st (n + 1) ∧ ((st n).process (x n)).2 = y n :=
    fun n => Prod.mk.inj (Except.ok.inj (hs n))
  have step' : ∀ n, ((st' n).process (x' n)).1 = st' (n + 1) ∧ ((st' n).process (x' n)).2 = y' n :=
    fun n => Prod.mk.inj (Except.ok.inj (hs' n))
  have key : ∀ n, (st n).attack_gain = s.attack_gain ∧ (st n).release_gain = s.release_gain ∧
      (st' n).attack_gain = s.attack_gain ∧ (st' n).release_gain = s.release_gain ∧
      (st n).envelope ≤ (st' n).envelope := by
    intro n
    induction n with
    | zero => rw [h0, h0']; exact ⟨rfl, rfl, hga.symm, hgr.symm, hst⟩
    | succ n ih =>
      obtain ⟨i1, i2, i3, i4, i5⟩ := ih
      rw [← (step n).1, ← (step' n).1]
      refine ⟨i1, i2, i3, i4, ?_⟩
      have e1 := C51_peak_rule (st n) (x n)
      have e2 := C51_peak_rule (st' n) (x' n)
      simp only [PeakEnvDetector.getAttackGain, PeakEnvDetector.getReleaseGain, i1, i2, i3, i4] at e1 e2
      show ((st n).process (x n)).2 ≤ ((st' n).process (x' n)).2
      rw [e1, e2]
      exact followed_mono ha hr i5 (hx n)
  have h1 := (key (n + 1)).2.2.2.2
  rw [← (step n).1, ← (step' n).1] at h1
  rw [← (step n).2, ← (step' n).2]
  exact h1

/-- **C51.** Peak: larger magnitudes never give smaller outputs. -/
theorem C51_peak_monotone (s t : PeakEnvDetector ℝ) (hga : s.getAttackGain = t.getAttackGain)
    (hgr : s.getReleaseGain = t.getReleaseGain) (hst : s.lastOut ≤ t.lastOut)
    (ha : s.getAttackGain ∈ Set.Icc (0 : ℝ) 1) (hr : s.getReleaseGain ∈ Set.Icc (0 : ℝ) 1) (b : Build)
    (x x' : ℕ → ℝ) (hx : ∀ n, |x n| ≤ |x' n|) :
    ∃ y y', Responds b s x y ∧ Responds b t x' y' ∧ ∀ n, y n ≤ y' n := by
  obtain ⟨y, hy⟩ := NeverPanics.responds (fun _ _ _ => ⟨_, _, rfl⟩) b s x
  obtain ⟨y', hy'⟩ := NeverPanics.responds (fun _ _ _ => ⟨_, _, rfl⟩) b t x'
  exact ⟨y, y', hy, hy', peak_monotone s t hga hgr hst ha hr b x x' y y' hx hy hy'⟩

/-- C51. RMS: larger magnitudes never give smaller outputs. -/
theorem rms_monotone (s t : RmsEnvDetector ℝ) (hga : s.getAttackGain = t.getAttackGain)
    (hgr : s.getReleaseGain = t.getReleaseGain) (hst : s.envelope ≤ t.envelope)
    (ha : s.getAttackGain ∈ Set.Icc (0 : ℝ) 1) (hr : s.getReleaseGain ∈ Set.Icc (0 : ℝ) 1) (b : Build)
    (x x' y y' : ℕ → ℝ) (hx : ∀ n, |x n| ≤ |x' n|) (h : Responds b s x y) (h' : Responds b t x' y') (n : ℕ) :
    y n ≤ y' n := by
  obtain ⟨st, hst0, hs⟩ := h
  obtain ⟨st', hst0', hs'⟩ := h'
  have step : ∀ n, ((st n).process (x n)).1 = st (n + 1) ∧ ((st n).process (x n)).2 = y n :=
    fun n => Prod.mk.inj (Except.ok.inj (hs n))
  have step' : ∀ n, ((st' n).process (x' n)).1 = st' (n + 1) ∧ ((st' n).process (x' n)).2 = y' n :=
    fun n => Prod.mk.inj (Except.ok.inj (hs' n))
  have rule : ∀ (u : RmsEnvDetector ℝ) (v : ℝ), (u.process v).1.envelope =
      followed u.attack_gain u.release_gain u.envelope (v ^ 2) := by
    intro u v
    show v * v + (if lt u.envelope (v * v) then u.attack_gain else u.release_gain) * (u.envelope - v * v) = _
    unfold followed
    simp only [real_lt, pow_two]
    split <;> rfl
  have key : ∀ n, (st n).attack_gain = s.attack_gain ∧ (st n).release_gain = s.release_gain ∧
      (st' n).attack_gain = s.attack_gain ∧ (st' n).release_gain = s.release_gain ∧
      (st n).envelope ≤ (st' n).envelope := by
    intro n
    induction n with
    | zero => rw [hst0, hst0']; exact ⟨rfl, rfl, hga.symm, hgr.symm, hst⟩
    | succ n ih =>
      obtain ⟨i1, i2, i3, i4, i5⟩ := ih
      rw [← (step n).1, ← (step' n).1]
      refine ⟨i1, i2, i3, i4, ?_⟩
      rw [rule, rule, i1, i2, i3, i4]
      refine followed_mono ha hr i5 ?_
      rw [← sq_abs (x n), ← sq_abs (x' n)]
      have := abs_nonneg (x n)
      have := hx n
      gcongr
  have h1 := (key (n + 1)).2.2.2.2
  rw [← (step n).1, ← (step' n).1] at h1
  rw [← (step n).2, ← (step' n).2]
  exact Real.sqrt_le_sqrt h1

/-- **C51.** RMS: larger magnitudes never give smaller outputs. -/
theorem C51_rms_monotone (s t : RmsEnvDetector ℝ) (hga : s.getAttackGain = t.getAttackGain)
    (hgr : s.getReleaseGain = t.getReleaseGain) (hst : s.envelope ≤ t.envelope)
    (ha : s.getAttackGain ∈ Set.Icc (0 : ℝ) 1) (hr : s.getReleaseGain ∈ Set.Icc (0 : ℝ) 1) (b : Build)
    (x x' : ℕ → ℝ) (hx : ∀ n, |x n| ≤ |x' n|) :
    ∃ y y', Responds b s x y ∧ Responds b t x' y' ∧ ∀ n, y n ≤ y' n := by
  obtain ⟨y, hy⟩ := NeverPanics.responds (fun _ _ _ => ⟨_, _, rfl⟩) b s x
  obtain ⟨y', hy'⟩ := NeverPanics.responds (fun _ _ _ => ⟨_, _, rfl⟩) b t x'
  exact ⟨y, y', hy, hy', rms_monotone s t hga hgr hst ha hr b x x' y y' hx hy hy'⟩

/-- The gain conditions hold for what the setters store. -/
example : ((PeakEnvDetector.new : PeakEnvDetector ℝ).setAttack 100).getAttackGain ∈ Set.Icc (0 : ℝ) 1 := by
  obtain ⟨⟨h1, h2⟩, h3, -⟩ := C49_real 100 (by norm_num)
  rw [(h3 _).1]
  exact ⟨h1.le, h2.le⟩

/-! ## C52 -/

section C52
variable {f : Fmt} {L : Libm f}

theorem Fl.abs_neg (x : Fl L) : abs (neg x) = abs x := by
  show FP.abs (FP.neg (f := f) x) = FP.abs x
  cases x <;> rfl

theorem Fl.neg_mul_neg (x : Fl L) : neg x *. neg x = x *. x := by
  show FP.mul (f := f) (FP.neg x) (FP.neg x) = FP.mul x x
  cases x with
  | nan => rfl
  | inf s => cases s <;> rfl
  | fin s a h =>
    simp only [FP.neg, FP.mul, FP.toReal_fin]
    cases s <;> simp

/-- `x'` is `x` with some signs flipped. -/
def SignsFlipped (x x' : ℕ → Fl L) : Prop := ∀ n, x' n = x n ∨ x' n = neg (x n)

/-- C52. Flipping signs changes no output, bit for bit, for NaN and infinite samples as well. -/
theorem sign_ignored (b : Build) (x x' y : ℕ → Fl L) (hx : SignsFlipped x x') :
    (∀ s : PeakEnvDetector (Fl L), Responds b s x y → Responds b s x' y) ∧
    (∀ s : RmsEnvDetector (Fl L), Responds b s x y → Responds b s x' y) := by
  constructor
  · rintro s ⟨st, h0, hst⟩
    refine ⟨st, h0, fun n => ?_⟩
    rw [← hst n]
    rcases hx n with h | h
    · rw [h]
    · rw [h]
      show Except.ok (PeakEnvDetector.process _ _) = Except.ok (PeakEnvDetector.process _ _)
      unfold PeakEnvDetector.process
      rw [Fl.abs_neg]
  · rintro s ⟨st, h0, hst⟩
    refine ⟨st, h0, fun n => ?_⟩
    rw [← hst n]
    rcases hx n with h | h
    · rw [h]
    · rw [h]
      show Except.ok (RmsEnvDetector.process _ _) = Except.ok (RmsEnvDetector.process _ _)
      unfold RmsEnvDetector.process
      rw [Fl.neg_mul_neg]

/-- **C52.** Flipping signs changes no output, bit for bit, for NaN and infinite samples as well. -/
theorem C52_sign_ignored (b : Build) (x x' : ℕ → Fl L) (hx : SignsFlipped x x') :
    (∀ s : PeakEnvDetector (Fl L), ∃ y, Responds b s x y ∧ Responds b s x' y) ∧
    (∀ s : RmsEnvDetector (Fl L), ∃ y, Responds b s x y ∧ Responds b s x' y) := by
  refine ⟨fun s => ?_, fun s => ?_⟩
  · obtain ⟨y, hy⟩ := NeverPanics.responds (fun _ _ _ => ⟨_, _, rfl⟩) b s x
    exact ⟨y, hy, (sign_ignored b x x' y hx).1 s hy⟩
  · obtain ⟨y, hy⟩ := NeverPanics.responds (fun _ _ _ => ⟨_, _, rfl⟩) b s x
    exact ⟨y, hy, (sign_ignored b x x' y hx).2 s hy⟩

/-- Flipping every other sign of a constant stream. -/
example : SignsFlipped (fun _ => (one : Fl L)) (fun n => if n % 2 = 0 then one else neg one) := by
  intro n
  by_cases h : n % 2 = 0
  · exact .inl (if_pos h)
  · exact .inr (if_neg h)

end C52

/-! ## C53 -/

section C53
variable {f : Fmt} {L : Libm f}

/-- C53, corrected: a new Peak detector returns the magnitude of each finite sample, bit for bit. -/
theorem peak_magnitude (b : Build) (x y : ℕ → Fl L) (hx : ∀ n, (x n).Finite)
    (h : Responds b (PeakEnvDetector.new : PeakEnvDetector (Fl L)) x y) (n : ℕ) : y n = abs (x n) := by
  obtain ⟨st, h0, hst⟩ := h
  have step : ∀ n, ((st n).process (x n)).1 = st (n + 1) ∧ ((st n).process (x n)).2 = y n :=
    fun n => Prod.mk.inj (Except.ok.inj (hst n))
  have one : ∀ e i : Fl L, e.Finite → isSignNegative e = false → i.Finite →
      abs i +. (if lt e (abs i) then zero else zero) *. (e -. abs i) = abs i := by
    intro e i he hs hi
    rw [ite_self]
    exact Fl.zero_smooth (Fl.abs_finite.mpr hi) (Fl.abs_sign i) he hs
  have key : ∀ n, (st n).attack_gain = zero ∧ (st n).release_gain = zero ∧ (st n).envelope.Finite ∧
      isSignNegative (st n).envelope = false := by
    intro n
    induction n with
    | zero =>
      rw [h0]
      refine ⟨rfl, rfl, Fl.zero_finite, FP.signBit_ofReal_zero false⟩
    | succ n ih =>
      obtain ⟨i1, i2, i3, i4⟩ := ih
      rw [← (step n).1]
      refine ⟨i1, i2, ?_⟩
      show Fl.Finite (abs (x n) +. (if lt (st n).envelope (abs (x n)) then (st n).attack_gain else (st n).release_gain) *.
        ((st n).envelope -. abs (x n))) ∧ isSignNegative (abs (x n) +. (if lt (st n).envelope (abs (x n)) then
        (st n).attack_gain else (st n).release_gain) *. ((st n).envelope -. abs (x n))) = false
      rw [i1, i2, one _ _ i3 i4 (hx n)]
      exact ⟨Fl.abs_finite.mpr (hx n), Fl.abs_sign _⟩
  obtain ⟨i1, i2, i3, i4⟩ := key n
  rw [← (step n).2]
  show abs (x n) +. (if lt (st n).envelope (abs (x n)) then (st n).attack_gain else (st n).release_gain) *.
        ((st n).envelope -. abs (x n)) = _
  rw [i1, i2, one _ _ i3 i4 (hx n)]

/-- **C53**, corrected: a new Peak detector returns the magnitude of each finite sample, bit for bit. -/
theorem C53_peak_magnitude (b : Build) (x : ℕ → Fl L) (hx : ∀ n, (x n).Finite) :
    Responds b (PeakEnvDetector.new : PeakEnvDetector (Fl L)) x (fun n => abs (x n)) := by
  obtain ⟨y, hy⟩ := NeverPanics.responds (fun _ _ _ => ⟨_, _, rfl⟩) b (PeakEnvDetector.new : PeakEnvDetector (Fl L)) x
  have := funext (peak_magnitude b x y hx hy)
  rwa [this] at hy

/-- A sample whose square is exact zero or neither underflows nor overflows. -/
def SquareOk (x : Fl L) : Prop :=
  x.Finite ∧ (x.toReal = 0 ∨ (2 : ℝ) ^ (f.emin + f.p - 1) ≤ x.toReal ^ 2) ∧ FP.NoOvf f (x.toReal ^ 2)

theorem Fl.sq_sign (x : Fl L) (hx : x.Finite) : isSignNegative (x *. x) = false := by
  show FP.signBit (FP.mul (f := f) x x) = false
  rw [FP.mul_fin hx hx, bne_self_eq_false]
  rcases (mul_self_nonneg (FP.toReal (f := f) x)).lt_or_eq with h | h
  · exact FP.signBit_ofReal_pos h
  · rw [← h]; exact FP.signBit_ofReal_zero false

theorem Fl.sqrt_sign {x : Fl L} (hx : x.Finite) (hs : isSignNegative x = false) :
    isSignNegative (FloatOps.sqrt x) = false := by
  obtain ⟨s, a, ha, rfl⟩ := FP.finite_cases hx
  have : s = false := hs
  subst this
  show FP.signBit (FP.sqrt (FP.fin false a ha)) = false
  simp only [FP.sqrt]
  split
  · exact FP.signBit_ofReal_zero false
  · rename_i h
    rw [if_neg (by simp)]
    exact FP.signBit_ofReal_pos (Real.sqrt_pos.mpr (lt_of_le_of_ne ha.1 (Ne.symm h)))

/-- What a new RMS detector computes while no square overflows. -/
theorem rms_new (b : Build) (x y : ℕ → Fl L) (hx : ∀ n, (x n).Finite ∧ FP.NoOvf f ((x n).toReal ^ 2))
    (h : Responds b (RmsEnvDetector.new : RmsEnvDetector (Fl L)) x y) (n : ℕ) : y n = FloatOps.sqrt (x n *. x n) := by
  obtain ⟨st, h0, hst⟩ := h
  have step : ∀ n, ((st n).process (x n)).1 = st (n + 1) ∧ ((st n).process (x n)).2 = y n :=
    fun n => Prod.mk.inj (Except.ok.inj (hst n))
  have sqf : ∀ n, (x n *. x n).Finite := fun n => (Fl.mul_val (hx n).1 (hx n).1 (by rw [← pow_two]; exact (hx n).2)).1
  have one : ∀ e i : Fl L, e.Finite → isSignNegative e = false → (i *. i).Finite → i.Finite →
      i *. i +. (if lt e (i *. i) then zero else zero) *. (e -. i *. i) = i *. i := by
    intro e i he hs hi hi'
    rw [ite_self]
    exact Fl.zero_smooth hi (Fl.sq_sign i hi') he hs
  have key : ∀ n, (st n).attack_gain = zero ∧ (st n).release_gain = zero ∧ (st n).envelope.Finite ∧
      isSignNegative (st n).envelope = false := by
    intro n
    induction n with
    | zero =>
      rw [h0]
      refine ⟨rfl, rfl, Fl.zero_finite, FP.signBit_ofReal_zero false⟩
    | succ n ih =>
      obtain ⟨i1, i2, i3, i4⟩ := ih
      rw [← (step n).1]
      refine ⟨i1, i2, ?_⟩
      show Fl.Finite (x n *. x n +. (if lt (st n).envelope (x n *. x n) then (st n).attack_gain else (st n).release_gain) *.
        ((st n).envelope -. x n *. x n)) ∧ isSignNegative (x n *. x n +. (if lt (st n).envelope (x n *. x n) then
        (st n).attack_gain else (st n).release_gain) *. ((st n).envelope -. x n *. x n)) = false
      rw [i1, i2, one _ _ i3 i4 (sqf n) (hx n).1]
      exact ⟨sqf n, Fl.sq_sign _ (hx n).1⟩
  obtain ⟨i1, i2, i3, i4⟩ := key n
  rw [← (step n).2]
  show FloatOps.sqrt (x n *. x n +. (if lt (st n).envelope (x n *. x n) then (st n).attack_gain else (st n).release_gain) *.
        ((st n).envelope -. x n *. x n)) = _
  rw [i1, i2, one _ _ i3 i4 (sqf n) (hx n).1]

/-- C53, corrected: a new RMS detector returns the magnitude of each sample, bit for bit, as long as the squares
neither underflow nor overflow. -/
theorem rms_magnitude (b : Build) (x y : ℕ → Fl L) (hx : ∀ n, SquareOk (x n))
    (h : Responds b (RmsEnvDetector.new : RmsEnvDetector (Fl L)) x y) (n : ℕ) : y n = abs (x n) := by
  rw [rms_new b x y (fun n => ⟨(hx n).1, (hx n).2.2⟩) h n]
  obtain ⟨hf, hu, ho⟩ := hx n
  obtain ⟨h1, h2⟩ := Fl.mul_val hf hf (by rw [← pow_two]; exact ho)
  have hs := Fl.sq_sign (x n) hf
  obtain ⟨h3, h4⟩ := Fl.sqrt_val h1 (Fl.toReal_nonneg_of_sign h1 hs)
  apply Fl.ext_of_finite h3 (Fl.abs_finite.mpr hf)
  · rw [h4, h2, Fl.abs_toReal, ← pow_two]
    rcases hu with hu | hu
    · rw [hu]; simp
    · exact rnd_sqrt_rnd_sq (Fl.isRep_toReal _) hu
  · rw [Fl.sqrt_sign h1 hs, Fl.abs_sign]

/-- **C53**, corrected: a new RMS detector returns the magnitude of each sample, bit for bit, as long as the squares
neither underflow nor overflow. -/
theorem C53_rms_magnitude (b : Build) (x : ℕ → Fl L) (hx : ∀ n, SquareOk (x n)) :
    Responds b (RmsEnvDetector.new : RmsEnvDetector (Fl L)) x (fun n => abs (x n)) := by
  obtain ⟨y, hy⟩ := NeverPanics.responds (fun _ _ _ => ⟨_, _, rfl⟩) b (RmsEnvDetector.new : RmsEnvDetector (Fl L)) x
  have := funext (rms_magnitude b x y hx hy)
  rwa [this] at hy

/-- The condition holds for ordinary samples, such as 1. -/
example : SquareOk (one : Fl L) := by
  refine ⟨Fl.one_finite, .inr ?_, ?_⟩
  · rw [Fl.one_toReal, one_pow]
    apply zpow_le_one_of_nonpos₀ (by norm_num)
    have := f.hemin; omega
  · rw [Fl.one_toReal, one_pow]
    have := Fl.noOvf_toReal (one : Fl L)
    rwa [Fl.one_toReal] at this

/-- **C53**: the documented claim is false: both detectors turn the sample -1 into 1. -/
theorem C53_not_unchanged :
    ((PeakEnvDetector.new : PeakEnvDetector (Fl L)).process (neg one)).2 ≠ neg one ∧
    ((RmsEnvDetector.new : RmsEnvDetector (Fl L)).process (neg one)).2 ≠ neg one := by
  have hneg : (neg (one : Fl L)).toReal = -1 := by rw [Fl.neg_toReal, Fl.one_toReal]
  have hnf : (neg (one : Fl L)).Finite := Fl.neg_finite.mpr Fl.one_finite
  have hno : FP.NoOvf f 1 := by
    have := Fl.noOvf_toReal (one : Fl L)
    rwa [Fl.one_toReal] at this
  constructor
  · obtain ⟨y, hy⟩ := NeverPanics.responds (σ := PeakEnvDetector (Fl L)) (fun _ _ _ => ⟨_, _, rfl⟩) ⟨true⟩
      PeakEnvDetector.new (fun _ => neg one)
    have h := peak_magnitude ⟨true⟩ _ y (fun _ => hnf) hy 0
    obtain ⟨st, h0, hst⟩ := hy
    have h1 := (Prod.mk.inj (Except.ok.inj (hst 0))).2
    change ((st 0).process (neg one)).2 = y 0 at h1
    rw [h0] at h1
    rw [h1, h]
    intro hc
    have := congrArg Fl.toReal hc
    rw [Fl.abs_toReal, hneg] at this
    norm_num at this
  · obtain ⟨y, hy⟩ := NeverPanics.responds (σ := RmsEnvDetector (Fl L)) (fun _ _ _ => ⟨_, _, rfl⟩) ⟨true⟩
      RmsEnvDetector.new (fun _ => neg one)
    have h := rms_magnitude ⟨true⟩ _ y (fun _ => ⟨hnf, .inr (by
      rw [hneg]
      norm_num
      have := f.hemin; omega), by rw [hneg]; norm_num; exact hno⟩) hy 0
    obtain ⟨st, h0, hst⟩ := hy
    have h1 := (Prod.mk.inj (Except.ok.inj (hst 0))).2
    change ((st 0).process (neg one)).2 = y 0 at h1
    rw [h0] at h1
    rw [h1, h]
    intro hc
    have := congrArg Fl.toReal hc
    rw [Fl.abs_toReal, hneg] at this
    norm_num at this

/-- **C53**: outside that range a new RMS detector does not even return the magnitude: the smallest positive number gives
0, and `2^emax` gives NaN. -/
theorem C53_rms_extremes (L : Libm f) :
    (∃ x : Fl L, x.Finite ∧ 0 < x.toReal ∧ ((RmsEnvDetector.new : RmsEnvDetector (Fl L)).process x).2.toReal = 0) ∧
    (∃ x : Fl L, x.Finite ∧ ((RmsEnvDetector.new : RmsEnvDetector (Fl L)).process x).2.IsNaN) := by
  have hp := f.hp; have hemin := f.hemin; have hemax := f.hemax
  constructor
  · have hlt : (2 : ℝ) ^ f.emin < f.lim := zpow_lt_zpow_right₀ (by norm_num) (by omega)
    obtain ⟨x, hx, hv⟩ := Fl.exists_of_isRep L (v := (2 : ℝ) ^ f.emin) (isRep_two_zpow le_rfl) (by
      rw [abs_of_pos (two_zpow_pos _)]; exact hlt)
    have hpos := two_zpow_pos f.emin
    have hq : (2 : ℝ) ^ f.emin ≤ 1 / 4 := by
      rw [show (1 / 4 : ℝ) = 2 ^ (-2 : ℤ) by norm_num]
      exact zpow_le_zpow_right₀ (by norm_num) (by omega)
    refine ⟨x, hx, by rw [hv]; exact hpos, ?_⟩
    have hsq : x.toReal * x.toReal ≤ 2 ^ f.emin / 4 := by rw [hv]; nlinarith
    have hsq0 : 0 < x.toReal * x.toReal := by rw [hv]; positivity
    have hr : rnd f (x.toReal * x.toReal) = 0 := by
      have hc : cexp f (x.toReal * x.toReal) = f.emin := by
        apply le_antisymm _ (emin_le_cexp _ _)
        apply cexp_le_of_lt hsq0.ne' le_rfl
        rw [abs_of_pos hsq0]
        calc x.toReal * x.toReal ≤ 2 ^ f.emin / 4 := hsq
          _ < 2 ^ f.emin := by linarith
          _ ≤ 2 ^ (f.p + f.emin) := zpow_le_zpow_right₀ (by norm_num) (by omega)
      unfold rnd
      rw [hc]
      have : rne (x.toReal * x.toReal / 2 ^ f.emin) = 0 := by
        apply rne_eq_of_lt
        have h1 : x.toReal * x.toReal / 2 ^ f.emin ≤ 1 / 4 := by rw [div_le_iff₀ hpos]; linarith
        have h2 : 0 < x.toReal * x.toReal / 2 ^ f.emin := by positivity
        rw [abs_lt]; push_cast; constructor <;> linarith
      rw [this]; simp
    have hno : FP.NoOvf f (x.toReal ^ 2) := by
      rw [FP.NoOvf, pow_two, hr, abs_zero]; exact FP.lim_pos f
    obtain ⟨y, hy⟩ := NeverPanics.responds (σ := RmsEnvDetector (Fl L)) (fun _ _ _ => ⟨_, _, rfl⟩) ⟨true⟩
      RmsEnvDetector.new (fun _ => x)
    have h := rms_new ⟨true⟩ _ y (fun _ => ⟨hx, hno⟩) hy 0
    obtain ⟨st, h0, hst⟩ := hy
    have h1 := (Prod.mk.inj (Except.ok.inj (hst 0))).2
    change ((st 0).process x).2 = y 0 at h1
    rw [h0] at h1
    rw [h1, h]
    obtain ⟨h2, h3⟩ := Fl.mul_val hx hx (by rw [← pow_two]; exact hno)
    rw [hr] at h3
    rw [(Fl.sqrt_val h2 h3.ge).2, h3, Real.sqrt_zero, rnd_zero]
  · obtain ⟨x, hx, hv, hov⟩ := Fl.exists_big L
    refine ⟨x, hx, ?_⟩
    have h2 : (2 : ℝ) ≤ 2 ^ f.emax := by
      calc (2 : ℝ) = 2 ^ (1 : ℤ) := by norm_num
        _ ≤ _ := zpow_le_zpow_right₀ (by norm_num) (by omega)
    have hov2 : ¬ FP.NoOvf f (x.toReal * x.toReal) := by
      intro hc
      apply hov
      refine lt_of_le_of_lt ?_ hc
      rw [hv, abs_rnd, abs_rnd, abs_of_nonneg (by positivity), abs_of_nonneg (by positivity)]
      apply rnd_mono
      nlinarith
    have hi : x *. x = Fl.inf L false := by
      rw [Fl.mul_ovf hx hx hov2]
      congr 1
      rw [decide_eq_false_iff_not, not_lt]
      exact mul_self_nonneg _
    have henv : (x *. x +. (if lt (zero : Fl L) (x *. x) then zero else zero) *. ((zero : Fl L) -. x *. x)).IsNaN := by
      rw [hi, ite_self]
      exact Fl.smooth_inf_left (by simp) Fl.zero_finite false
    obtain ⟨t, ht⟩ := Fl.isNaN_iff.mp henv
    show (FloatOps.sqrt (x *. x +. (if lt (zero : Fl L) (x *. x) then zero else zero) *. ((zero : Fl L) -. x *. x))).IsNaN
    rw [ht]
    trivial

end C53

/-! ## C54 -/

theorem followed_iterate_rise {a r e c : ℝ} {env : ℕ → ℝ} (ha0 : 0 < a) (h0 : env 0 = e) (hec : e < c)
    (hs : ∀ n, env (n + 1) = followed a r (env n) c) (n : ℕ) : c - env n = a ^ n * (c - e) := by
  induction n with
  | zero => rw [h0]; ring
  | succ n ih =>
    have : env n < c := by
      have : 0 < a ^ n * (c - e) := mul_pos (pow_pos ha0 n) (by linarith)
      linarith
    rw [hs, followed, if_pos this, pow_succ]
    linear_combination a * ih

theorem followed_iterate_fall {a r e c : ℝ} {env : ℕ → ℝ} (hr0 : 0 < r) (h0 : env 0 = e) (hec : c ≤ e)
    (hs : ∀ n, env (n + 1) = followed a r (env n) c) (n : ℕ) : env n - c = r ^ n * (e - c) := by
  induction n with
  | zero => rw [h0]; ring
  | succ n ih =>
    have : ¬ env n < c := by
      have : 0 ≤ r ^ n * (e - c) := mul_nonneg (pow_pos hr0 n).le (by linarith)
      linarith
    rw [hs, followed, if_neg this, pow_succ]
    linear_combination r * ih

theorem exp_pow (len : ℝ) (n : ℕ) : Real.exp (-1 / len) ^ n = Real.exp (-(n : ℝ) / len) := by
  rw [← Real.exp_nat_mul]
  congr 1
  ring

/-- C54, corrected, Peak rising: after `n + 1` samples the distance to the target has shrunk by exactly
`e^(-(n+1)/attack_length)`; the target is never reached. -/
theorem peak_attack (s : PeakEnvDetector ℝ) (len : ℝ) (hlen : 0 < len) (x : ℝ) (hx : s.lastOut < |x|) (b : Build)
    (y : ℕ → ℝ) (h : Responds b (s.setAttack len) (fun _ => x) y) (n : ℕ) :
    |x| - y n = Real.exp (-((n : ℝ) + 1) / len) * (|x| - s.lastOut) ∧ y n < |x| := by
  obtain ⟨st, h0, hst⟩ := h
  have step : ∀ n, ((st n).process x).1 = st (n + 1) ∧ ((st n).process x).2 = y n :=
    fun n => Prod.mk.inj (Except.ok.inj (hst n))
  have gains : ∀ n, (st n).attack_gain = Real.exp (-1 / len) ∧ (st n).release_gain = (st 0).release_gain := by
    intro n
    induction n with
    | zero => rw [h0]; exact ⟨((C49_real len hlen).2.1 s).1, rfl⟩
    | succ n ih => rw [← (step n).1]; exact ih
  have hy : ∀ n, y n = (st (n + 1)).envelope := fun n => by rw [← (step n).1, ← (step n).2]; rfl
  have key := followed_iterate_rise (a := Real.exp (-1 / len)) (r := (st 0).release_gain) (e := s.lastOut) (c := |x|)
    (env := fun n => (st n).envelope) (Real.exp_pos _) (by
      show (st 0).envelope = _
      rw [h0]; exact ((C49_independent len x).1 s).2.2.1) hx (by
      intro n
      show (st (n + 1)).envelope = _
      rw [← hy, ← (step n).2, C51_peak_rule]
      show followed (st n).attack_gain (st n).release_gain _ _ = _
      rw [(gains n).1, (gains n).2]; rfl) (n + 1)
  rw [exp_pow] at key
  push_cast at key
  rw [← hy] at key
  refine ⟨key, ?_⟩
  have : 0 < Real.exp (-((n : ℝ) + 1) / len) * (|x| - s.lastOut) := mul_pos (Real.exp_pos _) (by linarith)
  linarith

/-- **C54**, corrected, Peak rising: after `n + 1` samples the distance to the target has shrunk by exactly
`e^(-(n+1)/attack_length)`; the target is never reached. -/
theorem C54_peak_attack (s : PeakEnvDetector ℝ) (len : ℝ) (hlen : 0 < len) (x : ℝ) (hx : s.lastOut < |x|) (b : Build) :
    ∃ y, Responds b (s.setAttack len) (fun _ => x) y ∧ ∀ n : ℕ,
      |x| - y n = Real.exp (-((n : ℝ) + 1) / len) * (|x| - s.lastOut) ∧ y n < |x| := by
  obtain ⟨y, hy⟩ := NeverPanics.responds (fun _ _ _ => ⟨_, _, rfl⟩) b (s.setAttack len) (fun _ => x)
  exact ⟨y, hy, peak_attack s len hlen x hx b y hy⟩

/-- C54, corrected, Peak falling. -/
theorem peak_release (s : PeakEnvDetector ℝ) (len : ℝ) (hlen : 0 < len) (x : ℝ) (hx : |x| < s.lastOut) (b : Build)
    (y : ℕ → ℝ) (h : Responds b (s.setRelease len) (fun _ => x) y) (n : ℕ) :
    y n - |x| = Real.exp (-((n : ℝ) + 1) / len) * (s.lastOut - |x|) ∧ |x| < y n := by
  obtain ⟨st, h0, hst⟩ := h
  have step : ∀ n, ((st n).process x).1 = st (n + 1) ∧ ((st n).process x).2 = y n :=
    fun n => Prod.mk.inj (Except.ok.inj (hst n))
  have gains : ∀ n, (st n).release_gain = Real.exp (-1 / len) ∧ (st n).attack_gain = (st 0).attack_gain := by
    intro n
    induction n with
    | zero => rw [h0]; exact ⟨((C49_real len hlen).2.1 s).2, rfl⟩
    | succ n ih => rw [← (step n).1]; exact ih
  have hy : ∀ n, y n = (st (n + 1)).envelope := fun n => by rw [← (step n).1, ← (step n).2]; rfl
  have key := followed_iterate_fall (r := Real.exp (-1 / len)) (a := (st 0).attack_gain) (e := s.lastOut) (c := |x|)
    (env := fun n => (st n).envelope) (Real.exp_pos _) (by
      show (st 0).envelope = _
      rw [h0]; exact ((C49_independent len x).1 s).2.2.2.1) hx.le (by
      intro n
      show (st (n + 1)).envelope = _
      rw [← hy, ← (step n).2, C51_peak_rule]
      show followed (st n).attack_gain (st n).release_gain _ _ = _
      rw [(gains n).1, (gains n).2]; rfl) (n + 1)
  rw [exp_pow] at key
  push_cast at key
  rw [← hy] at key
  refine ⟨key, ?_⟩
  have : 0 < Real.exp (-((n : ℝ) + 1) / len) * (s.lastOut - |x|) := mul_pos (Real.exp_pos _) (by linarith)
  linarith

/-- **C54**, corrected, Peak falling. -/
theorem C54_peak_release (s : PeakEnvDetector ℝ) (len : ℝ) (hlen : 0 < len) (x : ℝ) (hx : |x| < s.lastOut) (b : Build) :
    ∃ y, Responds b (s.setRelease len) (fun _ => x) y ∧ ∀ n : ℕ,
      y n - |x| = Real.exp (-((n : ℝ) + 1) / len) * (s.lastOut - |x|) ∧ |x| < y n := by
  obtain ⟨y, hy⟩ := NeverPanics.responds (fun _ _ _ => ⟨_, _, rfl⟩) b (s.setRelease len) (fun _ => x)
  exact ⟨y, hy, peak_release s len hlen x hx b y hy⟩

theorem rms_followed (u : RmsEnvDetector ℝ) (v : ℝ) : (u.process v).1.envelope =
      followed u.attack_gain u.release_gain u.envelope (v ^ 2) := by
  show v * v + (if lt u.envelope (v * v) then u.attack_gain else u.release_gain) * (u.envelope - v * v) = _
  unfold followed
  simp only [real_lt, pow_two]
  split <;> rfl

/-- C54, corrected, RMS rising: the same law holds for the squares. -/
theorem rms_attack (s : RmsEnvDetector ℝ) (h0e : 0 ≤ s.envelope) (len : ℝ) (hlen : 0 < len) (x : ℝ)
    (hx : s.lastOut < |x|) (b : Build) (y : ℕ → ℝ) (h : Responds b (s.setAttack len) (fun _ => x) y) (n : ℕ) :
    x ^ 2 - y n ^ 2 = Real.exp (-((n : ℝ) + 1) / len) * (x ^ 2 - s.lastOut ^ 2) ∧ y n < |x| := by
  obtain ⟨st, h0, hst⟩ := h
  have step : ∀ n, ((st n).process x).1 = st (n + 1) ∧ ((st n).process x).2 = y n :=
    fun n => Prod.mk.inj (Except.ok.inj (hst n))
  have hl : s.lastOut ^ 2 = s.envelope := Real.sq_sqrt h0e
  have hsq : s.lastOut ^ 2 < x ^ 2 := by
    rw [← sq_abs x]
    have : 0 ≤ s.lastOut := Real.sqrt_nonneg _
    gcongr
  have gains : ∀ n, (st n).attack_gain = Real.exp (-1 / len) ∧ (st n).release_gain = (st 0).release_gain := by
    intro n
    induction n with
    | zero => rw [h0]; exact ⟨((C49_real len hlen).2.2 s).1, rfl⟩
    | succ n ih => rw [← (step n).1]; exact ih
  have key := followed_iterate_rise (a := Real.exp (-1 / len)) (r := (st 0).release_gain) (e := s.lastOut ^ 2) (c := x ^ 2)
    (env := fun n => (st n).envelope) (Real.exp_pos _) (by
      show (st 0).envelope = _
      rw [h0, hl]
      unfold RmsEnvDetector.setAttack
      split <;> rfl) hsq (by
      intro n
      show (st (n + 1)).envelope = _
      rw [← (step n).1, rms_followed, (gains n).1, (gains n).2]) (n + 1)
  rw [exp_pow] at key
  push_cast at key
  have hE : Real.exp (-((n : ℝ) + 1) / len) ≤ 1 := by
    rw [Real.exp_le_one_iff]
    exact div_nonpos_of_nonpos_of_nonneg (by have : (0 : ℝ) ≤ n := Nat.cast_nonneg n; linarith) hlen.le
  have hEp := Real.exp_pos (-((n : ℝ) + 1) / len)
  have henv : 0 ≤ (st (n + 1)).envelope := by
    have : (st (n + 1)).envelope = x ^ 2 - Real.exp (-((n : ℝ) + 1) / len) * (x ^ 2 - s.lastOut ^ 2) := by
      rw [← key]; ring
    rw [this]
    nlinarith [sq_nonneg s.lastOut]
  have hy : y n ^ 2 = (st (n + 1)).envelope := by
    rw [← (step n).2, ← (step n).1] at *
    exact Real.sq_sqrt henv
  rw [← hy] at key
  refine ⟨key, ?_⟩
  apply lt_of_pow_lt_pow_left₀ 2 (abs_nonneg x)
  rw [sq_abs]
  have : 0 < Real.exp (-((n : ℝ) + 1) / len) * (x ^ 2 - s.lastOut ^ 2) := mul_pos hEp (by linarith)
  linarith

/-- **C54**, corrected, RMS rising: the same law holds for the squares. -/
theorem C54_rms_attack (s : RmsEnvDetector ℝ) (h0e : 0 ≤ s.envelope) (len : ℝ) (hlen : 0 < len) (x : ℝ) (hx : s.lastOut < |x|) (b : Build) :
    ∃ y, Responds b (s.setAttack len) (fun _ => x) y ∧ ∀ n : ℕ,
      x ^ 2 - y n ^ 2 = Real.exp (-((n : ℝ) + 1) / len) * (x ^ 2 - s.lastOut ^ 2) ∧ y n < |x| := by
  obtain ⟨y, hy⟩ := NeverPanics.responds (fun _ _ _ => ⟨_, _, rfl⟩) b (s.setAttack len) (fun _ => x)
  exact ⟨y, hy, rms_attack s h0e len hlen x hx b y hy⟩

/-- C54, corrected, RMS falling. -/
theorem rms_release (s : RmsEnvDetector ℝ) (h0e : 0 ≤ s.envelope) (len : ℝ) (hlen : 0 < len) (x : ℝ)
    (hx : |x| < s.lastOut) (b : Build) (y : ℕ → ℝ) (h : Responds b (s.setRelease len) (fun _ => x) y) (n : ℕ) :
    y n ^ 2 - x ^ 2 = Real.exp (-((n : ℝ) + 1) / len) * (s.lastOut ^ 2 - x ^ 2) ∧ |x| < y n := by
  obtain ⟨st, h0, hst⟩ := h
  have step : ∀ n, ((st n).process x).1 = st (n + 1) ∧ ((st n).process x).2 = y n :=
    fun n => Prod.mk.inj (Except.ok.inj (hst n))
  have hl : s.lastOut ^ 2 = s.envelope := Real.sq_sqrt h0e
  have hsq : x ^ 2 < s.lastOut ^ 2 := by
    rw [← sq_abs x]
    have := abs_nonneg x
    gcongr
  have gains : ∀ n, (st n).release_gain = Real.exp (-1 / len) ∧ (st n).attack_gain = (st 0).attack_gain := by
    intro n
    induction n with
    | zero => rw [h0]; exact ⟨((C49_real len hlen).2.2 s).2, rfl⟩
    | succ n ih => rw [← (step n).1]; exact ih
  have key := followed_iterate_fall (r := Real.exp (-1 / len)) (a := (st 0).attack_gain) (e := s.lastOut ^ 2) (c := x ^ 2)
    (env := fun n => (st n).envelope) (Real.exp_pos _) (by
      show (st 0).envelope = _
      rw [h0, hl]
      unfold RmsEnvDetector.setRelease
      split <;> rfl) hsq.le (by
      intro n
      show (st (n + 1)).envelope = _
      rw [← (step n).1, rms_followed, (gains n).1, (gains n).2]) (n + 1)
  rw [exp_pow] at key
  push_cast at key
  have hEp := Real.exp_pos (-((n : ℝ) + 1) / len)
  have hpos : 0 < Real.exp (-((n : ℝ) + 1) / len) * (s.lastOut ^ 2 - x ^ 2) := mul_pos hEp (by linarith)
  have henv : 0 ≤ (st (n + 1)).envelope := by
    have h1 := sq_nonneg x
    linarith
  have hy : y n ^ 2 = (st (n + 1)).envelope := by
    rw [← (step n).2, ← (step n).1] at *
    exact Real.sq_sqrt henv
  have hy0 : 0 ≤ y n := by rw [← (step n).2]; exact Real.sqrt_nonneg _
  rw [← hy] at key
  refine ⟨key, ?_⟩
  apply lt_of_pow_lt_pow_left₀ 2 hy0
  rw [sq_abs]
  linarith

/-- **C54**, corrected, RMS falling. -/
theorem C54_rms_release (s : RmsEnvDetector ℝ) (h0e : 0 ≤ s.envelope) (len : ℝ) (hlen : 0 < len) (x : ℝ) (hx : |x| < s.lastOut) (b : Build) :
    ∃ y, Responds b (s.setRelease len) (fun _ => x) y ∧ ∀ n : ℕ,
      y n ^ 2 - x ^ 2 = Real.exp (-((n : ℝ) + 1) / len) * (s.lastOut ^ 2 - x ^ 2) ∧ |x| < y n := by
  obtain ⟨y, hy⟩ := NeverPanics.responds (fun _ _ _ => ⟨_, _, rfl⟩) b (s.setRelease len) (fun _ => x)
  exact ⟨y, hy, rms_release s h0e len hlen x hx b y hy⟩

/-- C54: after `attack_length` samples a new Peak detector has covered the fraction `1 - 1/e` of the way, not all
of it (the documentation says the level is reached). -/
theorem not_reached (len : ℕ) (hlen : 0 < len) (x : ℝ) (hx : x ≠ 0) (b : Build) (y : ℕ → ℝ)
    (h : Responds b ((PeakEnvDetector.new : PeakEnvDetector ℝ).setAttack len) (fun _ => x) y) :
    y (len - 1) = (1 - Real.exp (-1)) * |x| ∧ y (len - 1) ≠ |x| := by
  have hpos : 0 < |x| := abs_pos.mpr hx
  have hL : (0 : ℝ) < len := by exact_mod_cast hlen
  obtain ⟨h1, h2⟩ := peak_attack PeakEnvDetector.new len hL x hpos b y h (len - 1)
  have h3 : (((len - 1 : ℕ) : ℝ) + 1) = len := by
    rw [Nat.cast_sub hlen]; simp
  rw [h3, neg_div, div_self hL.ne'] at h1
  have h4 : (PeakEnvDetector.new : PeakEnvDetector ℝ).lastOut = 0 := rfl
  rw [h4] at h1
  exact ⟨by linarith, h2.ne⟩

/-- **C54**: after `attack_length` samples a new Peak detector has covered the fraction `1 - 1/e` of the way, not all
of it (the documentation says the level is reached). -/
theorem C54_not_reached (len : ℕ) (hlen : 0 < len) (x : ℝ) (hx : x ≠ 0) (b : Build) :
    ∃ y, Responds b ((PeakEnvDetector.new : PeakEnvDetector ℝ).setAttack len) (fun _ => x) y ∧
      y (len - 1) = (1 - Real.exp (-1)) * |x| ∧ y (len - 1) ≠ |x| := by
  obtain ⟨y, hy⟩ := NeverPanics.responds (fun _ _ _ => ⟨_, _, rfl⟩) b ((PeakEnvDetector.new : PeakEnvDetector ℝ).setAttack len) (fun _ => x)
  exact ⟨y, hy, not_reached len hlen x hx b y hy⟩

end Rasp
