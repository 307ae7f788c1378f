import Verif.Props.Rbj
import Verif.Props.PassThrough
import Verif.Lemmas.WindowsFl
import Verif.Lemmas.RoundErr
import Verif.Spec.Libm
import Verif.Lemmas.RoundNat
import Mathlib.Analysis.SpecialFunctions.Trigonometric.Bounds

/-!
# C79: a low-pass filter with a very low cutoff is silent

`b0`, `b1` and `b2` of `LowPass` are multiples of the computed `1 - cos w0`. If the cosine is rounded to one they are all
zero. The first theorems hold for every format and every mathematical library.
-/

namespace Rasp
open FloatOps
variable {f : Fmt} {L : Libm f}

/-- Every stream of finite samples gives zeros only. -/
def Silent {σ : Type} [Processor σ (Fl L)] (s : σ) : Prop :=
  ∀ (b : Build) (x : ℕ → Fl L), (∀ n, (x n).Finite) → ∃ y, Responds b s x y ∧ ∀ n, Fl.eq (y n) zero = true

namespace Fl

theorem mul_zero_left {c v : Fl L} (hc : c.Finite) (h0 : c.toReal = 0) (hv : v.Finite) :
    (c *. v).Finite ∧ (c *. v).toReal = 0 := by
  have h := mul_val hc hv (by rw [h0, zero_mul]; exact noOvf_of_abs_le (y := (zero : Fl L)) (by simp))
  rw [h0, zero_mul, rnd_zero] at h
  exact h

end Fl
open Fl

/-- A biquad without feedforward coefficients, in its initial state, stays silent. -/
theorem biquad2_silent {s : Biquad2 (Fl L)} (h0 : s.b0.Finite ∧ s.b0.toReal = 0) (h1 : s.b1.Finite ∧ s.b1.toReal = 0)
    (h2 : s.b2.Finite ∧ s.b2.toReal = 0) (ha1 : s.a1.Finite) (ha2 : s.a2.Finite)
    (hz1 : s.z1.Finite ∧ s.z1.toReal = 0) (hz2 : s.z2.Finite ∧ s.z2.toReal = 0) : Silent s := by
  intro b x hx
  obtain ⟨y, hy⟩ := NeverPanics.responds (σ := Biquad2 (Fl L)) (fun _ _ _ => ⟨_, _, rfl⟩) b s x
  refine ⟨y, hy, ?_⟩
  rw [Biquad2.responds_iff] at hy
  suffices key : ∀ n, (y n).Finite ∧ (y n).toReal = 0 from fun n => (eq_iff (key n).1 zero_finite).mpr (by simp [(key n).2])
  intro n
  induction n using Nat.strong_induction_on with
  | _ n ih =>
    have w2 : ∀ m, m ≤ n → (before s.z2 (fun k => s.b2 *. x k -. s.a2 *. y k) m).Finite ∧
        (before s.z2 (fun k => s.b2 *. x k -. s.a2 *. y k) m).toReal = 0 := by
      intro m hmn
      cases m with
      | zero => exact hz2
      | succ m =>
        have e1 := mul_zero_left h2.1 h2.2 (hx m)
        have e2 := mul_zero_val ha2 (ih m (by omega)).1 (ih m (by omega)).2
        have := sub_zero_val e1.1 e2.1 e2.2
        exact ⟨this.1, this.2.trans e1.2⟩
    have w1 : (before s.z1 (fun m => s.b1 *. x m +. before s.z2 (fun k => s.b2 *. x k -. s.a2 *. y k) m -. s.a1 *. y m) n).Finite ∧
        (before s.z1 (fun m => s.b1 *. x m +. before s.z2 (fun k => s.b2 *. x k -. s.a2 *. y k) m -. s.a1 *. y m) n).toReal
          = 0 := by
      cases n with
      | zero => exact hz1
      | succ m =>
        have e1 := mul_zero_left h1.1 h1.2 (hx m)
        have e2 := mul_zero_val ha1 (ih m (by omega)).1 (ih m (by omega)).2
        have e3 := w2 m (by omega)
        have e4 := add_zero_val e1.1 e3.1 e3.2
        have e5 := sub_zero_val e4.1 e2.1 e2.2
        exact ⟨e5.1, e5.2.trans (e4.2.trans e1.2)⟩
    have e1 := mul_zero_left h0.1 h0.2 (hx n)
    have e2 := add_zero_val e1.1 w1.1 w1.2
    rw [hy n]
    exact ⟨e2.1, e2.2.trans e1.2⟩

/-- The angle per sample as computed. -/
noncomputable abbrev flAngle (sr fc : Fl L) : Fl L := two *. FloatOps.pi *. fc /. sr
/-- `alpha` as computed. -/
noncomputable abbrev flAlpha (sr fc q : Fl L) : Fl L := sin (flAngle sr fc) /. (two *. q)

/-- What the coefficients do when feedforward parts vanish: `alpha` in a reasonable range, numerators zero. -/
theorem rbjStore_silent {s : Biquad2 (Fl L)} {b0 b1 b2 a c : Fl L} (h0 : b0.Finite ∧ b0.toReal = 0)
    (h1 : b1.Finite ∧ b1.toReal = 0) (h2 : b2.Finite ∧ b2.toReal = 0) (hα : a.Finite) (hlo : -(1 / 2) ≤ a.toReal)
    (hhi : a.toReal ≤ 2 ^ (f.emax - 2)) (hc : c.Finite) (hc1 : |c.toReal| ≤ 1) :
    Silent (rbjStore s b0 b1 b2 (one +. a) (neg two *. c) (one -. a)) := by
  have hem : (2 : ℝ) ≤ 2 ^ (f.emax - 1) := by
    have := f.hp; have := f.hemax
    calc (2 : ℝ) = 2 ^ (1 : ℤ) := by norm_num
      _ ≤ 2 ^ (f.emax - 1) := zpow_le_zpow_right₀ (by norm_num) (by omega)
  have e2 : (2 : ℝ) ^ (f.emax - 1) = 2 * 2 ^ (f.emax - 2) := by
    rw [show f.emax - 1 = 1 + (f.emax - 2) by ring, zpow_add₀ (by norm_num)]; norm_num
  have e1 : (2 : ℝ) ^ f.emax = 2 * 2 ^ (f.emax - 1) := by
    rw [show f.emax = 1 + (f.emax - 1) by ring, zpow_add₀ (by norm_num)]; norm_num
  have hrep : IsRep f ((2 : ℝ) ^ (f.emax - 1)) := isRep_two_zpow (by have := f.hp; have := f.hemax; have := f.hemin; omega)
  obtain ⟨f0, v0⟩ := add_val (one_finite (L := L)) hα (noOvf_of_le_emax (by
    rw [one_toReal, abs_of_nonneg (by linarith)]; linarith))
  rw [one_toReal] at v0
  have lo0 : 1 / 2 ≤ (one +. a).toReal := by
    rw [v0]; exact le_rnd_of_le (isRep_half f) (by linarith)
  obtain ⟨f2, v2⟩ := sub_val (one_finite (L := L)) hα (noOvf_of_le_emax (by
    rw [one_toReal, abs_le]; constructor <;> linarith))
  rw [one_toReal] at v2
  have hi2 : |(one -. a).toReal| ≤ 2 ^ (f.emax - 1) := by
    rw [v2]; exact abs_rnd_le_of_le hrep (by rw [abs_le]; constructor <;> linarith)
  have hn2 : (neg (two : Fl L)).Finite := neg_finite.mpr two_val.1
  have ht2 : (neg (two : Fl L)).toReal = -2 := by rw [neg_toReal, two_val.2]
  have hm : |(-2 : ℝ) * c.toReal| ≤ 2 := by
    rw [abs_mul]; norm_num; linarith
  obtain ⟨f1, v1⟩ := mul_val hn2 hc (by rw [ht2]; exact noOvf_two hm)
  have hi1 : |(neg two *. c).toReal| ≤ 2 := by
    rw [v1, ht2]; exact abs_rnd_le_of_le (isRep_two f) hm
  have h0ne : (one +. a).toReal ≠ 0 := by linarith
  have dv : ∀ w : Fl L, w.Finite → |w.toReal| ≤ 2 ^ (f.emax - 1) → (w /. (one +. a)).Finite := fun w hw hb =>
    (div_val hw f0 h0ne (noOvf_of_le_emax (by
      rw [abs_div, abs_of_pos (show 0 < (one +. a).toReal by linarith), div_le_iff₀ (by linarith), e1]
      nlinarith [abs_nonneg w.toReal]))).1
  exact biquad2_silent (zero_div_val h0.1 h0.2 f0 h0ne) (zero_div_val h1.1 h1.2 f0 h0ne) (zero_div_val h2.1 h2.2 f0 h0ne)
    (dv _ f1 (by linarith)) (dv _ f2 hi2) ⟨zero_finite, zero_toReal⟩ ⟨zero_finite, zero_toReal⟩

/-- `x - x` and the like. -/
theorem Fl.cancel {x y : Fl L} (hx : x.Finite) (hy : y.Finite) (h : x.toReal = y.toReal) :
    (x -. y).Finite ∧ (x -. y).toReal = 0 := by
  have := sub_val hx hy (by rw [h, sub_self]; exact noOvf_two (by norm_num))
  rwa [h, sub_self, rnd_zero] at this

/-- **C79**, every format and library: where the computed cosine is one, `LowPass` is silent, and where it is minus one,
`HighPass` is. -/
theorem C79_silent_where_cosine_is_one {sr fc q : Fl L} (hα : (flAlpha sr fc q).Finite)
    (hlo : -(1 / 2) ≤ (flAlpha sr fc q).toReal) (hhi : (flAlpha sr fc q).toReal ≤ 2 ^ (f.emax - 2))
    (hc : (cos (flAngle sr fc)).Finite) :
    ((cos (flAngle sr fc)).toReal = 1 → ∀ s : LowPass (Fl L), Silent (s.setCoefficients sr fc q)) ∧
    ((cos (flAngle sr fc)).toReal = -1 → ∀ s : HighPass (Fl L), Silent (s.setCoefficients sr fc q)) := by
  refine ⟨fun h1 s => ?_, fun h1 s => ?_⟩
  · have hd := Fl.cancel (one_finite (L := L)) hc (by rw [one_toReal, h1])
    have hh := zero_div_val hd.1 hd.2 (two_val (L := L)).1 (by rw [two_val.2]; norm_num)
    intro b x hx
    obtain ⟨y, hy, h⟩ := rbjStore_silent (s := s.biquad) hh hd hh hα hlo hhi hc (by rw [h1]; norm_num) b x hx
    exact ⟨y, (LowPass.responds_iff _).mpr hy, h⟩
  · have hd := Fl.cancel (neg_finite.mpr (one_finite (L := L))) hc (by rw [neg_toReal, one_toReal, h1])
    have hs : ((one : Fl L) +. cos (flAngle sr fc)).Finite ∧ ((one : Fl L) +. cos (flAngle sr fc)).toReal = 0 := by
      have := add_val (one_finite (L := L)) hc (by rw [one_toReal, h1]; exact noOvf_two (by norm_num))
      rwa [one_toReal, h1, add_neg_cancel, rnd_zero] at this
    have hh := zero_div_val hs.1 hs.2 (two_val (L := L)).1 (by rw [two_val.2]; norm_num)
    intro b x hx
    obtain ⟨y, hy, h⟩ := rbjStore_silent (s := s.biquad) hh hd hh hα hlo hhi hc (by rw [h1]; norm_num) b x hx
    exact ⟨y, (HighPass.responds_iff _).mpr hy, h⟩

/-! ## f32 -/

section f32
variable {L : Libm binary32}

theorem u32 : binary32.u = 1 / 2 ^ 24 := rfl
theorem tiny32 : binary32.tiny = (2 : ℝ) ^ (-149 : ℤ) := rfl

/-- The computed `2π`. -/
theorem two_pi_val : ((two : Fl L) *. FloatOps.pi).Finite ∧ ((two : Fl L) *. FloatOps.pi).toReal = 13176795 / 2 ^ 21 := by
  have hp : rnd binary32 Real.pi = 13176795 / 2 ^ 22 := by
    have h1 := Real.pi_gt_d6
    have h2 := Real.pi_lt_d6
    have h3 := Real.pi_gt_d20
    have h4 := Real.pi_lt_d20
    have := rnd_eq_of (f := binary32) (x := Real.pi) (m := 13176795) (e := -22) (by norm_num [binary32])
      (by rw [abs_of_pos Real.pi_pos]; norm_num [binary32]; linarith)
      (by rw [abs_of_pos Real.pi_pos]; norm_num [binary32]; linarith)
      (by rw [abs_lt]; norm_num; constructor <;> linarith)
    rw [this]; norm_num
  have hr : IsRep binary32 (13176795 / 2 ^ 21 : ℝ) :=
    ⟨13176795, -21, by norm_num [binary32], by norm_num [binary32], by norm_num⟩
  have e : (two : Fl L).toReal * (FloatOps.pi : Fl L).toReal = 13176795 / 2 ^ 21 := by
    rw [two_val.2, pi_val.2, hp]; norm_num
  have := mul_val (two_val (L := L)).1 (pi_val (L := L)).1 (by
    rw [e]; exact noOvf_of_le_emax (by rw [abs_of_pos (by norm_num)]; norm_num [binary32]))
  rwa [e, rnd_of_isRep hr] at this

/-- Accuracy of the computed angle. -/
theorem flAngle_near {sr fc : Fl L} (hsr : sr.Finite) (hfc : fc.Finite) (h1 : 1 ≤ sr.toReal) (h0 : 0 ≤ fc.toReal)
    (hle : fc.toReal ≤ sr.toReal / 26000) : (flAngle sr fc).Finite ∧ 0 ≤ (flAngle sr fc).toReal ∧
      |(flAngle sr fc).toReal - angle sr.toReal fc.toReal| ≤ angle sr.toReal fc.toReal / 2 ^ 21 + 1 / 2 ^ 147 := by
  obtain ⟨fp, vp⟩ := two_pi_val (L := L)
  have hpi1 := Real.pi_gt_d6
  have hpi2 := Real.pi_lt_d6
  have hpi3 := Real.pi_gt_d20
  have hpi4 := Real.pi_lt_d20
  obtain ⟨fm, vm⟩ := mul_val fp hfc (noOvf_of_abs_le (y := sr) (by
    rw [vp, abs_of_nonneg (by positivity), abs_of_nonneg (by linarith)]
    norm_num
    linarith))
  rw [vp] at vm
  set S := sr.toReal with hS
  set F := fc.toReal with hF
  set P := (two *. FloatOps.pi *. fc : Fl L).toReal with hP
  have em := abs_rnd_sub_le_u binary32 (13176795 / 2 ^ 21 * F)
  rw [← vm, u32, tiny32, abs_of_nonneg (show 0 ≤ 13176795 / 2 ^ 21 * F by positivity)] at em
  have tiny_le : (2 : ℝ) ^ (-149 : ℤ) ≤ 1 / 2 ^ 149 := by norm_num
  have P0 : 0 ≤ P := by rw [vm]; exact rnd_nonneg (by positivity)
  have hS0 : 0 < S := by linarith
  have Pub : P ≤ 13176795 / 2 ^ 21 * F * (1 + 1 / 2 ^ 24) + 1 / 2 ^ 149 := by
    have := (abs_le.mp em).2; linarith
  obtain ⟨fw, vw⟩ := div_val fm hsr (by rw [← hS]; exact hS0.ne') (noOvf_of_abs_le (y := sr) (by
    rw [← hP, ← hS, abs_of_nonneg (by positivity), abs_of_pos hS0, div_le_iff₀ hS0]
    have : (13176795 / 2 ^ 21 : ℝ) ≤ 7 := by norm_num
    nlinarith))
  rw [← hP, ← hS] at vw
  have ew := abs_rnd_sub_le_u binary32 (P / S)
  rw [← vw, u32, tiny32, abs_of_nonneg (show 0 ≤ P / S by positivity)] at ew
  have w0 : 0 ≤ (flAngle sr fc).toReal := by
    show 0 ≤ (two *. FloatOps.pi *. fc /. sr : Fl L).toReal
    rw [vw]; exact rnd_nonneg (by positivity)
  refine ⟨fw, w0, ?_⟩
  set W := (flAngle sr fc).toReal with hW
  change |W - P / S| ≤ _ at ew
  -- in terms of `Q = F / S`
  set Q := F / S with hQ
  have hQ0 : 0 ≤ Q := by positivity
  have hPS : |P / S - 13176795 / 2 ^ 21 * Q| ≤ 13176795 / 2 ^ 21 * Q / 2 ^ 24 + 1 / 2 ^ 149 := by
    have : P / S - 13176795 / 2 ^ 21 * Q = (P - 13176795 / 2 ^ 21 * F) / S := by rw [hQ]; field_simp
    rw [this, abs_div, abs_of_pos hS0, div_le_iff₀ hS0]
    have h2 : (13176795 / 2 ^ 21 * Q / 2 ^ 24 + 1 / 2 ^ 149) * S = 1 / 2 ^ 24 * (13176795 / 2 ^ 21 * F) + 1 / 2 ^ 149 * S := by
      rw [hQ]; field_simp
    rw [h2]
    have : (1 / 2 ^ 149 : ℝ) ≤ 1 / 2 ^ 149 * S := le_mul_of_one_le_right (by positivity) h1
    linarith
  have hang : angle S F = 2 * Real.pi * Q := by rw [angle, hQ]; ring
  rw [hang]
  have hpq : |13176795 / 2 ^ 21 * Q - 2 * Real.pi * Q| ≤ 2 * Real.pi * Q / 2 ^ 24 := by
    rw [← sub_mul, abs_mul, abs_of_nonneg hQ0]
    have : |13176795 / 2 ^ 21 - 2 * Real.pi| ≤ 2 * Real.pi / 2 ^ 24 := by
      rw [abs_le]; constructor <;> norm_num <;> linarith
    nlinarith
  rw [abs_le] at ew hPS hpq ⊢
  have hPS' : P / S ≤ 7 * Q * (1 + 1 / 2 ^ 24) + 1 / 2 ^ 149 := by
    have : (13176795 / 2 ^ 21 : ℝ) * Q ≤ 7 * Q := by
      apply mul_le_mul_of_nonneg_right _ hQ0; norm_num
    linarith [hPS.2]
  have hq6 : 6 * Q ≤ 2 * Real.pi * Q := by nlinarith
  have h7 : (13176795 / 2 ^ 21 : ℝ) * Q ≤ 7 * Q := by
    apply mul_le_mul_of_nonneg_right _ hQ0; norm_num
  norm_num at ew hPS hpq hPS' h7 ⊢
  constructor <;> linarith [ew.1, ew.2, hPS.1, hPS.2, hpq.1, hpq.2]

/-- Libraries that round correctly meet the assumptions. -/
theorem SmallAngle.of_rounded (hc : ∀ x : Fl L, x.Finite → FloatOps.cos x = FP.ofReal binary32 false (Real.cos x.toReal))
    (hs : ∀ x : Fl L, x.Finite → FloatOps.sin x = FP.ofReal binary32 false (Real.sin x.toReal)) : SmallAngle L := by
  have hsin : ∀ x : Fl L, x.Finite → (FloatOps.sin x).Finite ∧ (FloatOps.sin x).toReal = rnd binary32 (Real.sin x.toReal) := by
    intro x hx
    rw [hs x hx]
    exact FP.ofReal_of_noOvf (noOvf_two (by linarith [Real.abs_sin_le_one x.toReal]))
  refine ⟨fun x hx hb => ?_, fun x hx hb => ⟨(hsin x hx).1, ?_⟩, fun x hx h0 hb => ?_⟩
  · rw [hc x hx]
    have := FP.ofReal_of_noOvf (f := binary32) (s := false) (x := Real.cos x.toReal)
      (noOvf_two (by linarith [Real.abs_cos_le_one x.toReal]))
    refine ⟨this.1, this.2.trans (le_antisymm (rnd_le_of_le (isRep_one _) (Real.cos_le_one _)) ?_)⟩
    have hlow : 1 - 1 / 2 ^ 25 ≤ Real.cos x.toReal := by
      have h1 := Real.one_sub_sq_div_two_le_cos (x := x.toReal)
      have h2 : x.toReal ^ 2 ≤ (1 / 2 ^ 12) ^ 2 := by
        rw [← sq_abs]; exact pow_le_pow_left₀ (abs_nonneg _) hb 2
      norm_num at h2 ⊢
      linarith
    have h3 := rnd_nat (f := binary32) (n := 2 ^ 25 - 1) (k := 0) (e := -25) (by norm_num [binary32]) (by norm_num [binary32])
      (by norm_num [binary32])
    norm_num at h3
    have h4 := rnd_mono (f := binary32) hlow
    norm_num at h4
    rw [h3] at h4
    exact h4
  · rw [(hsin x hx).2]
    have key : |Real.sin x.toReal - x.toReal| ≤ |x.toReal| / 2 ^ 26 := by
      have main : ∀ t : ℝ, 0 ≤ t → t ≤ 1 / 2 ^ 12 → |Real.sin t - t| ≤ t / 2 ^ 26 := by
        intro t h0 h1
        rcases h0.eq_or_lt with rfl | hpos
        · simp
        · have u1 := Real.sin_le h0
          have u2 := Real.sin_gt_sub_cube hpos
          have u3 : t ^ 3 ≤ t * (1 / 2 ^ 12) ^ 2 := by
            rw [show t ^ 3 = t * t ^ 2 by ring]
            exact mul_le_mul_of_nonneg_left (pow_le_pow_left₀ h0 h1 2) h0
          rw [abs_le]
          norm_num at u3 ⊢
          constructor <;> linarith
      rcases le_total 0 x.toReal with h0 | h0
      · rw [abs_of_nonneg h0] at hb ⊢
        exact main _ h0 hb
      · rw [abs_of_nonpos h0] at hb ⊢
        have := main _ (neg_nonneg.mpr h0) hb
        rw [Real.sin_neg] at this
        rw [abs_sub_comm]
        convert this using 2
        ring
    have h2 := abs_rnd_sub_le_u binary32 (Real.sin x.toReal)
    rw [u32, tiny32] at h2
    have h3 : |Real.sin x.toReal| ≤ 2 * |x.toReal| := by
      have := abs_sub_abs_le_abs_sub (Real.sin x.toReal) x.toReal
      have := abs_nonneg x.toReal
      norm_num at key
      linarith
    have h4 : |rnd binary32 (Real.sin x.toReal) - x.toReal| ≤ |rnd binary32 (Real.sin x.toReal) - Real.sin x.toReal| +
        |Real.sin x.toReal - x.toReal| := abs_sub_le _ _ _
    have := abs_nonneg x.toReal
    norm_num at h2 h3 h4 key ⊢
    linarith
  · rw [(hsin x hx).2]
    apply rnd_nonneg
    apply Real.sin_nonneg_of_nonneg_of_le_pi h0
    have := Real.pi_gt_three
    norm_num at hb
    linarith

/-- The computed angle of a low frequency. -/
theorem flAngle_small {sr fc : Fl L} (hsr : sr.Finite) (hfc : fc.Finite) (h1 : 1 ≤ sr.toReal) (h0 : 0 ≤ fc.toReal)
    (hle : fc.toReal ≤ sr.toReal / 26000) : (flAngle sr fc).Finite ∧ 0 ≤ (flAngle sr fc).toReal ∧
      (flAngle sr fc).toReal ≤ 1 / 2 ^ 12 := by
  obtain ⟨hf, hn, hw⟩ := flAngle_near hsr hfc h1 h0 hle
  refine ⟨hf, hn, ?_⟩
  have hpi := Real.pi_lt_d6
  have hang : angle sr.toReal fc.toReal ≤ 2 * 3.141593 / 26000 := by
    have hQ : fc.toReal / sr.toReal ≤ 1 / 26000 := by
      rw [div_le_iff₀ (by linarith)]; linarith
    have hQ0 : 0 ≤ fc.toReal / sr.toReal := by positivity
    rw [angle, show 2 * Real.pi * fc.toReal / sr.toReal = 2 * Real.pi * (fc.toReal / sr.toReal) by ring]
    nlinarith [Real.pi_pos]
  have := (abs_le.mp hw).2
  norm_num at this hang ⊢
  linarith

/-- **C79**, f32: `LowPass` with a cutoff of at most `sample_rate/26000` (1.84 Hz at 48 kHz) is silent. In exact
arithmetic, the same parameters let constants pass unchanged. -/
theorem C79_lowPass_silent_f32 (hL : SmallAngle L) {sr fc q : Fl L} (hsr : sr.Finite) (hfc : fc.Finite) (hq : q.Finite)
    (h1 : 1 ≤ sr.toReal) (h0 : 0 < fc.toReal) (hle : fc.toReal ≤ sr.toReal / 26000) (hq1 : 1 / 2 ^ 100 ≤ q.toReal)
    (hq2 : q.toReal ≤ 2 ^ 100) :
    (∀ s : LowPass (Fl L), Silent (s.setCoefficients sr fc q)) ∧
    ∀ (s : LowPass ℝ) (c : ℝ), ConvergesTo (s.setCoefficients sr.toReal fc.toReal q.toReal) (fun _ => c) (fun _ => c) := by
  constructor
  · obtain ⟨wf, w0, w1⟩ := flAngle_small hsr hfc h1 h0.le hle
    have wabs : |(flAngle sr fc).toReal| ≤ 1 / 2 ^ 12 := by rwa [abs_of_nonneg w0]
    obtain ⟨cf, cv⟩ := hL.cos _ wf wabs
    obtain ⟨sf, sv⟩ := hL.sin _ wf wabs
    have s0 := hL.sin_nonneg _ wf w0 w1
    have s1 : (FloatOps.sin (flAngle sr fc)).toReal ≤ 1 := by
      have := (abs_le.mp sv).2
      rw [abs_of_nonneg w0] at this
      norm_num at this w1
      linarith
    have hq0 : 0 < q.toReal := lt_of_lt_of_le (by positivity) hq1
    obtain ⟨dfin, dval⟩ := mul_val (two_val (L := L)).1 hq (noOvf_of_le_emax (by
      rw [two_val.2, abs_of_pos (by positivity)]; norm_num [binary32] at hq2 ⊢; linarith))
    rw [two_val.2] at dval
    have dlo : 1 / 2 ^ 99 ≤ (two *. q).toReal := by
      rw [dval]
      apply le_rnd_of_le
      · have := isRep_two_zpow (f := binary32) (e := -99) (by norm_num [binary32])
        norm_num at this ⊢; exact this
      · norm_num at hq1 ⊢; linarith
    have d0 : 0 < (two *. q).toReal := lt_of_lt_of_le (by positivity) dlo
    have qle : (FloatOps.sin (flAngle sr fc)).toReal / (two *. q).toReal ≤ 2 ^ 99 := by
      rw [div_le_iff₀ d0]
      have : (2 : ℝ) ^ 99 * (1 / 2 ^ 99) ≤ 2 ^ 99 * (two *. q).toReal := mul_le_mul_of_nonneg_left dlo (by positivity)
      norm_num at this ⊢
      linarith
    have q0 : 0 ≤ (FloatOps.sin (flAngle sr fc)).toReal / (two *. q).toReal := div_nonneg s0 d0.le
    obtain ⟨af, av⟩ := div_val sf dfin d0.ne' (noOvf_of_le_emax (by
      rw [abs_of_nonneg q0]; norm_num [binary32] at qle ⊢; linarith))
    refine (C79_silent_where_cosine_is_one af ?_ ?_ cf).1 cv
    · show _ ≤ (FloatOps.sin (flAngle sr fc) /. (two *. q)).toReal
      rw [av]
      linarith [rnd_nonneg (f := binary32) q0]
    · show (FloatOps.sin (flAngle sr fc) /. (two *. q)).toReal ≤ _
      rw [av]
      apply rnd_le_of_le (isRep_two_zpow (by norm_num [binary32]))
      norm_num [binary32] at qle ⊢
      linarith
  · intro s c
    have hv : ValidParams sr.toReal fc.toReal q.toReal := ⟨h0, by linarith, lt_of_lt_of_le (by positivity) hq1⟩
    have := ((C39_end_gains hv).1 s).1 c
    simpa using this

/-- The hypotheses are met: 48 kHz, 1 Hz, `q = 1`, with a library that rounds correctly. -/
example : ∃ (L : Libm binary32) (sr fc q : Fl L), SmallAngle L ∧ sr.Finite ∧ fc.Finite ∧ q.Finite ∧ sr.toReal = 48000 ∧
    fc.toReal = 1 ∧ q.toReal = 1 ∧ (1 : ℝ) ≤ 48000 / 26000 := by
  let L : Libm binary32 :=
    { exp := id, cos := fun x => FP.ofReal binary32 false (Real.cos x.toReal),
      sin := fun x => FP.ofReal binary32 false (Real.sin x.toReal), log10 := id, powf := fun x _ => x }
  obtain ⟨a, ha⟩ := exists_of_isRep L (v := 48000) (by exact_mod_cast isRep_nat (f := binary32) (n := 48000) (by norm_num [binary32]))
    (by norm_num [Fmt.lim, binary32])
  exact ⟨L, a, one, one, SmallAngle.of_rounded (fun _ _ => rfl) (fun _ _ => rfl), ha.1, one_finite, one_finite, ha.2,
    one_toReal, one_toReal, by norm_num⟩

end f32

end Rasp
