import Verif.Model.Util
import Verif.Lemmas.WindowsFl
import Mathlib.Analysis.SpecialFunctions.Log.Base
import Mathlib.Analysis.SpecialFunctions.Pow.Real

/-! # C63–C67: src/util/mod.rs -/

namespace Rasp
open FloatOps

/-! ## Exact arithmetic -/

/-- The two outcomes of `to_db` in exact arithmetic (arguments `≥ 0` if the build is a debug build). -/
theorem toDb_real (b : Build) {s : ℝ} (hs : b.debug = true → 0 ≤ s) :
    (1e-6 < s → toDb b s = .ok (20 * Real.logb 10 s)) ∧ (s ≤ 1e-6 → toDb b s = .ok (-120)) := by
  have h0 : (b.debug && isSignNegative s) = false := by
    rw [Bool.and_eq_false_iff]
    by_cases hb : b.debug = true
    · right
      have : ¬ isSignNegative s = true := by rw [real_isSignNegative]; exact not_lt.mpr (hs hb)
      exact Bool.eq_false_of_not_eq_true this
    · left; simpa using hb
  constructor
  · intro h
    unfold toDb
    rw [h0, if_neg (by simp), if_pos]
    · simp only [real_ofF64, F64Const.evalR, real_mul, real_log10]; norm_num
    · rw [Bool.and_eq_true]
      refine ⟨?_, real_isFinite _⟩
      rw [real_lt, real_ofF64]; simp only [F64Const.evalR]; norm_num at h ⊢; exact h
  · intro h
    unfold toDb
    rw [h0, if_neg (by simp), if_neg]
    · simp only [real_ofF64, F64Const.evalR]; norm_num
    · rw [Bool.and_eq_true, real_lt, real_ofF64]; simp only [F64Const.evalR]; norm_num at h ⊢; exact h

theorem toSample_real (d : ℝ) :
    (-120 < d → toSample d = (10 : ℝ) ^ (d / 20)) ∧ (d ≤ -120 → toSample d = 0) := by
  constructor
  · intro h
    unfold toSample
    rw [if_pos]
    · simp only [real_ofF64, F64Const.evalR, real_powf, real_div]; norm_num
    · rw [Bool.and_eq_true]
      refine ⟨?_, real_isFinite _⟩
      rw [real_lt, real_ofF64]; simp only [F64Const.evalR]; norm_num; exact h
  · intro h
    unfold toSample
    rw [if_neg]
    · rfl
    · rw [Bool.and_eq_true, real_lt, real_ofF64]; simp only [F64Const.evalR]; norm_num; exact h

theorem logb_floor : Real.logb 10 (1e-6 : ℝ) = -6 := by
  rw [Real.logb_eq_iff_rpow_eq (by norm_num) (by norm_num) (by norm_num),
    show (-6 : ℝ) = ((-6 : ℤ) : ℝ) by norm_num, Real.rpow_intCast]
  norm_num

theorem lt_logb {s : ℝ} (h : 1e-6 < s) : -120 < 20 * Real.logb 10 s := by
  have := Real.logb_lt_logb (b := 10) (by norm_num) (by norm_num) h
  rw [logb_floor] at this
  linarith

theorem lt_rpow {d : ℝ} (h : -120 < d) : 1e-6 < (10 : ℝ) ^ (d / 20) := by
  have : (10 : ℝ) ^ (-6 : ℝ) < (10 : ℝ) ^ (d / 20) := Real.rpow_lt_rpow_of_exponent_lt (by norm_num) (by linarith)
  rw [show (-6 : ℝ) = ((-6 : ℤ) : ℝ) by norm_num, Real.rpow_intCast] at this
  norm_num at this ⊢
  exact this

/-- **C63.** -/
theorem C63_inverse (b : Build) :
    (∀ s : ℝ, 1e-6 < s → ∃ d, toDb b s = .ok d ∧ toSample d = s) ∧
    (∀ d : ℝ, -120 < d → toDb b (toSample d) = .ok d) := by
  constructor
  · intro s hs
    have hs0 : 0 < s := lt_trans (by norm_num) hs
    refine ⟨_, (toDb_real b fun _ => hs0.le).1 hs, ?_⟩
    rw [(toSample_real _).1 (lt_logb hs), mul_div_cancel_left₀ _ (by norm_num)]
    exact Real.rpow_logb (by norm_num) (by norm_num) hs0
  · intro d hd
    have h1 := lt_rpow hd
    rw [(toSample_real d).1 hd, (toDb_real b fun _ => by positivity).1 h1, Real.logb_rpow (by norm_num) (by norm_num)]
    congr 1; ring

/-- The reference point: full scale is 0 dB, a factor 10 is 20 dB. -/
example (b : Build) : toDb b (1 : ℝ) = .ok 0 ∧ toDb b (10 : ℝ) = .ok 20 ∧ toSample (0 : ℝ) = 1 := by
  refine ⟨?_, ?_, ?_⟩
  · rw [(toDb_real b (s := 1) (by norm_num)).1 (by norm_num)]; simp
  · rw [(toDb_real b (s := 10) (by norm_num)).1 (by norm_num), Real.logb_self_eq_one (by norm_num)]; norm_num
  · rw [(toSample_real 0).1 (by norm_num)]; simp

/-- **C65.** `to_db` is monotone (on non-negative samples in debug builds, on all samples in release builds), strictly
above the floor, and never below -120. -/
theorem C65_to_db (b : Build) (s t : ℝ) (hs : b.debug = true → 0 ≤ s) (h : s ≤ t) :
    ∃ d e, toDb b s = .ok d ∧ toDb b t = .ok e ∧ -120 ≤ d ∧ d ≤ e ∧ (s < t → 1e-6 < t → d < e) := by
  have ht : b.debug = true → 0 ≤ t := fun hb => (hs hb).trans h
  rcases le_or_gt s 1e-6 with h1 | h1 <;> rcases le_or_gt t 1e-6 with h2 | h2
  · exact ⟨_, _, (toDb_real b hs).2 h1, (toDb_real b ht).2 h2, le_rfl, le_rfl, fun _ h3 => absurd h3 (not_lt.mpr h2)⟩
  · have := lt_logb h2
    exact ⟨_, _, (toDb_real b hs).2 h1, (toDb_real b ht).1 h2, le_rfl, this.le, fun _ _ => this⟩
  · exact absurd (h1.trans_le h) (not_lt.mpr h2)
  · have hs0 : 0 < s := lt_trans (by norm_num) h1
    refine ⟨_, _, (toDb_real b hs).1 h1, (toDb_real b ht).1 h2, (lt_logb h1).le, ?_, fun hst _ => ?_⟩
    · have := Real.logb_le_logb_of_le (b := 10) (by norm_num) hs0 h; linarith
    · have := Real.logb_lt_logb (b := 10) (by norm_num) hs0 hst; linarith

/-- **C65.** `to_sample` is monotone, strictly above the floor, and never negative. -/
theorem C65_to_sample (d e : ℝ) (h : d ≤ e) :
    0 ≤ toSample d ∧ toSample d ≤ toSample e ∧ (d < e → -120 < e → toSample d < toSample e) := by
  rcases le_or_gt d (-120) with h1 | h1 <;> rcases le_or_gt e (-120) with h2 | h2
  · rw [(toSample_real d).2 h1, (toSample_real e).2 h2]
    exact ⟨le_rfl, le_rfl, fun _ h3 => absurd h3 (not_lt.mpr h2)⟩
  · rw [(toSample_real d).2 h1, (toSample_real e).1 h2]
    have : (0 : ℝ) < 10 ^ (e / 20) := by positivity
    exact ⟨le_rfl, this.le, fun _ _ => this⟩
  · linarith
  · rw [(toSample_real d).1 h1, (toSample_real e).1 h2]
    refine ⟨by positivity, Real.rpow_le_rpow_of_exponent_le (by norm_num) (by linarith), fun hde _ => ?_⟩
    exact Real.rpow_lt_rpow_of_exponent_lt (by norm_num) (by linarith)

/-- **C66.** -/
theorem C66_additive (b : Build) (s d : ℝ) (hs : 1e-6 < s) (hd : -120 < d) (hr : 1e-6 < s * 10 ^ (d / 20)) :
    ∃ g y u v, g = toSample d ∧ applyGain b s g = .ok y ∧ toDb b y = .ok u ∧ toDb b s = .ok v ∧ u = v + d := by
  have hs0 : 0 < s := lt_trans (by norm_num) hs
  have hg : (0 : ℝ) < 10 ^ (d / 20) := by positivity
  have hgain : applyGain b s ((10 : ℝ) ^ (d / 20)) = .ok (s * 10 ^ (d / 20)) := by
    unfold applyGain
    have : (b.debug && !(isFinite ((10 : ℝ) ^ (d / 20)) && !isSignNegative ((10 : ℝ) ^ (d / 20)))) = false := by
      have h1 : isSignNegative ((10 : ℝ) ^ (d / 20)) = false := by
        have : ¬ isSignNegative ((10 : ℝ) ^ (d / 20)) = true := by rw [real_isSignNegative]; exact not_lt.mpr hg.le
        exact Bool.eq_false_of_not_eq_true this
      rw [h1, real_isFinite]; simp
    rw [this, if_neg (by simp)]; rfl
  refine ⟨_, _, _, _, rfl, by rw [(toSample_real d).1 hd]; exact hgain, (toDb_real b fun _ => by positivity).1 hr,
    (toDb_real b fun _ => hs0.le).1 hs, ?_⟩
  rw [Real.logb_mul hs0.ne' hg.ne', Real.logb_rpow (by norm_num) (by norm_num)]
  ring

/-- The hypotheses are satisfiable: half scale, +20 dB. -/
example : (1e-6 : ℝ) < 0.5 ∧ (-120 : ℝ) < 20 ∧ (1e-6 : ℝ) < 0.5 * 10 ^ ((20 : ℝ) / 20) := by norm_num

/-! ## IEEE arithmetic -/

variable {f : Fmt} {L : Libm f}

/-- The constants of the module are exact in every format with at least 7 bits (f32 and f64 in particular). -/
theorem int_const (hp : 7 ≤ f.p) {z : ℤ} (hz : |z| ≤ 127) :
    (ofF64 (.lit (z : ℚ)) : Fl L).Finite ∧ (ofF64 (.lit (z : ℚ)) : Fl L).toReal = z := by
  have hz' : |(z : ℝ)| ≤ 127 := by exact_mod_cast hz
  have r : ∀ g : Fmt, 7 ≤ g.p → IsRep g (z : ℝ) ∧ |(z : ℝ)| < g.lim := by
    intro g hg
    constructor
    · apply isRep_int
      calc |z| ≤ 2 ^ 7 := by omega
        _ ≤ 2 ^ g.p := pow_le_pow_right₀ (by norm_num) hg
    · have : (2 : ℝ) ^ (7 : ℤ) ≤ g.lim := zpow_le_zpow_right₀ (by norm_num) (by have := g.hemax; omega)
      norm_num at this; linarith
  obtain ⟨r1, l1⟩ := r binary64 (by norm_num [binary64])
  obtain ⟨h1, h2⟩ := FP.ofReal_exact (f := binary64) (s := false) r1 l1
  obtain ⟨s, a, ha, e⟩ := FP.finite_cases h1
  have hc : (ofF64 (.lit (z : ℚ)) : Fl L) = FP.ofReal f s (z : ℝ) := by
    show FP.conv f (FP.ofReal binary64 false ((z : ℚ) : ℝ)) = _
    rw [show ((z : ℚ) : ℝ) = (z : ℝ) by push_cast; rfl]
    rw [e]
    show FP.ofReal f s (FP.toReal (FP.fin s a ha)) = _
    rw [← e, h2]
  rw [hc]
  obtain ⟨r2, l2⟩ := r f hp
  exact FP.ofReal_exact r2 l2

/-- The `1e-6` of `to_db`, as a float. -/
theorem floor_const : (ofF64 (.lit (1 / 1000000)) : Fl L).Finite ∧
    (ofF64 (.lit (1 / 1000000)) : Fl L).toReal = rnd f (rnd binary64 (1 / 1000000)) := by
  have hle : |(1 / 1000000 : ℝ)| ≤ 1 := by norm_num [abs_le]
  obtain ⟨h1, h2⟩ := FP.ofReal_of_noOvf (f := binary64) (s := false)
    (FP.noOvf_of_le (isRep_one binary64) (FP.one_lt_lim binary64) hle)
  obtain ⟨s, a, ha, e⟩ := FP.finite_cases h1
  have hc : (ofF64 (.lit (1 / 1000000)) : Fl L) = FP.ofReal f s (rnd binary64 (1 / 1000000)) := by
    show FP.conv f (FP.ofReal binary64 false ((1 / 1000000 : ℚ) : ℝ)) = _
    rw [show ((1 / 1000000 : ℚ) : ℝ) = 1 / 1000000 by push_cast; rfl]
    rw [e]
    show FP.ofReal f s (FP.toReal (FP.fin s a ha)) = _
    rw [← e, h2]
  rw [hc]
  exact FP.ofReal_of_noOvf
    (FP.noOvf_of_le (isRep_one f) (FP.one_lt_lim f) (abs_rnd_le_of_le (isRep_one binary64) hle))

theorem IsRep.mono {f g : Fmt} (hp : f.p ≤ g.p) (he : g.emin ≤ f.emin) {x : ℝ} (h : IsRep f x) : IsRep g x := by
  obtain ⟨m, e, h1, h2, h3⟩ := h
  exact ⟨m, e, h1.trans_le (pow_le_pow_right₀ (by norm_num) hp), he.trans h2, h3⟩

/-- **C64.** `to_db` in IEEE arithmetic: every sample that is NaN, infinite or at most 1e-6 gives exactly -120 (samples with
the sign bit set only in release builds, see C67). -/
theorem C64_to_db_floor (hp : 7 ≤ f.p) (hp' : f.p ≤ 53) (he : -1074 ≤ f.emin) (b : Build) (x : Fl L)
    (hs : b.debug = true → isSignNegative x = false) (hx : x.Finite → x.toReal ≤ 1e-6) :
    ∃ y : Fl L, toDb b x = .ok y ∧ y.Finite ∧ y.toReal = -120 := by
  have hc := int_const (L := L) hp (z := -120) (by norm_num)
  refine ⟨_, ?_, by exact_mod_cast hc.1, by exact_mod_cast hc.2⟩
  unfold toDb
  rw [if_neg, if_neg]
  · norm_num
  · rw [Bool.and_eq_true, Fl.isFinite_iff]
    rintro ⟨h1, h2⟩
    obtain ⟨c1, c2⟩ := floor_const (L := L)
    rw [Fl.lt_iff c1 h2, c2] at h1
    have hr : IsRep f x.toReal := Fl.isRep_toReal x
    have hr64 : IsRep binary64 x.toReal := hr.mono hp' he
    have : x.toReal ≤ 1 / 1000000 := by have := hx h2; norm_num at this ⊢; exact this
    exact absurd (le_rnd_of_le hr (le_rnd_of_le hr64 this)) (not_le.mpr h1)
  · rw [Bool.and_eq_true]
    rintro ⟨h1, h2⟩
    rw [hs h1] at h2; simp at h2

/-- **C64.** Above the rounded threshold `to_db` is `20 * log10`, with an exact 20; so the floor applies to nothing else. -/
theorem C64_to_db_above (hp : 7 ≤ f.p) (b : Build) (x : Fl L) (hs : b.debug = true → isSignNegative x = false)
    (hf : x.Finite) (hx : rnd f (rnd binary64 (1 / 1000000)) < x.toReal) :
    ∃ c : Fl L, c.Finite ∧ c.toReal = 20 ∧ toDb b x = .ok (c *. log10 x) := by
  have hc := int_const (L := L) hp (z := 20) (by norm_num)
  refine ⟨_, by exact_mod_cast hc.1, by exact_mod_cast hc.2, ?_⟩
  unfold toDb
  obtain ⟨c1, c2⟩ := floor_const (L := L)
  rw [if_neg, if_pos]
  · rw [Bool.and_eq_true, Fl.isFinite_iff, Fl.lt_iff c1 hf, c2]
    exact ⟨hx, hf⟩
  · rw [Bool.and_eq_true]
    rintro ⟨h1, h2⟩
    rw [hs h1] at h2; simp at h2

/-- **C64.** `to_sample` in IEEE arithmetic: every value that is NaN, infinite or at most -120 gives `+0`; all others give
`10.powf(value/20)`. -/
theorem C64_to_sample (hp : 7 ≤ f.p) (x : Fl L) :
    ((x.Finite → x.toReal ≤ -120) → toSample x = zero) ∧
    (x.Finite → -120 < x.toReal → ∃ ten twenty : Fl L, ten.Finite ∧ ten.toReal = 10 ∧ twenty.Finite ∧ twenty.toReal = 20 ∧
      toSample x = powf ten (x /. twenty)) := by
  have hc := int_const (L := L) hp (z := -120) (by norm_num)
  have h10 := int_const (L := L) hp (z := 10) (by norm_num)
  have h20 := int_const (L := L) hp (z := 20) (by norm_num)
  norm_num at hc h10 h20
  constructor
  · intro hx
    unfold toSample
    rw [if_neg]
    rw [Bool.and_eq_true, Fl.isFinite_iff]
    rintro ⟨h1, h2⟩
    rw [Fl.lt_iff hc.1 h2, hc.2] at h1
    exact absurd (hx h2) (not_le.mpr h1)
  · intro hf hx
    refine ⟨_, _, h10.1, h10.2, h20.1, h20.2, ?_⟩
    unfold toSample
    rw [if_pos]
    rw [Bool.and_eq_true, Fl.isFinite_iff, Fl.lt_iff hc.1 hf, hc.2]
    exact ⟨hx, hf⟩

/-- **C64.** The floor values map to each other. -/
theorem C64_floors (hp : 7 ≤ f.p) (hp' : f.p ≤ 53) (he : -1074 ≤ f.emin) (b : Build) :
    ∃ m : Fl L, m.Finite ∧ m.toReal = -120 ∧ toSample m = zero ∧ toDb b (zero : Fl L) = .ok m := by
  have hc := int_const (L := L) hp (z := -120) (by norm_num)
  norm_num at hc
  refine ⟨_, hc.1, hc.2, (C64_to_sample hp _).1 fun _ => hc.2.le, ?_⟩
  have hs : isSignNegative (zero : Fl L) = false := FP.signBit_ofReal_zero false
  obtain ⟨y, h1, h2, h3⟩ := C64_to_db_floor hp hp' he b (zero : Fl L) (fun _ => hs) (fun _ => by norm_num)
  rw [h1]
  congr 1
  exact Fl.ext_of_ne h2 hc.1 (h3.trans hc.2.symm) (by rw [h3]; norm_num)

/-- f32 and f64 meet the assumptions. -/
example : (7 ≤ binary32.p ∧ binary32.p ≤ 53 ∧ -1074 ≤ binary32.emin) ∧
    (7 ≤ binary64.p ∧ binary64.p ≤ 53 ∧ -1074 ≤ binary64.emin) := by norm_num [binary32, binary64]

/-- **C67.** Debug builds: `to_db` panics exactly on a set sign bit, `apply_gain` exactly on a ratio that is not finite or
has the sign bit set. Release builds: never; and otherwise `apply_gain` is the product. -/
theorem C67_assertions (x r : Fl L) :
    (toDb ⟨true⟩ x = .error .panic ↔ isSignNegative x = true) ∧
    (applyGain ⟨true⟩ x r = .error .panic ↔ ¬ r.Finite ∨ isSignNegative r = true) ∧
    (∃ y, toDb ⟨false⟩ x = .ok y) ∧ applyGain ⟨false⟩ x r = .ok (x *. r) ∧
    (r.Finite → isSignNegative r = false → applyGain ⟨true⟩ x r = .ok (x *. r)) := by
  refine ⟨?_, ?_, ?_, rfl, ?_⟩
  · unfold toDb
    cases h : isSignNegative x
    · simp only [Bool.and_false, Bool.false_eq_true, if_false, iff_false]
      split <;> simp
    · simp
  · unfold applyGain
    rw [← Fl.isFinite_iff]
    cases h : isSignNegative r <;> cases h' : isFinite r <;> simp
  · unfold toDb
    simp only [Bool.false_and, Bool.false_eq_true, if_false]
    split
    · exact ⟨_, rfl⟩
    · exact ⟨_, rfl⟩
  · intro h1 h2
    unfold applyGain
    rw [Fl.isFinite_iff.mpr h1, h2]
    rfl

/-- **C67.** In particular `to_db` panics on `-0.0`, on negative NaN and on negative infinity, but not on `NaN` and
`+∞` (they give -120, C64). -/
theorem C67_special :
    toDb ⟨true⟩ (neg zero : Fl L) = .error .panic ∧ toDb ⟨true⟩ (Fl.nan L true) = .error .panic ∧
    toDb ⟨true⟩ (Fl.inf L true) = .error .panic ∧ (∃ y, toDb ⟨true⟩ (Fl.nan L false) = .ok y) ∧
    (∃ y, toDb ⟨true⟩ (Fl.inf L false) = .ok y) := by
  refine ⟨(C67_assertions _ zero).1.mpr ?_, (C67_assertions _ zero).1.mpr rfl, (C67_assertions _ zero).1.mpr rfl, ?_, ?_⟩
  · show FP.signBit (FP.neg (FP.ofReal f false 0)) = true
    rw [FP.signBit_neg, FP.signBit_ofReal_zero]; rfl
  · refine ⟨ofF64 (.lit (-120)), ?_⟩
    unfold toDb
    rw [if_neg (by rintro h; exact absurd (Bool.and_eq_true _ _ ▸ h).2 (by show ¬ (false = true); simp)), if_neg]
    rw [Bool.and_eq_true]
    rintro ⟨_, h⟩; exact absurd h (by show ¬ (false = true); simp)
  · refine ⟨ofF64 (.lit (-120)), ?_⟩
    unfold toDb
    rw [if_neg (by rintro h; exact absurd (Bool.and_eq_true _ _ ▸ h).2 (by show ¬ (false = true); simp)), if_neg]
    rw [Bool.and_eq_true]
    rintro ⟨_, h⟩; exact absurd h (by show ¬ (false = true); simp)

end Rasp
