import Verif.Lemmas.Near
import Verif.Props.Util
import Mathlib.Analysis.SpecialFunctions.Log.Deriv
import Mathlib.Analysis.SpecialFunctions.Pow.Real
import Mathlib.Analysis.Complex.ExponentialBounds

/-!
# Rounding errors of the coefficients of Peak
-/

namespace Rasp
open FloatOps Fl
variable {f : Fmt} {L : Libm f} {k U G R : ℝ} {sr fc q db slope : Fl L}

/-- `a` as computed. -/
noncomputable abbrev flGain (db : Fl L) : Fl L := powf (ofF64 (.lit 10)) (db /. ofF64 (.lit 40))

theorem log_ten_le : Real.log 10 ≤ 2.78 := by
  have h1 : Real.log 10 ≤ Real.log (2 ^ 4) := Real.log_le_log (by norm_num) (by norm_num)
  rw [Real.log_pow] at h1
  have := Real.log_two_lt_d9
  norm_num at h1 ⊢
  linarith

/-- Unit, gain and bandwidth against the format. -/
structure Ctx (f : Fmt) (U G R : ℝ) : Prop where
  hu : f.u ≤ U
  hG : 1 ≤ G
  hR : 0 ≤ R
  big : 3600 * (U * (G ^ 4 * (1 + R))) ≤ 1
  tiny : 1000 * (G ^ 4 * f.tiny) ≤ f.u
  emax : 8 ≤ f.u * 2 ^ f.emax

theorem Ctx.mk' (hf : f.Roomy) (hu : f.u ≤ U) (hG : 1 ≤ G) (hR : 0 ≤ R) (hb : 3600 * (U * (G ^ 4 * (1 + R))) ≤ 1) : Ctx f U G R := by
  refine ⟨hu, hG, hR, hb, ?_, hf.emax⟩
  have hu0 := f.u_pos
  have hU0 : 0 < U := by linarith
  have hG4 : 1 ≤ G ^ 4 := one_le_pow₀ hG
  have h1 : 3600 * (U * G ^ 4) ≤ 1 := by
    have : 0 ≤ U * G ^ 4 * R := by positivity
    linarith
  have h2 : f.u * (G ^ 4) ≤ U * G ^ 4 := mul_le_mul_of_nonneg_right hu (by positivity)
  have h3 : f.u ≤ U * G ^ 4 := by nlinarith
  have h4 : G ^ 4 * f.tiny ≤ G ^ 4 * f.u ^ 3 := mul_le_mul_of_nonneg_left hf.tiny (by positivity)
  have h5 : f.u ^ 2 * (f.u * G ^ 4) ≤ f.u ^ 2 * (1 / 3600) := mul_le_mul_of_nonneg_left (by linarith) (by positivity)
  nlinarith

theorem Ctx.small (h : Ctx f U G R) : 3600 * U ≤ 1 ∧ 3600 * (U * G) ≤ 1 ∧ 3600 * (U * (G ^ 2 * (1 + R))) ≤ 1 := by
  have hb := h.big
  have hG := h.hG
  have hR := h.hR
  have hU0 : 0 < U := f.u_pos.trans_le h.hu
  have g1 : G ≤ G ^ 4 := le_self_pow₀ hG (by norm_num)
  have g2 : G ^ 2 ≤ G ^ 4 := pow_le_pow_right₀ hG (by norm_num)
  have g0 : 1 ≤ G ^ 4 := one_le_pow₀ hG
  have r : G ^ 4 ≤ G ^ 4 * (1 + R) := le_mul_of_one_le_right (by positivity) (by linarith)
  refine ⟨?_, ?_, ?_⟩
  · have := mul_le_mul_of_nonneg_left (g0.trans r) hU0.le; linarith
  · have := mul_le_mul_of_nonneg_left (g1.trans r) hU0.le; linarith
  · have := mul_le_mul_of_nonneg_left (mul_le_mul_of_nonneg_right g2 (show 0 ≤ 1 + R by linarith)) hU0.le; linarith

theorem Ctx.fits (h : Ctx f U G R) {T : ℝ} (h1 : 1 ≤ 2 * (G ^ 4 * T)) (h2 : T ≤ 14000 * (G ^ 4 * (1 + R))) : f.Fits T := by
  have hu0 := f.u_pos
  have hG4 : 0 < G ^ 4 := by have := h.hG; positivity
  have ht := h.tiny
  constructor
  · have : f.u * 1 ≤ f.u * (2 * (G ^ 4 * T)) := mul_le_mul_of_nonneg_left h1 hu0.le
    have : 500 * f.tiny * G ^ 4 ≤ f.u * T * G ^ 4 := by linarith
    exact le_of_mul_le_mul_right this hG4
  · have hb := h.big
    have e := h.emax
    have h3 : f.u * (G ^ 4 * (1 + R)) ≤ U * (G ^ 4 * (1 + R)) := mul_le_mul_of_nonneg_right h.hu (by have := h.hR; positivity)
    have h4 := mul_le_mul_of_nonneg_left h2 hu0.le
    have : f.u * (2 * T) ≤ f.u * 2 ^ f.emax := by linarith
    exact le_of_mul_le_mul_left this hu0

theorem Ctx.fits_small (hC : Ctx f U G R) (hf : f.Roomy) {T : ℝ} (t1 : f.u ≤ 2 * (G * T)) (t2 : T ≤ 4 * (G * (1 + R))) : f.Fits T := by
  have hu := hC.hu
  have hu0 := f.u_pos
  have hG := hC.hG
  have hR := hC.hR
  have s2 := hC.small.2.1
  have hG4 : G ≤ G ^ 4 := le_self_pow₀ hG (by norm_num)
  constructor
  · have h1 := hf.tiny
    have h2 : 0 < G * T := by linarith
    have hT : 0 < T := (pos_iff_pos_of_mul_pos h2).mp (by linarith)
    have h3 : f.u * G ≤ U * G := mul_le_mul_of_nonneg_right hu (by linarith)
    have h4 : f.u * f.u ≤ f.u * (2 * (G * T)) := mul_le_mul_of_nonneg_left t1 hu0.le
    have h5 : f.u * (f.u * f.u) ≤ f.u * (f.u * (2 * (G * T))) := mul_le_mul_of_nonneg_left h4 hu0.le
    have h6 : f.u * G * (f.u * T) ≤ 1 / 3600 * (f.u * T) := mul_le_mul_of_nonneg_right (by linarith) (by positivity)
    have h7 : 0 < f.u * T := by positivity
    nlinarith
  · have hb := hC.big
    have e := hC.emax
    have h3 : f.u * (G ^ 4 * (1 + R)) ≤ U * (G ^ 4 * (1 + R)) := mul_le_mul_of_nonneg_right hu (by positivity)
    have h4 := mul_le_mul_of_nonneg_left t2 hu0.le
    have h5 := mul_le_mul_of_nonneg_left (mul_le_mul_of_nonneg_right hG4 (show 0 ≤ 1 + R by linarith)) hu0.le
    have : f.u * (2 * T) ≤ f.u * 2 ^ f.emax := by linarith
    exact le_of_mul_le_mul_left this hu0

theorem gain_near (hP : AccuratePow L k) (hk : 0 ≤ k) (hp : 7 ≤ f.p) (h : Ctx f ((k + 1) * f.u) G R) (hdb : db.Finite) (hd : |db.toReal| ≤ 120) :
    Near ((k + 1) * f.u) (flGain db) (gainA db.toReal) 18 (gainA db.toReal) := by
  have hu0 := f.u_pos
  have ht0 := f.tiny_pos
  have hA := gainA_pos db.toReal
  have hu1 : 3600 * f.u ≤ 1 := by have := h.small.1; nlinarith
  have ht : 1000 * f.tiny ≤ f.u := by
    have := h.tiny
    have : 1 ≤ G ^ 4 := one_le_pow₀ h.hG
    nlinarith
  obtain ⟨c1, c2⟩ := int_const (L := L) hp (z := 40) (by norm_num)
  have c1' : (ofF64 (.lit 40) : Fl L).Finite := c1
  have c2' : (ofF64 (.lit 40) : Fl L).toReal = 40 := by have := c2; push_cast at this; exact this
  have hx : |db.toReal / 40| ≤ 3 := by rw [abs_div]; norm_num; linarith
  have he : 8 ≤ (2 : ℝ) ^ f.emax := by have := h.emax; nlinarith
  obtain ⟨d1, d2⟩ := div_val hdb c1' (by rw [c2']; norm_num) (by rw [c2']; exact noOvf_of_le_emax (by linarith))
  rw [c2'] at d2
  have hδ := abs_rnd_sub_le_u f (db.toReal / 40)
  have hδ' : |(db /. ofF64 (.lit 40)).toReal - db.toReal / 40| ≤ 3.01 * f.u := by rw [d2]; nlinarith
  obtain ⟨x, hxd⟩ : ∃ x, x = (db /. ofF64 (.lit 40)).toReal := ⟨_, rfl⟩
  rw [← hxd] at hδ'
  have hx4 : |x| ≤ 4 := by
    have := abs_add_le (x - db.toReal / 40) (db.toReal / 40)
    rw [sub_add_cancel] at this; linarith
  obtain ⟨p1, p2⟩ := hP.powf (db /. ofF64 (.lit 40)) d1 (by rw [← hxd]; exact hx4)
  rw [← hxd] at p2
  have hl := log_ten_le
  have hl0 : 0 < Real.log 10 := Real.log_pos (by norm_num)
  have e : (10 : ℝ) ^ x = gainA db.toReal * Real.exp (Real.log 10 * (x - db.toReal / 40)) := by
    rw [gainA, Real.rpow_def_of_pos (by norm_num), Real.rpow_def_of_pos (by norm_num), ← Real.exp_add]
    congr 1; ring
  have m1 : |Real.log 10 * (x - db.toReal / 40)| ≤ 8.4 * f.u := by
    rw [abs_mul, abs_of_pos hl0]
    have := mul_le_mul hl hδ' (abs_nonneg _) (by norm_num)
    linarith
  have m2 := Real.abs_exp_sub_one_le (x := Real.log 10 * (x - db.toReal / 40)) (by linarith)
  have m3 : |(10 : ℝ) ^ x - gainA db.toReal| ≤ 16.8 * f.u * gainA db.toReal := by
    rw [e, show gainA db.toReal * Real.exp (Real.log 10 * (x - db.toReal / 40)) - gainA db.toReal =
      (Real.exp (Real.log 10 * (x - db.toReal / 40)) - 1) * gainA db.toReal by ring, abs_mul, abs_of_pos hA]
    exact mul_le_mul_of_nonneg_right (by linarith) hA.le
  refine ⟨⟨p1, ?_⟩, by rw [abs_of_pos hA]⟩
  have t := abs_add_le ((flGain db).toReal - 10 ^ x) (10 ^ x - gainA db.toReal)
  rw [sub_add_sub_cancel] at t
  have m4 : (10 : ℝ) ^ x ≤ 1.01 * gainA db.toReal := by
    have := (abs_le.mp m3).2; nlinarith
  have m5 : k * f.u * 10 ^ x ≤ k * f.u * (1.01 * gainA db.toReal) := mul_le_mul_of_nonneg_left m4 (by positivity)
  have : 0 ≤ k * f.u * gainA db.toReal := by positivity
  have : 0 ≤ f.u * gainA db.toReal := by positivity
  nlinarith

theorem trig_near (hL : AccurateTrig L k) (hf : f.Roomy) (h : Ctx f ((k + 1) * f.u) G R) (h1 : sr.Finite) (h2 : fc.Finite)
    (hsr : 1 ≤ sr.toReal) (hmax : 8 * sr.toReal ≤ 2 ^ f.emax) (hc0 : 0 < fc.toReal) (hc : fc.toReal < sr.toReal / 2) (hk : 0 ≤ k) :
    Near ((k + 1) * f.u) (cos (flAngle sr fc)) (Real.cos (angle sr.toReal fc.toReal)) 14 1 ∧
    Near ((k + 1) * f.u) (sin (flAngle sr fc)) (Real.sin (angle sr.toReal fc.toReal)) 14 1 := by
  have hu0 := f.u_pos
  have hu1 : f.u ≤ 1 / 64 := by have := h.small.1; nlinarith
  have aw := angle_approx hf hu1 h1 h2 hsr hmax hc0 (by linarith)
  have hπ := Real.pi_pos
  obtain ⟨ac, as⟩ := trig_approx hL hu1 aw (by unfold angle; positivity) (by
    unfold angle
    rw [div_le_iff₀ (by linarith)]
    nlinarith)
  have : 0 ≤ k * f.u := by positivity
  exact ⟨⟨ac.le (by nlinarith), Real.abs_cos_le_one _⟩, ⟨as.le (by nlinarith), Real.abs_sin_le_one _⟩⟩

theorem near_one : Near U (one : Fl L) 1 0 1 := ⟨by simpa using Approx.one, by simp⟩
theorem near_two : Near U (two : Fl L) 2 0 2 := ⟨by simpa using Approx.two, by simp⟩

/-- Error of the coefficients of Peak and the shelves. -/
noncomputable def gainErr (f : Fmt) (k G R : ℝ) : ℝ := 660 * ((k + 1) * f.u) * (G ^ 4 * (1 + R))

/-- The gain is between `1/G` and `G`. -/
structure GainIn (db : ℝ) (G : ℝ) : Prop where
  le : gainA db ≤ G
  ge : 1 ≤ gainA db * G

theorem GainIn.one_le {db : ℝ} (h : GainIn db G) : 1 ≤ G := by
  have := gainA_pos db
  have h1 := h.le
  have h2 := h.ge
  by_contra hG
  rw [not_le] at hG
  nlinarith

/-- Parameters of Peak for which the precision suffices. -/
structure PeakResolved (k G : ℝ) (sr fc db q : Fl L) : Prop where
  hsr : sr.Finite ∧ 1 ≤ sr.toReal ∧ 8 * sr.toReal ≤ 2 ^ f.emax
  hfc : fc.Finite
  hdb : db.Finite ∧ |db.toReal| ≤ 120
  gain : GainIn db.toReal G
  hq : q.Finite ∧ q.toReal ≤ 2 ^ f.p
  valid : ValidParams sr.toReal fc.toReal q.toReal
  margin : 8 * gainErr f k G (1 / (2 * q.toReal)) ≤ rbjMargin sr.toReal fc.toReal (q.toReal * gainA db.toReal)

theorem PeakResolved.valid' (h : PeakResolved k G sr fc db q) : ValidParams sr.toReal fc.toReal (q.toReal * gainA db.toReal) :=
  ⟨h.valid.1, h.valid.2.1, mul_pos h.valid.2.2 (gainA_pos _)⟩

theorem PeakResolved.ctx (h : PeakResolved k G sr fc db q) (hf : f.Roomy) (hk : 0 ≤ k) : Ctx f ((k + 1) * f.u) G (1 / (2 * q.toReal)) := by
  have hq : 0 < q.toReal := h.valid.2.2
  have hu := f.u_pos
  refine .mk' hf (by nlinarith [mul_nonneg hk hu.le]) h.gain.one_le (by positivity) ?_
  have h1 := h.margin
  have h2 := (rbj_poleMargin h.valid').le_one
  unfold gainErr at h1
  have : 0 ≤ (k + 1) * f.u * (G ^ 4 * (1 + 1 / (2 * q.toReal))) := by positivity
  linarith

/-- Quotients of Peak from a gain, a cosine and a bandwidth. -/
theorem peak_near {H A α x : ℝ} {a c al : Fl L} (hf : f.Roomy) (hC : Ctx f U G H) (nA : Near U a A 18 A) (nc : Near U c x 14 1)
    (nα : Near U al α 19 H) (gle : A ≤ G) (gge : 1 ≤ A * G) (hA : 0 < A) (hα : 0 < α) (hHu : f.u / 2 ≤ H) :
    Approx ((one +. al *. a) /. (one +. al /. a)) ((1 + α * A) / (1 + α / A)) (450 * U * (G ^ 4 * (1 + H))) ∧
    Approx (neg two *. c /. (one +. al /. a)) (-2 * x / (1 + α / A)) (450 * U * (G ^ 4 * (1 + H))) ∧
    Approx ((one -. al *. a) /. (one +. al /. a)) ((1 - α * A) / (1 + α / A)) (450 * U * (G ^ 4 * (1 + H))) ∧
    Approx ((one -. al /. a) /. (one +. al /. a)) ((1 - α / A) / (1 + α / A)) (450 * U * (G ^ 4 * (1 + H))) := by
  have hu := hC.hu
  have hu0 := f.u_pos
  obtain ⟨s1, s2, s3⟩ := hC.small
  have hG := hC.hG
  have hU0 : 0 < U := by linarith
  have hH0 : 0 < H := by linarith
  have hG4 : G ≤ G ^ 4 := le_self_pow₀ hG (by norm_num)
  have hG4' : 1 ≤ G ^ 4 := one_le_pow₀ hG
  have hG3 : G ^ 3 ≤ G ^ 4 := pow_le_pow_right₀ hG (by norm_num)
  have hG2 : G ^ 2 ≤ G ^ 4 := pow_le_pow_right₀ hG (by norm_num)
  have fits := fun {T : ℝ} => hC.fits_small hf (T := T)
  have αH : α ≤ H := by have := nα.le; rwa [abs_of_pos hα] at this
  have HG : H ≤ G * H := le_mul_of_one_le_left hH0.le hG
  have HA : H * A ≤ G * H := by nlinarith
  have HA' : H / A ≤ G * H := by rw [div_le_iff₀ hA]; nlinarith
  have αA' : 0 < α / A := by positivity
  have αA : 0 < α * A := by positivity
  have hHAp : 0 < H * A := by positivity
  have hHAp' : 0 < H / A := by positivity
  have nαA : Near U (al *. a) (α * A) 39 (H * A) := by
    have := nα.mul nA hu (fits ?_ ?_) (by norm_num) (by norm_num) (by linarith) (by linarith)
    · norm_num at this; exact this
    · have := mul_le_mul_of_nonneg_left gge hH0.le
      linarith
    · linarith
  have nαA' : Near U (al /. a) (α / A) 47 (H / A) := by
    have e2 : |α / A| ≤ H / A := by rw [abs_of_pos αA']; exact div_le_div_of_nonneg_right αH hA.le
    refine nα.div nA hu (g := 1) (τ := H / A) (M := H / A) hA (by linarith) (by rw [div_mul_cancel₀ _ hA.ne']) e2 le_rfl (fits ?_ ?_) (by norm_num) (by norm_num)
      (by linarith) (by linarith) (by linarith)
    · have : H ≤ G * (H / A) := by rw [mul_div_assoc', le_div_iff₀ hA]; nlinarith
      linarith
    · linarith
  have fit1 : ∀ {T : ℝ}, 0 < T → T ≤ G * H → f.Fits (1 + T) := fun {T} h0 h1 => fits (by nlinarith) (by linarith)
  have αA1 : α * A ≤ H * A := mul_le_mul_of_nonneg_right αH hA.le
  have αA1' : α / A ≤ H / A := div_le_div_of_nonneg_right αH hA.le
  have nb0 : Near U (one +. al *. a) (1 + α * A) 50 (1 + H * A) :=
    near_one.add nαA hu (by rw [abs_of_pos (by linarith)]; linarith) (fit1 hHAp HA) (by linarith) (by linarith)
  have nb2 : Near U (one -. al *. a) (1 - α * A) 50 (1 + H * A) :=
    near_one.sub nαA hu (by rw [abs_le]; constructor <;> linarith) (fit1 hHAp HA) (by linarith) (by linarith)
  have na0 : Near U (one +. al /. a) (1 + α / A) 50 (1 + H / A) :=
    near_one.add nαA' hu (by rw [abs_of_pos (by linarith)]; linarith) (fit1 hHAp' HA') (by linarith) (by linarith)
  have na2 : Near U (one -. al /. a) (1 - α / A) 50 (1 + H / A) :=
    near_one.sub nαA' hu (by rw [abs_le]; constructor <;> linarith) (fit1 hHAp' HA') (by linarith) (by linarith)
  have nb1 : Near U (neg two *. c) (-2 * x) 16 2 := by
    have := near_two.neg.mul nc hu (by rw [mul_one]; exact fits (by linarith) (by nlinarith)) (by norm_num) (by norm_num) (by norm_num) (by linarith)
    norm_num at this
    rwa [show -2 * x = -(2 * x) by ring]
  have hbig := hC.big
  have hW1 : 1 ≤ G ^ 4 * (1 + H) := one_le_mul_of_one_le_of_one_le hG4' (by linarith)
  have hfin : f.Fits (2 * (G ^ 4 * (1 + H))) := hC.fits (by nlinarith) (by linarith)
  have AA : α * A ≤ G ^ 2 * (α / A) := by
    rw [mul_div_assoc', le_div_iff₀ hA]
    have : A * A ≤ G ^ 2 := by nlinarith
    nlinarith
  have hW : 0 < 1 + H := by linarith
  have hGW : G * (1 + H) ≤ G ^ 4 * (1 + H) := mul_le_mul_of_nonneg_right hG4 hW.le
  have hGW3 : G ^ 3 * (1 + H) ≤ G ^ 4 * (1 + H) := mul_le_mul_of_nonneg_right hG3 hW.le
  have hGW2 : G * (1 + H) ≤ G ^ 2 * (1 + H) := mul_le_mul_of_nonneg_right (by nlinarith) hW.le
  have hU3 := mul_le_mul_of_nonneg_left hGW2 hU0.le
  have hG0 : 0 < G * (1 + H) := by positivity
  have hGα : G * (1 + H) ≤ G * (1 + H) * (1 + α / A) := le_mul_of_one_le_right hG0.le (by linarith)
  have hMQ : 2 * G ^ 2 ≤ 2 * (G ^ 4 * (1 + H)) := by
    have : G ^ 4 ≤ G ^ 4 * (1 + H) := le_mul_of_one_le_right (by positivity) (by linarith)
    linarith
  have quot : ∀ {n : Fl L} {t T : ℝ}, Near U n t 50 T → T ≤ 2 * (G * (1 + H)) → |t| ≤ 2 * G ^ 2 * (1 + α / A) →
      Approx (n /. (one +. al /. a)) (t / (1 + α / A)) (450 * U * (G ^ 4 * (1 + H))) := by
    intro n t T hn hT ht
    refine ((hn.div na0 hu (g := G * (1 + H)) (τ := 2 * (G * (1 + H))) (M := 2 * G ^ 2) (c := 225) (Q := 2 * (G ^ 4 * (1 + H))) (by linarith)
      (by linarith) (by linarith) ?_ hMQ hfin (by norm_num) (by norm_num) (by linarith) (by linarith) (by linarith)).approx).le (by linarith)
    rw [abs_div, abs_of_pos (show 0 < 1 + α / A by linarith), div_le_iff₀ (by linarith)]; exact ht
  have hGG : 0 < G * H := by positivity
  have c1 := abs_le.mp nc.le
  have hG21 : 1 ≤ G ^ 2 := one_le_pow₀ hG
  have hG2α : α / A ≤ G ^ 2 * (α / A) := le_mul_of_one_le_left αA'.le hG21
  have hT : G * H + 1 ≤ 2 * (G * (1 + H)) := by linarith
  refine ⟨quot nb0 (by linarith) (by rw [abs_of_pos (by linarith)]; linarith),
    quot (nb1.mono (Q := 2) (c := 50) nb1.le (by norm_num) hU0.le) (by linarith) (by rw [abs_le]; constructor <;> linarith),
    quot nb2 (by linarith) (by rw [abs_le]; constructor <;> linarith),
    quot na2 (by linarith) (by rw [abs_le]; constructor <;> linarith)⟩

/-- The five coefficients of Peak. -/
theorem PeakResolved.within (hL : AccurateTrig L k) (hP : AccuratePow L k) (hf : f.Roomy) (hp : 7 ≤ f.p) (hk : 0 ≤ k)
    (h : PeakResolved k G sr fc db q) (s : Peak (Fl L)) : CoeffsWithin (s.setCoefficients sr fc db q).biquad
      ((1 + alphaQ sr.toReal fc.toReal q.toReal * gainA db.toReal) / (1 + alphaQ sr.toReal fc.toReal q.toReal / gainA db.toReal))
      (-2 * Real.cos (angle sr.toReal fc.toReal) / (1 + alphaQ sr.toReal fc.toReal q.toReal / gainA db.toReal))
      ((1 - alphaQ sr.toReal fc.toReal q.toReal * gainA db.toReal) / (1 + alphaQ sr.toReal fc.toReal q.toReal / gainA db.toReal))
      (-2 * Real.cos (angle sr.toReal fc.toReal) / (1 + alphaQ sr.toReal fc.toReal q.toReal / gainA db.toReal))
      ((1 - alphaQ sr.toReal fc.toReal q.toReal / gainA db.toReal) / (1 + alphaQ sr.toReal fc.toReal q.toReal / gainA db.toReal))
      (gainErr f k G (1 / (2 * q.toReal))) := by
  have hC := h.ctx hf hk
  have nA := gain_near hP hk hp hC h.hdb.1 h.hdb.2
  obtain ⟨nc, ns⟩ := trig_near hL hf hC h.hsr.1 h.hfc h.hsr.2.1 h.hsr.2.2 h.valid.1 h.valid.2.1 hk
  have hu := hC.hu
  have hu0 := f.u_pos
  have hq : 0 < q.toReal := h.valid.2.2
  have hα := h.valid.alphaQ_pos
  have s1 := hC.small.1
  have hG := hC.hG
  have s0 := h.valid.sin_pos
  have s1' := Real.sin_le_one (angle sr.toReal fc.toReal)
  have hHu : f.u / 2 ≤ 1 / (2 * q.toReal) := by
    rw [div_le_div_iff₀ (by norm_num) (by positivity)]
    have := mul_le_mul_of_nonneg_left h.hq.2 hu0.le
    rw [f.u_mul] at this
    linarith
  have hH0 : 0 < 1 / (2 * q.toReal) := by positivity
  have hGH : 1 / (2 * q.toReal) ≤ G * (1 / (2 * q.toReal)) := le_mul_of_one_le_left hH0.le hG
  have n2q : Near ((k + 1) * f.u) (two *. q) (2 * q.toReal) 0 (2 * q.toReal) := by
    have q2 : 2 * q.toReal ≤ 2 ^ f.emax := by
      have h1 := mul_le_mul_of_nonneg_left h.hq.2 hu0.le
      rw [f.u_mul] at h1
      have := hC.emax
      have : f.u * (2 * q.toReal) ≤ f.u * 2 ^ f.emax := by linarith
      exact le_of_mul_le_mul_left this hu0
    obtain ⟨e1, e2⟩ := two_mul_val h.hq.1 (by rw [abs_of_pos (by positivity)]; exact q2)
    exact ⟨⟨e1, by rw [e2]; simp⟩, by rw [abs_of_pos (by positivity)]⟩
  have eH : 1 / (2 * q.toReal) * (2 * q.toReal) = 1 := by field_simp
  have nα : Near ((k + 1) * f.u) (flAlpha sr fc q) (alphaQ sr.toReal fc.toReal q.toReal) 19 (1 / (2 * q.toReal)) := by
    have e2 : |Real.sin (angle sr.toReal fc.toReal) / (2 * q.toReal)| ≤ 1 / (2 * q.toReal) := by
      rw [abs_of_pos (by positivity)]
      exact div_le_div_of_nonneg_right s1' (by positivity)
    exact ns.div n2q hu (g := 1) (τ := 1 / (2 * q.toReal)) (M := 1 / (2 * q.toReal)) (by positivity) (by linarith) (by linarith) e2 le_rfl
      (hC.fits_small hf (by linarith) (by linarith)) (by norm_num) (by norm_num) (by norm_num) (by linarith) (by linarith)
  obtain ⟨r0, r1, r2, r3⟩ := peak_near hf hC nA nc nα h.gain.le h.gain.ge (gainA_pos _) hα hHu
  have hle : 450 * ((k + 1) * f.u) * (G ^ 4 * (1 + 1 / (2 * q.toReal))) ≤ gainErr f k G (1 / (2 * q.toReal)) := by
    unfold gainErr
    have : 0 ≤ (k + 1) * f.u * (G ^ 4 * (1 + 1 / (2 * q.toReal))) := by positivity
    linarith
  exact ⟨r0.le hle, r1.le hle, r2.le hle, r1.le hle, r3.le hle, ⟨zero_finite, zero_toReal⟩, ⟨zero_finite, zero_toReal⟩⟩

end Rasp
