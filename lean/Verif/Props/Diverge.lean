import Verif.Props.LowCutoff
import Verif.Lemmas.LowRun

/-!
# C80: an f32 high-pass filter that diverges

1 Hz at 48 kHz with the Butterworth `q`: the coefficients, once rounded to f32, have a pole outside the unit circle. One
sample followed by silence makes the output grow until it is not finite.
-/

namespace Rasp
open FloatOps Fl
variable {L : Libm binary32}

/-- One sample of `-1583/2048`, then silence: the output is finite at first, and from some point on never again. -/
def Diverges {σ : Type} [Processor σ (Fl L)] (s : σ) : Prop :=
  ∀ (b : Build) (x : ℕ → Fl L), (x 0).Finite → (x 0).toReal = -1583 / 2048 →
    (∀ n, 1 ≤ n → (x n).Finite ∧ (x n).toReal = 0) →
    ∃ y, Responds b s x y ∧ (y 0).Finite ∧ ∃ N, ∀ n, N ≤ n → ¬ (y n).Finite

theorem p32 (e : ℤ) : e + (binary32.p : ℤ) - 1 = e + 23 := by
  show e + 24 - 1 = e + 23
  ring

/-- A rounding that is not a tie. -/
theorem Fl.div_eq_of {x y : Fl L} {m e : ℤ} (hx : x.Finite) (hy : y.Finite) (h0 : y.toReal ≠ 0) (he : -149 ≤ e)
    (h1 : (2 : ℝ) ^ (e + 23) ≤ |x.toReal / y.toReal|) (h2 : |x.toReal / y.toReal| < 2 ^ (e + 24)) (he' : e ≤ 0)
    (h3 : |x.toReal / y.toReal / 2 ^ e - m| < 1 / 2) : (x /. y).Finite ∧ (x /. y).toReal = m * 2 ^ e := by
  have := div_val hx hy h0 (noOvf_of_le_emax (f := binary32) (h2.le.trans
    (zpow_le_zpow_right₀ (by norm_num) (show e + 24 ≤ (127 : ℤ) by omega))))
  rwa [rnd_eq_of (f := binary32) (m := m) (e := e) he (by rwa [p32]) h2 h3] at this

theorem Fl.mul_eq_of {x y : Fl L} {m e : ℤ} (hx : x.Finite) (hy : y.Finite) (he : -149 ≤ e)
    (h1 : (2 : ℝ) ^ (e + 23) ≤ |x.toReal * y.toReal|) (h2 : |x.toReal * y.toReal| < 2 ^ (e + 24)) (he' : e ≤ 0)
    (h3 : |x.toReal * y.toReal / 2 ^ e - m| < 1 / 2) : (x *. y).Finite ∧ (x *. y).toReal = m * 2 ^ e := by
  have := mul_val hx hy (noOvf_of_le_emax (f := binary32) (h2.le.trans
    (zpow_le_zpow_right₀ (by norm_num) (show e + 24 ≤ (127 : ℤ) by omega))))
  rwa [rnd_eq_of (f := binary32) (m := m) (e := e) he (by rwa [p32]) h2 h3] at this

/-- A difference that is representable is exact. -/
theorem Fl.sub_exact {x y : Fl L} {v : ℝ} (hx : x.Finite) (hy : y.Finite) (hv : x.toReal - y.toReal = v)
    (hr : IsRep binary32 v) (hb : |v| ≤ 2) : (x -. y).Finite ∧ (x -. y).toReal = v := by
  have := sub_val hx hy (by rw [hv]; exact noOvf_two hb)
  rwa [hv, rnd_of_isRep hr] at this

/-- The first sample, then `LowRun`. -/
theorem biquad2_diverges {s : Biquad2 (Fl L)} (hc : LowRun.Coeffs s) (h0 : s.b0.toReal = 16775664 / 2 ^ 24)
    (h1 : s.b1.toReal = -(16775664 / 2 ^ 23)) (h2 : s.b2.toReal = 16775664 / 2 ^ 24)
    (hz1 : s.z1.Finite ∧ s.z1.toReal = 0) (hz2 : s.z2.Finite ∧ s.z2.toReal = 0) : Diverges s := by
  intro b x hx0 hxv hx
  obtain ⟨y, hy⟩ := NeverPanics.responds (σ := Biquad2 (Fl L)) (fun _ _ _ => ⟨_, _, rfl⟩) b s x
  refine ⟨y, hy, ?_⟩
  obtain ⟨st, rfl, hst⟩ := hy
  have hst1 : ∀ n, st (n + 1) = ((st n).process (x n)).1 := fun n => by
    have := hst n
    change Except.ok ((st n).process (x n)) = _ at this
    rw [Except.ok.inj this]
  have hsty : ∀ n, y n = ((st n).process (x n)).2 := fun n => by
    have := hst n
    change Except.ok ((st n).process (x n)) = _ at this
    rw [Except.ok.inj this]
  -- the first sample
  obtain ⟨p0f, p0v⟩ := Fl.mul_eq_of (m := -12966736) (e := -24) hc.b0 hx0 (by norm_num)
    (by rw [h0, hxv]; norm_num [abs_div]) (by rw [h0, hxv]; norm_num [abs_div]) (by norm_num)
    (by rw [h0, hxv, abs_lt]; norm_num)
  obtain ⟨p1f, p1v⟩ := Fl.mul_eq_of (m := 12966736) (e := -23) hc.b1 hx0 (by norm_num)
    (by rw [h1, hxv]; norm_num [abs_div]) (by rw [h1, hxv]; norm_num [abs_div]) (by norm_num)
    (by rw [h1, hxv, abs_lt]; norm_num)
  obtain ⟨p2f, p2v⟩ := Fl.mul_eq_of (m := -12966736) (e := -24) hc.b2 hx0 (by norm_num)
    (by rw [h2, hxv]; norm_num [abs_div]) (by rw [h2, hxv]; norm_num [abs_div]) (by norm_num)
    (by rw [h2, hxv, abs_lt]; norm_num)
  obtain ⟨yf, yv⟩ := add_zero_val p0f hz1.1 hz1.2
  obtain ⟨wf, wv⟩ := add_zero_val p1f hz2.1 hz2.2
  set y0 := (st 0).b0 *. x 0 +. (st 0).z1 with hy0
  rw [p0v] at yv
  rw [p1v] at wv
  obtain ⟨tf, tv⟩ := Fl.mul_eq_of (m := 12965536) (e := -23) hc.a1 yf (by norm_num)
    (by rw [hc.val1, yv]; norm_num [abs_div]) (by rw [hc.val1, yv]; norm_num [abs_div]) (by norm_num)
    (by rw [hc.val1, yv, abs_lt]; norm_num)
  obtain ⟨uf, uv⟩ := Fl.mul_eq_of (m := -12964336) (e := -24) hc.a2 yf (by norm_num)
    (by rw [hc.val2, yv]; norm_num [abs_div]) (by rw [hc.val2, yv]; norm_num [abs_div]) (by norm_num)
    (by rw [hc.val2, yv, abs_lt]; norm_num)
  obtain ⟨z1f, z1v⟩ := Fl.sub_exact (v := 1200 / 2 ^ 23) wf tf (by rw [wv, tv]; norm_num)
    ⟨1200, -23, by norm_num [binary32], by norm_num [binary32], by norm_num⟩ (by norm_num [abs_le])
  obtain ⟨z2f, z2v⟩ := Fl.sub_exact (v := -2400 / 2 ^ 24) p2f uf (by rw [p2v, uv]; norm_num)
    ⟨-2400, -24, by norm_num [binary32], by norm_num [binary32], by norm_num⟩ (by norm_num [abs_le])
  -- the rest
  have hat : LowRun.At (-125) 88 19660800 19660800 (st 1) := by
    rw [hst1]
    refine ⟨z1f, z2f, ?_, ?_, by norm_num, by norm_num, by norm_num⟩
    · show ((st 0).b1 *. x 0 +. (st 0).z2 -. (st 0).a1 *. y0).toReal = _
      rw [z1v]; norm_num
    · show ((st 0).b2 *. x 0 -. (st 0).a2 *. y0).toReal = _
      rw [z2v]; norm_num
  have hc1 : LowRun.Coeffs (st 1) := by rw [hst1]; exact hc.process _
  obtain ⟨n, hn⟩ := LowRun.not_finite (st := fun n => st (n + 1)) (x := fun n => x (n + 1)) (fun n => hst1 (n + 1))
    (fun n => hx (n + 1) (by omega)) hc1 hat
  refine ⟨by rw [hsty 0]; exact yf, n + 1, fun m hm => ?_⟩
  obtain ⟨k, rfl⟩ := Nat.exists_eq_add_of_le hm
  have hz : ¬ (st (n + 1 + k)).z1.Finite := by
    clear hm
    induction k with
    | zero => exact hn
    | succ k ih =>
      rw [show n + 1 + (k + 1) = n + 1 + k + 1 by ring, hst1]
      exact LowRun.sub_not_finite_right (mul_not_finite_right (add_not_finite_right ih))
  rw [hsty]
  exact add_not_finite_right hz

/-- The coefficients, once rounded. -/
theorem rbjStore_diverges {s : Biquad2 (Fl L)} {b0 b1 b2 a c : Fl L} (h0 : b0.Finite ∧ b0.toReal = 1)
    (h1 : b1.Finite ∧ b1.toReal = -2) (h2 : b2.Finite ∧ b2.toReal = 1) (ha : a.Finite) (hlo : 776.4 / 2 ^ 23 ≤ a.toReal)
    (hhi : a.toReal ≤ 776.49 / 2 ^ 23) (hc : c.Finite ∧ c.toReal = 1) :
    Diverges (rbjStore s b0 b1 b2 (one +. a) (neg two *. c) (one -. a)) := by
  have hlo' : (776.4 : ℝ) / 8388608 ≤ a.toReal := by norm_num at hlo ⊢; exact hlo
  have hhi' : a.toReal ≤ (776.49 : ℝ) / 8388608 := by norm_num at hhi ⊢; exact hhi
  obtain ⟨f0, v0⟩ := add_val (one_finite (L := L)) ha (noOvf_two (by
    rw [one_toReal, abs_le]; constructor <;> linarith))
  rw [one_toReal, rnd_eq_of (f := binary32) (m := 8389384) (e := -23) (by norm_num [binary32])
    (by rw [abs_of_pos (by linarith)]; norm_num [binary32]; linarith)
    (by rw [abs_of_pos (by linarith)]; norm_num [binary32]; linarith)
    (by rw [abs_lt]; norm_num; constructor <;> linarith)] at v0
  obtain ⟨f2, v2⟩ := sub_val (one_finite (L := L)) ha (noOvf_two (by
    rw [one_toReal, abs_le]; constructor <;> linarith))
  rw [one_toReal, rnd_eq_of (f := binary32) (m := 16775663) (e := -24) (by norm_num [binary32])
    (by rw [abs_of_pos (by linarith)]; norm_num [binary32]; linarith)
    (by rw [abs_of_pos (by linarith)]; norm_num [binary32]; linarith)
    (by rw [abs_lt]; norm_num; constructor <;> linarith)] at v2
  have hn2 : (neg (two : Fl L)).Finite := neg_finite.mpr two_val.1
  have ht2 : (neg (two : Fl L)).toReal = -2 := by rw [neg_toReal, two_val.2]
  obtain ⟨f1, v1⟩ := mul_val hn2 hc.1 (by rw [ht2, hc.2]; exact noOvf_two (by norm_num))
  rw [ht2, hc.2, rnd_of_isRep (by norm_num; exact (isRep_two _).neg)] at v1
  have ne : (one +. a).toReal ≠ 0 := by rw [v0]; norm_num
  have d : ∀ w : Fl L, w.Finite → w.toReal = -2 → (w /. (one +. a)).Finite ∧
      (w /. (one +. a)).toReal = -(16775664 / 2 ^ 23) := by
    intro w hw hv
    have := Fl.div_eq_of (m := -16775664) (e := -23) hw f0 ne (by norm_num) (by rw [hv, v0]; norm_num [abs_div])
      (by rw [hv, v0]; norm_num [abs_div]) (by norm_num) (by rw [hv, v0, abs_lt]; norm_num)
    refine ⟨this.1, this.2.trans (by norm_num)⟩
  have d1 : ∀ w : Fl L, w.Finite → w.toReal = 1 → (w /. (one +. a)).Finite ∧
      (w /. (one +. a)).toReal = 16775664 / 2 ^ 24 := by
    intro w hw hv
    have := Fl.div_eq_of (m := 16775664) (e := -24) hw f0 ne (by norm_num) (by rw [hv, v0]; norm_num [abs_div])
      (by rw [hv, v0]; norm_num [abs_div]) (by norm_num) (by rw [hv, v0, abs_lt]; norm_num)
    refine ⟨this.1, this.2.trans (by norm_num)⟩
  obtain ⟨g0, w0⟩ := d1 b0 h0.1 h0.2
  obtain ⟨g1, w1⟩ := d b1 h1.1 h1.2
  obtain ⟨g2, w2⟩ := d1 b2 h2.1 h2.2
  obtain ⟨k1, l1⟩ := d (neg two *. c) f1 (v1.trans (by norm_num))
  obtain ⟨k2, l2⟩ := Fl.div_eq_of (m := 16774111) (e := -24) f2 f0 ne (by norm_num) (by rw [v2, v0]; norm_num [abs_div])
      (by rw [v2, v0]; norm_num [abs_div]) (by norm_num) (by rw [v2, v0, abs_lt]; norm_num)
  exact biquad2_diverges ⟨g0, g1, g2, k1, k2, l1, l2.trans (by norm_num)⟩ w0 w1 w2 ⟨zero_finite, zero_toReal⟩
    ⟨zero_finite, zero_toReal⟩

/-- **C80**: `HighPass` and `BandStop` at 1 Hz, 48 kHz and the Butterworth `q` (the f32 number 0.70710677) diverge in f32.
In exact arithmetic they are stable with the same parameters. -/
theorem C80_diverges_f32 (hL : SmallAngle L) {sr fc q : Fl L} (hsr : sr.Finite) (hfc : fc.Finite) (hq : q.Finite)
    (h1 : sr.toReal = 48000) (h2 : fc.toReal = 1) (h3 : q.toReal = 11863283 / 2 ^ 24) :
    (∀ s : HighPass (Fl L), Diverges (s.setCoefficients sr fc q)) ∧
    (∀ s : BandStop (Fl L), Diverges (s.setCoefficients sr fc q)) ∧
    (∀ s : HighPass ℝ, Stable (s.setCoefficients sr.toReal fc.toReal q.toReal)) ∧
    (∀ s : BandStop ℝ, Stable (s.setCoefficients sr.toReal fc.toReal q.toReal)) := by
  have hle : fc.toReal ≤ sr.toReal / 26000 := by rw [h1, h2]; norm_num
  obtain ⟨wf, w0, w1⟩ := flAngle_small hsr hfc (by rw [h1]; norm_num) (by rw [h2]; norm_num) hle
  obtain ⟨-, -, wn⟩ := flAngle_near hsr hfc (by rw [h1]; norm_num) (by rw [h2]; norm_num) hle
  rw [show angle sr.toReal fc.toReal = Real.pi / 24000 by rw [angle, h1, h2]; ring] at wn
  have wabs : |(flAngle sr fc).toReal| ≤ 1 / 2 ^ 12 := by rwa [abs_of_nonneg w0]
  obtain ⟨cf, cv⟩ := hL.cos _ wf wabs
  obtain ⟨sf, sv⟩ := hL.sin _ wf wabs
  rw [abs_of_nonneg w0] at sv
  have hpi1 := Real.pi_gt_d6
  have hpi2 := Real.pi_lt_d6
  rw [abs_le] at wn sv
  norm_num at wn sv
  obtain ⟨df, dv⟩ := mul_val (two_val (L := L)).1 hq (noOvf_two (by rw [two_val.2, h3, abs_of_pos] <;> norm_num))
  rw [two_val.2, h3, rnd_of_isRep ⟨11863283, -23, by norm_num [binary32], by norm_num [binary32], by norm_num⟩] at dv
  have d0 : 0 < (two *. q).toReal := by rw [dv]; norm_num
  have qlo : (776.44 : ℝ) / 8388608 ≤ (FloatOps.sin (flAngle sr fc)).toReal / (two *. q).toReal := by
    rw [le_div_iff₀ d0, dv]; norm_num; linarith
  have qhi : (FloatOps.sin (flAngle sr fc)).toReal / (two *. q).toReal ≤ (776.46 : ℝ) / 8388608 := by
    rw [div_le_iff₀ d0, dv]; norm_num; linarith
  obtain ⟨af, av⟩ := div_val sf df d0.ne' (noOvf_two (by rw [abs_le]; constructor <;> linarith))
  have ae := abs_rnd_sub_le_u binary32 ((FloatOps.sin (flAngle sr fc)).toReal / (two *. q).toReal)
  rw [← av, u32, tiny32, abs_of_nonneg (a := _ / _) (by linarith), abs_le] at ae
  norm_num at ae
  have alo : (776.4 : ℝ) / 2 ^ 23 ≤ (flAlpha sr fc q).toReal := by
    show _ ≤ (FloatOps.sin (flAngle sr fc) /. (two *. q)).toReal
    norm_num at qlo qhi ⊢; linarith
  have ahi : (flAlpha sr fc q).toReal ≤ (776.49 : ℝ) / 2 ^ 23 := by
    show (FloatOps.sin (flAngle sr fc) /. (two *. q)).toReal ≤ _
    norm_num at qlo qhi ⊢; linarith
  have hv : ValidParams sr.toReal fc.toReal q.toReal := by
    rw [h1, h2, h3]; exact ⟨by norm_num, by norm_num, by norm_num⟩
  refine ⟨fun s => ?_, fun s => ?_, (C38_stable hv).2.1, (C38_stable hv).2.2.2.2.1⟩
  · obtain ⟨pf, pv⟩ := add_val (one_finite (L := L)) cf (noOvf_two (by rw [one_toReal, cv]; norm_num))
    rw [one_toReal, cv, rnd_of_isRep (by norm_num; exact isRep_two _)] at pv
    obtain ⟨mf, mv⟩ := sub_val (neg_finite.mpr (one_finite (L := L))) cf (noOvf_two (by rw [neg_toReal, one_toReal, cv]; norm_num))
    rw [neg_toReal, one_toReal, cv, rnd_of_isRep (by norm_num; exact (isRep_two _).neg)] at mv
    obtain ⟨hf, hv'⟩ := div_val pf (two_val (L := L)).1 (by rw [two_val.2]; norm_num) (noOvf_two (by rw [pv, two_val.2]; norm_num))
    rw [pv, two_val.2, rnd_of_isRep (by norm_num; exact isRep_one _)] at hv'
    intro b x e0 e1 e2
    obtain ⟨y, hy, h⟩ := rbjStore_diverges (s := s.biquad) ⟨hf, hv'.trans (by norm_num)⟩ ⟨mf, mv.trans (by norm_num)⟩
      ⟨hf, hv'.trans (by norm_num)⟩ af alo ahi ⟨cf, cv⟩ b x e0 e1 e2
    exact ⟨y, (HighPass.responds_iff _).mpr hy, h⟩
  · have hn2 : (neg (two : Fl L)).Finite := neg_finite.mpr two_val.1
    have ht2 : (neg (two : Fl L)).toReal = -2 := by rw [neg_toReal, two_val.2]
    obtain ⟨mf, mv⟩ := mul_val hn2 cf (by rw [ht2, cv]; exact noOvf_two (by norm_num))
    rw [ht2, cv, rnd_of_isRep (by norm_num; exact (isRep_two _).neg)] at mv
    intro b x e0 e1 e2
    obtain ⟨y, hy, h⟩ := rbjStore_diverges (s := s.biquad) ⟨one_finite, one_toReal⟩ ⟨mf, mv.trans (by norm_num)⟩
      ⟨one_finite, one_toReal⟩ af alo ahi ⟨cf, cv⟩ b x e0 e1 e2
    exact ⟨y, (BandStop.responds_iff _).mpr hy, h⟩

/-- The hypotheses are met, with a library that rounds correctly; and so are those of `Diverges`. -/
example : ∃ (L : Libm binary32) (sr fc q : Fl L) (x : ℕ → Fl L), SmallAngle L ∧ sr.Finite ∧ fc.Finite ∧ q.Finite ∧
    sr.toReal = 48000 ∧ fc.toReal = 1 ∧ q.toReal = 11863283 / 2 ^ 24 ∧ (x 0).Finite ∧ (x 0).toReal = -1583 / 2048 ∧
    ∀ n, 1 ≤ n → (x n).Finite ∧ (x n).toReal = 0 := by
  let L : Libm binary32 :=
    { exp := id, cos := fun x => FP.ofReal binary32 false (Real.cos x.toReal),
      sin := fun x => FP.ofReal binary32 false (Real.sin x.toReal), log10 := id, powf := fun x _ => x }
  obtain ⟨a, ha⟩ := exists_of_isRep L (v := 48000) (by exact_mod_cast isRep_nat (f := binary32) (n := 48000) (by norm_num [binary32]))
    (by norm_num [Fmt.lim, binary32])
  obtain ⟨q, hq⟩ := exists_of_isRep L (v := 11863283 / 2 ^ 24)
    ⟨11863283, -24, by norm_num [binary32], by norm_num [binary32], by norm_num⟩ (by norm_num [Fmt.lim, binary32, abs_div])
  obtain ⟨v, hv⟩ := exists_of_isRep L (v := -1583 / 2048)
    ⟨-1583, -11, by norm_num [binary32], by norm_num [binary32], by norm_num⟩ (by norm_num [Fmt.lim, binary32, abs_div])
  refine ⟨L, a, one, q, fun n => if n = 0 then v else zero, SmallAngle.of_rounded (fun _ _ => rfl) (fun _ _ => rfl), ha.1,
    one_finite, hq.1, ha.2, one_toReal, hq.2, hv.1, hv.2, fun n hn => ?_⟩
  simpa [show n ≠ 0 by omega] using zero_finite

end Rasp
