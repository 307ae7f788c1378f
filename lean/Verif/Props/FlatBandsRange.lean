import Verif.Props.FlatBands
import Verif.Props.GainFloat

/-!
# C164: bands set to 0 dB, settings in range
-/

namespace Rasp
open FloatOps Fl
variable {f : Fmt} {L : Libm f} {sr fr db q S : Fl L}

private theorem fits_of {c : Biquad2 (Fl L)} {b0 b1 b2 a1 a2 E m X : ℝ} (h : CoeffsWithin c b0 b1 b2 a1 a2 E) (hm : PoleMargin a1 a2 m) (hE : 8 * E ≤ m)
    {x : ℕ → Fl L} (hx : ∀ n, (x n).Within X) (hX : 4 * X ≤ 2 ^ f.emax) : c.CoeffsFinite ∧ c.Fits x := by
  obtain ⟨s2, s1⟩ := hm.stable
  have m1 := hm.le_one
  have e1 := abs_le.mp h.a1.2
  have e2 := abs_le.mp h.a2.2
  rw [abs_lt] at s1 s2
  have k1 : |c.a1.toReal| ≤ 4 := by rw [abs_le]; constructor <;> linarith
  have k2 : |c.a2.toReal| ≤ 4 := by rw [abs_le]; constructor <;> linarith
  have k : ∀ (a : Fl L) n, a.Finite → |a.toReal| ≤ 4 → (a *. x n).Finite := by
    intro a n ha h4
    refine (mul_val ha (hx n).1 (noOvf_of_le_emax ?_)).1
    rw [abs_mul]
    exact (mul_le_mul h4 (hx n).2 (abs_nonneg _) (by norm_num)).trans hX
  exact ⟨⟨h.b0.1, h.b1.1, h.b2.1, h.a1.1, h.a2.1⟩, fun n => ⟨(hx n).1, k _ n h.a1.1 k1, k _ n h.a2.1 k2⟩⟩

section
variable {k G X : ℝ} {fc slope : Fl L} (hL : AccurateTrig L k) (hP : AccuratePow L k) (hZ : PowZero L) (hf : f.Roomy) (hp : 7 ≤ f.p) (hk : 0 ≤ k)
  (h0 : db.toReal = 0) {x : ℕ → Fl L} (hx : ∀ n, (x n).Within X) (hX : 4 * X ≤ 2 ^ f.emax)
include hL hP hZ hf hp hk h0 hx hX

omit hZ h0 in
private theorem ready :
    (PeakResolved k G sr fc db q → ∀ s : Peak (Fl L), (s.setCoefficients sr fc db q).biquad.CoeffsFinite ∧ (s.setCoefficients sr fc db q).biquad.Fits x) ∧
    (ShelfResolved k G sr fc db slope →
      (∀ s : LowShelf (Fl L), (s.setCoefficients sr fc db slope).biquad.CoeffsFinite ∧ (s.setCoefficients sr fc db slope).biquad.Fits x) ∧
      (∀ s : HighShelf (Fl L), (s.setCoefficients sr fc db slope).biquad.CoeffsFinite ∧ (s.setCoefficients sr fc db slope).biquad.Fits x)) := by
  refine ⟨fun h s => ?_, fun h => ?_⟩
  · have hm := rbj_poleMargin h.valid'
    have hA := gainA_pos db.toReal
    have eα : alphaQ sr.toReal fc.toReal (q.toReal * gainA db.toReal) = alphaQ sr.toReal fc.toReal q.toReal / gainA db.toReal := by
      unfold alphaQ; field_simp
    rw [eα] at hm
    exact fits_of (h.within hL hP hf hp hk s) hm h.margin hx hX
  · obtain ⟨w1, w2⟩ := h.within hL hP hf hp hk
    obtain ⟨m1, m2⟩ := shelf_poleMargins (gainA_pos db.toReal) h.valid
    exact ⟨fun s => fits_of (w1 s) m1 h.margin hx hX, fun s => fits_of (w2 s) m2 h.margin hx hX⟩

/-- **C164** with an accurate library and settings that the format resolves: samples up to a quarter of the largest power of two. -/
theorem C164_resolved :
    (PeakResolved k G sr fc db q → ∀ s : Peak (Fl L), Copies (s.setCoefficients sr fc db q) x) ∧
    (ShelfResolved k G sr fc db slope → (∀ s : LowShelf (Fl L), Copies (s.setCoefficients sr fc db slope) x) ∧
      (∀ s : HighShelf (Fl L), Copies (s.setCoefficients sr fc db slope) x)) := by
  obtain ⟨r1, r2⟩ := ready (slope := slope) (db := db) (q := q) (sr := sr) (fc := fc) (G := G) hL hP hf hp hk hx hX
  exact ⟨fun h s => C164_peak hZ hp h.hdb.1 h0 s (r1 h s).1 x (r1 h s).2, fun h =>
    ⟨fun s => C164_lowShelf hZ hp h.hdb.1 h0 s ((r2 h).1 s).1 x ((r2 h).1 s).2, fun s => C164_highShelf hZ hp h.hdb.1 h0 s ((r2 h).2 s).1 x ((r2 h).2 s).2⟩⟩

end

/-- Settings of the range of `C164_f32`. -/
def FlBand.InRange {L : Libm binary32} (sr : Fl L) : FlBand L → Prop
  | .peak _ fc _ q => fc.Finite ∧ sr.toReal / 8 ≤ fc.toReal ∧ fc.toReal ≤ 3 / 8 * sr.toReal ∧ q.Finite ∧ 1 ≤ q.toReal ∧ q.toReal ≤ 2
  | .low _ fc _ S => fc.Finite ∧ sr.toReal / 8 ≤ fc.toReal ∧ fc.toReal ≤ 3 / 8 * sr.toReal ∧ S.Finite ∧ 1 / 2 ≤ S.toReal ∧ S.toReal ≤ 1
  | .high _ fc _ S => fc.Finite ∧ sr.toReal / 8 ≤ fc.toReal ∧ fc.toReal ≤ 3 / 8 * sr.toReal ∧ S.Finite ∧ 1 / 2 ≤ S.toReal ∧ S.toReal ≤ 1

/-- **C164** in f32: any number of bands at 0 dB, with frequencies from 1/8 to 3/8 of the sample rate, `q` from 1 to 2, slopes from 1/2 to 1,
leave samples up to `2^100` as they are. -/
theorem C164_f32 {L : Libm binary32} (hL : AccurateTrig L 2) (hP : AccuratePow L 2) (hZ : PowZero L) {sr : Fl L} (hsr : sr.Finite)
    (h1 : 1 ≤ sr.toReal) (h2 : sr.toReal ≤ 2 ^ 100) (ps : List (FlBand L)) (hd : ∀ p ∈ ps, p.db.Finite ∧ p.db.toReal = 0)
    (hr : ∀ p ∈ ps, p.InRange sr) {x : ℕ → Fl L} (hx : ∀ n, (x n).Within (2 ^ 100)) :
    (∀ b, ∃ z, FlEqualizer b sr ps x z) ∧ ∀ b z, FlEqualizer b sr ps x z → ∀ n, (z n).Same (x n) := by
  have shelf : ∀ {fc db S : Fl L}, db.Finite ∧ db.toReal = 0 →
      fc.Finite ∧ sr.toReal / 8 ≤ fc.toReal ∧ fc.toReal ≤ 3 / 8 * sr.toReal ∧ S.Finite ∧ 1 / 2 ≤ S.toReal ∧ S.toReal ≤ 1 → ShelfResolved 2 1.42 sr fc db S := by
    rintro fc db S ⟨hdb, h0⟩ ⟨hfc, h3, h4, hsl, h5, h6⟩
    have hg := gainIn_six (show |db.toReal| ≤ 6 by rw [h0]; norm_num)
    exact (shelfResolved_of (k := 2) (r := 1 / 8) (B := 2.04) (g := 1.2) (X := 2 ^ 60) (by norm_num) (by norm_num) hg
      (by norm_num) (by norm_num) (by norm_num) (by norm_num)
      (by norm_num [Fmt.u, binary32]) hsr hfc hsl hdb (by rw [h0]; norm_num) h1 (by norm_num [binary32]; linarith) (by norm_num [binary32])
      (by linarith) (by linarith) h5 h6 (by norm_num [Fmt.tiny, binary32])).2.2.1
  have all : ∀ p : FlBand L, p.db.Finite ∧ p.db.toReal = 0 → p.InRange sr → (p.biquad sr).CoeffsFinite ∧ (p.biquad sr).Fits x := by
    intro p h0 hp
    have e : 4 * (2 : ℝ) ^ 100 ≤ 2 ^ binary32.emax := by norm_num [binary32]
    cases p with
    | peak s fc db q =>
      obtain ⟨hfc, h3, h4, hq, h5, h6⟩ := hp
      obtain ⟨hdb, h0⟩ : db.Finite ∧ db.toReal = 0 := h0
      have hg := gainIn_six (show |db.toReal| ≤ 6 by rw [h0]; norm_num)
      obtain ⟨_, _, hR, -⟩ := peakResolved_of (k := 2) (r := 1 / 8) (Q := 2) (X := 2 ^ 60) (by norm_num) (by norm_num) (by norm_num) hg (by norm_num)
        (by norm_num [Fmt.u, binary32]) (by norm_num [binary32]) hsr hfc hq hdb (by rw [h0]; norm_num) h1 (by norm_num [binary32]; linarith)
        (by linarith) (by linarith) h5 h6 (by norm_num [Fmt.tiny, binary32])
      exact (ready (slope := q) hL hP binary32_roomy (by decide) (by norm_num) hx e).1 hR s
    | low s fc db S => exact ((ready (q := S) hL hP binary32_roomy (by decide) (by norm_num) hx e).2 (shelf h0 hp)).1 s
    | high s fc db S => exact ((ready (q := S) hL hP binary32_roomy (by decide) (by norm_num) hx e).2 (shelf h0 hp)).2 s
  exact C164_equalizer hZ (by decide) ps x hd (fun p h => (all p (hd p h) (hr p h)).1) (fun p h => (all p (hd p h) (hr p h)).2) (fun n => (hx n).1)

/-- The hypotheses can be met: a correctly rounded library, three bands at 12 kHz with a gain of -0 dB, and a constant signal of one. -/
example : ∃ (L : Libm binary32) (sr fc : Fl L), AccurateTrig L 2 ∧ AccuratePow L 2 ∧ PowZero L ∧ sr.toReal = 48000 ∧ fc.toReal = 12000 ∧
    ∀ b, ∃ z, FlEqualizer b sr [.peak .new fc (FloatOps.neg zero) one, .low .new fc (FloatOps.neg zero) one, .high .new fc zero one] (fun _ => (one : Fl L)) z ∧
      ∀ n, (z n).toReal = 1 := by
  let L : Libm binary32 :=
    { exp := id, cos := fun x => FP.ofReal _ false (Real.cos x.toReal), sin := fun x => FP.ofReal _ false (Real.sin x.toReal), log10 := id,
      powf := fun x y => FP.ofReal _ false (x.toReal ^ y.toReal) }
  have hlim : (2 : ℝ) ^ (101 : ℤ) ≤ binary32.lim := zpow_le_zpow_right₀ one_le_two (by decide)
  have ex : ∀ n : ℕ, n ≤ 50000 → ∃ a : Fl L, a.Finite ∧ a.toReal = n := fun n hn => by
    have hn' : (n : ℝ) ≤ 50000 := by exact_mod_cast hn
    exact exists_of_isRep L (isRep_nat (by norm_num [binary32]; omega)) (by rw [abs_of_nonneg (by positivity)]; norm_num at hlim; linarith)
  obtain ⟨a, ha1, ha2⟩ := ex 48000 (by norm_num)
  obtain ⟨c, hc1, hc2⟩ := ex 12000 (by norm_num)
  push_cast at ha2 hc2
  have hL : AccurateTrig L 2 := .of_rounded binary32_roomy (fun _ _ => rfl) (fun _ _ => rfl)
  have hP : AccuratePow L 2 := .of_rounded binary32_roomy (by decide) (fun _ _ _ _ => rfl)
  have hZ : PowZero L := by
    intro x z _ h
    show FP.ofReal binary32 false (FP.toReal x ^ FP.toReal z) = FP.ofReal binary32 false 1
    have h' : FP.toReal (f := binary32) z = 0 := h
    rw [h', Real.rpow_zero]
  have hn : (FloatOps.neg zero : Fl L).Finite ∧ (FloatOps.neg zero : Fl L).toReal = 0 :=
    ⟨neg_finite.mpr zero_finite, by rw [neg_toReal, zero_toReal, neg_zero]⟩
  have w1 : c.Finite ∧ a.toReal / 8 ≤ c.toReal ∧ c.toReal ≤ 3 / 8 * a.toReal ∧ (one : Fl L).Finite ∧ 1 ≤ (one : Fl L).toReal ∧ (one : Fl L).toReal ≤ 2 := by
    rw [ha2, hc2, one_toReal]
    exact ⟨hc1, by norm_num, by norm_num, one_finite, by norm_num, by norm_num⟩
  have w2 : c.Finite ∧ a.toReal / 8 ≤ c.toReal ∧ c.toReal ≤ 3 / 8 * a.toReal ∧ (one : Fl L).Finite ∧ 1 / 2 ≤ (one : Fl L).toReal ∧ (one : Fl L).toReal ≤ 1 := by
    rw [ha2, hc2, one_toReal]
    exact ⟨hc1, by norm_num, by norm_num, one_finite, by norm_num, by norm_num⟩
  obtain ⟨t, k⟩ := C164_f32 hL hP hZ ha1 (by rw [ha2]; norm_num) (by rw [ha2]; norm_num)
    [.peak .new c (FloatOps.neg zero) one, .low .new c (FloatOps.neg zero) one, .high .new c zero one]
    (by
      intro p hp
      simp only [List.mem_cons, List.not_mem_nil, or_false] at hp
      rcases hp with rfl | rfl | rfl
      · exact hn
      · exact hn
      · exact ⟨zero_finite, zero_toReal⟩)
    (by
      intro p hp
      simp only [List.mem_cons, List.not_mem_nil, or_false] at hp
      rcases hp with rfl | rfl | rfl
      · exact w1
      · exact w2
      · exact w2)
    (x := fun _ => (one : Fl L)) (fun _ => ⟨one_finite, by rw [one_toReal]; norm_num⟩)
  refine ⟨L, a, c, hL, hP, hZ, ha2, hc2, fun b => ?_⟩
  obtain ⟨z, hz⟩ := t b
  refine ⟨z, hz, fun n => ?_⟩
  rcases k b z hz n with h | ⟨s, _, h⟩ | h
  · exact (h.2.not_finite one_finite).elim
  · have : (one : Fl L).Finite := one_finite
    rw [h] at this
    exact this.elim
  · rw [h.2.2, one_toReal]

end Rasp
