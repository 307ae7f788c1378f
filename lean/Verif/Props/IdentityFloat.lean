import Verif.Props.ChainFloat
import Verif.Props.GainFloat
import Verif.Props.Diverge
import Verif.Props.Rbj
import Verif.Props.RbjNaN

/-!
# C119: the identities between rbj filters in floating point

C43 and C44 hold sample by sample in exact arithmetic. In floating point they hold up to a fixed error where C83 and C84
apply, and fail entirely where they do not.
-/

namespace Rasp
open FloatOps Fl
variable {f : Fmt} {L : Libm f} {k G : ℝ} {sr fc db q slope : Fl L}

section
variable (hL : AccurateTrig L k) (hf : f.Roomy) (hk : 0 ≤ k)
include hL hf hk

/-- **C119**, C44 in floating point: the outputs of the six filters satisfy the four identities up to a few times the error
of C83, for ever. -/
theorem C119_complementary (h : Resolved k sr fc q) {X E : ℝ} (hX : 0 ≤ X)
    (hrange : 191808 * (X + f.tiny) ≤ rbjMargin sr.toReal fc.toReal q.toReal ^ 2 * 2 ^ f.emax)
    (hE : E = rbjBound f k sr.toReal fc.toReal q.toReal X) (lp : LowPass (Fl L)) (hp : HighPass (Fl L)) (bp1 : BandPass1 (Fl L))
    (bp2 : BandPass2 (Fl L)) (bs : BandStop (Fl L)) (ap : AllPass (Fl L)) (b : Build) (x : ℕ → Fl L) (hx : ∀ n, (x n).Within X) :
    ∃ yl yh y1 y2 ys ya : ℕ → Fl L, Responds b (lp.setCoefficients sr fc q) x yl ∧ Responds b (hp.setCoefficients sr fc q) x yh ∧
      Responds b (bp1.setCoefficients sr fc q) x y1 ∧ Responds b (bp2.setCoefficients sr fc q) x y2 ∧
      Responds b (bs.setCoefficients sr fc q) x ys ∧ Responds b (ap.setCoefficients sr fc q) x ya ∧
      ∀ n, ((yl n).Finite ∧ (yh n).Finite ∧ (y1 n).Finite ∧ (y2 n).Finite ∧ (ys n).Finite ∧ (ya n).Finite) ∧
        |(yl n).toReal + (yh n).toReal - (ys n).toReal| ≤ 3 * E ∧ |(ys n).toReal + (y2 n).toReal - (x n).toReal| ≤ 2 * E ∧
        |(ys n).toReal - (y2 n).toReal - (ya n).toReal| ≤ 3 * E ∧ |(y1 n).toReal - q.toReal * (y2 n).toReal| ≤ (1 + q.toReal) * E := by
  have hq : 0 < q.toReal := h.valid.2.2
  obtain ⟨t1, t2, t3, t4, t5, t6⟩ := C83_tracks hL hf hk h hX hrange
  rw [← hE] at t1 t2 t3 t4 t5 t6
  obtain ⟨zl, zh, z1, z2, zs, za, rl, rh, r1, r2, rs, ra, id⟩ := C44_complementary h.valid (LowPass.new : LowPass ℝ) (HighPass.new : HighPass ℝ)
    (BandPass1.new : BandPass1 ℝ) (BandPass2.new : BandPass2 ℝ) (BandStop.new : BandStop ℝ) (AllPass.new : AllPass ℝ) b (fun n => (x n).toReal)
  obtain ⟨yl, hl⟩ := (t1 lp .new).1 b x
  obtain ⟨yh, hh⟩ := (t2 hp .new).1 b x
  obtain ⟨y1, h1⟩ := (t3 bp1 .new).1 b x
  obtain ⟨y2, h2⟩ := (t4 bp2 .new).1 b x
  obtain ⟨ys, hs⟩ := (t5 bs .new).1 b x
  obtain ⟨ya, ha⟩ := (t6 ap .new).1 b x
  refine ⟨yl, yh, y1, y2, ys, ya, hl, hh, h1, h2, hs, ha, fun n => ?_⟩
  obtain ⟨fl, el⟩ := (t1 lp .new).2.2 b x yl zl hx hl rl n
  obtain ⟨fh, eh⟩ := (t2 hp .new).2.2 b x yh zh hx hh rh n
  obtain ⟨f1, e1⟩ := (t3 bp1 .new).2.2 b x y1 z1 hx h1 r1 n
  obtain ⟨f2, e2⟩ := (t4 bp2 .new).2.2 b x y2 z2 hx h2 r2 n
  obtain ⟨fs, es⟩ := (t5 bs .new).2.2 b x ys zs hx hs rs n
  obtain ⟨fa, ea⟩ := (t6 ap .new).2.2 b x ya za hx ha ra n
  obtain ⟨i1, i2, i3, i4⟩ := id n
  have e2' : |q.toReal * (y2 n).toReal - q.toReal * z2 n| ≤ q.toReal * E := by
    rw [← mul_sub, abs_mul, abs_of_pos hq]
    exact mul_le_mul_of_nonneg_left e2 hq.le
  rw [abs_le] at el eh e1 e2 es ea e2'
  refine ⟨⟨fl, fh, f1, f2, fs, fa⟩, ?_, ?_, ?_, ?_⟩ <;> rw [abs_le] <;> constructor <;> linarith

end

/-- Two processors in floating point that follow two exact ones which undo each other. -/
theorem undone {σ τ ρ π : Type} [Processor σ (Fl L)] [Processor τ (Fl L)] [Processor ρ ℝ] [Processor π ℝ] {s : σ} {t : τ} {r : ρ} {r' : π}
    {X E G E' G' : ℝ} {b : Build} (h : Tracks (L := L) s r X E) (hG : GainAtMost b r G) (h' : Tracks (L := L) t r' (G * X + E) E') (hG' : GainAtMost b r' G')
    (hu : ∀ x : ℕ → ℝ, ∃ y, Responds b r x y ∧ Responds b r' y x) (x : ℕ → Fl L) (hx : ∀ n, (x n).Within X) :
    ∃ y z : ℕ → Fl L, Responds b s x y ∧ Responds b t y z ∧ ∀ n, (z n).Finite ∧ |(z n).toReal - (x n).toReal| ≤ G' * E + E' := by
  have hs : Suits b [(twin s r, (E, G)), (twin t r', (E', G'))] X := ⟨h.follows b, hG, h'.follows b, hG', trivial⟩
  obtain ⟨z, w, ⟨y, hy, z', hz, rfl⟩, ⟨v, hv, w', hw, rfl⟩, e⟩ := C112_chain hs x hx
  obtain ⟨v', hv', hw'⟩ := hu fun n => (x n).toReal
  obtain rfl : v = v' := hv.unique hv'
  obtain rfl := hw.unique hw'
  exact ⟨y, z, hy, hz, fun n => ⟨(e n).1, by simpa [accumulated] using (e n).2⟩⟩

/-- **C119**, gains of Peak and of the shelves in terms of the distance of their poles from the unit circle. -/
theorem C119_gain_peak {sr fc db q : ℝ} (h : ValidParams sr fc q) (hg : GainIn db G) (b : Build) (r : Peak ℝ) :
    GainAtMost b (r.setCoefficients sr fc db q) (5 * G ^ 2 / rbjMargin sr fc (q * gainA db)) := by
  have hA := gainA_pos db
  have hq : 0 < q := h.2.2
  have hG2 : 1 ≤ G ^ 2 := one_le_pow₀ hg.one_le
  have hα := h.alphaQ_pos
  have eα : alphaQ sr fc (q * gainA db) = alphaQ sr fc q / gainA db := by
    unfold alphaQ; field_simp
  have hm := rbj_poleMargin (sr := sr) (fc := fc) (q := q * gainA db) ⟨h.1, h.2.1, mul_pos hq hA⟩
  rw [eα] at hm
  refine (r.implements _ _ _ _).gainAtMost hm ?_
  have hp' : 0 < alphaQ sr fc q / gainA db := by positivity
  have ha : 0 < 1 + alphaQ sr fc q / gainA db := by linarith
  have AA : alphaQ sr fc q * gainA db ≤ G ^ 2 * (alphaQ sr fc q / gainA db) := by
    rw [mul_div_assoc', le_div_iff₀ hA]
    have := pow_le_pow_left₀ hA.le hg.le 2
    nlinarith
  have hpA : 0 < alphaQ sr fc q * gainA db := by positivity
  have c1 := abs_le.mp (Real.abs_cos_le_one (angle sr fc))
  simp only [abs_div, abs_of_pos ha]
  rw [← add_div, ← add_div, div_le_iff₀ ha]
  have e1 : |-2 * Real.cos (angle sr fc)| ≤ 2 := by rw [abs_le]; constructor <;> linarith
  have e3 : |1 - alphaQ sr fc q * gainA db| ≤ 1 + alphaQ sr fc q * gainA db := by rw [abs_le]; constructor <;> linarith
  rw [abs_of_pos (show 0 < 1 + alphaQ sr fc q * gainA db by linarith)]
  nlinarith

theorem C119_gain_shelves {sr fc db slope : ℝ} (h : ValidShelf sr fc slope) (hg : GainIn db G) (b : Build) :
    (∀ r : LowShelf ℝ, GainAtMost b (r.setCoefficients sr fc db slope) (7 * G ^ 2 / shelfMargin sr fc (gainA db) slope)) ∧
    (∀ r : HighShelf ℝ, GainAtMost b (r.setCoefficients sr fc db slope) (7 * G ^ 2 / shelfMargin sr fc (gainA db) slope)) := by
  have hA := gainA_pos db
  have hG := hg.one_le
  have hR := one_le_slopeR hA h.2.2.1 h.2.2.2
  obtain ⟨m1, m2⟩ := shelf_poleMargins hA h
  have hx := Real.abs_cos_le_one (angle sr fc)
  have hy : 0 < Real.sin (angle sr fc) := h.params.sin_pos
  have hy1 := Real.sin_le_one (angle sr fc)
  have sl := (shelfShape (R := slopeR (gainA db) slope) hA hg.le hg.ge hG hR hx hy hy1).sum hA hg.le hG hR
  have sh := (shelfShape (R := slopeR (gainA db) slope) (x := -Real.cos (angle sr fc)) hA hg.le hg.ge hG hR
    (by rwa [_root_.abs_neg]) hy hy1).sum hA hg.le hG hR
  simp only [mul_neg, ← sub_eq_add_neg, sub_neg_eq_add] at sh
  refine ⟨fun r => (r.implements _ _ _ _).gainAtMost m1 ?_, fun r => (r.implements _ _ _ _).gainAtMost m2 ?_⟩
  · exact (le_add_of_nonneg_right (abs_nonneg _)).trans ((le_add_of_nonneg_right (abs_nonneg _)).trans sl)
  · rw [show ∀ a b c : ℝ, -2 * a * b / c = -(2 * a * b / c) from fun a b c => by ring, _root_.abs_neg]
    exact (le_add_of_nonneg_right (abs_nonneg _)).trans ((le_add_of_nonneg_right (abs_nonneg _)).trans sh)

section
variable (hL : AccurateTrig L k) (hP : AccuratePow L k) (hf : f.Roomy) (hp : 7 ≤ f.p) (hk : 0 ≤ k)
include hL hP hf hp hk

/-- **C119**, C43 in floating point: a Peak followed by the one with the opposite gain gives the input back, up to the error of the
first, amplified by the second, and the error of the second. -/
theorem C119_peak_cancels {X E Y E' : ℝ} (h : PeakResolved k G sr fc db q) (h' : PeakResolved k G sr fc (neg db) q) (hX : 0 ≤ X)
    (hr : 191808 * G ^ 4 * (X + f.tiny) ≤ rbjMargin sr.toReal fc.toReal (q.toReal * gainA db.toReal) ^ 2 * 2 ^ f.emax)
    (hE : E = gainBound f k G (1 / (2 * q.toReal)) (rbjMargin sr.toReal fc.toReal (q.toReal * gainA db.toReal)) X)
    (hY : Y = 5 * G ^ 2 / rbjMargin sr.toReal fc.toReal (q.toReal * gainA db.toReal) * X + E)
    (hr' : 191808 * G ^ 4 * (Y + f.tiny) ≤ rbjMargin sr.toReal fc.toReal (q.toReal * gainA (-db.toReal)) ^ 2 * 2 ^ f.emax)
    (hE' : E' = gainBound f k G (1 / (2 * q.toReal)) (rbjMargin sr.toReal fc.toReal (q.toReal * gainA (-db.toReal))) Y)
    (s t : Peak (Fl L)) (b : Build) (x : ℕ → Fl L) (hx : ∀ n, (x n).Within X) :
    ∃ y z : ℕ → Fl L, Responds b (s.setCoefficients sr fc db q) x y ∧ Responds b (t.setCoefficients sr fc (neg db) q) y z ∧
      ∀ n, (z n).Finite ∧ |(z n).toReal - (x n).toReal| ≤
        5 * G ^ 2 / rbjMargin sr.toReal fc.toReal (q.toReal * gainA (-db.toReal)) * E + E' := by
  have t1 := C84_peak hL hP hf hp hk h hX hr s (Peak.new : Peak ℝ)
  have g1 := C119_gain_peak h.valid h.gain b (Peak.new : Peak ℝ)
  rw [← hE] at t1
  have hE0 : 0 ≤ E := (t1.follows b).nonneg hX
  have hY0 : 0 ≤ Y := by rw [hY]; exact add_nonneg (mul_nonneg g1.nonneg hX) hE0
  have e : (neg db).toReal = -db.toReal := neg_toReal db
  have t2 := C84_peak hL hP hf hp hk h' hY0 (by rw [e]; exact hr') t (Peak.new : Peak ℝ)
  have g2 := C119_gain_peak h'.valid h'.gain b (Peak.new : Peak ℝ)
  rw [e] at t2 g2
  rw [← hE', hY] at t2
  exact undone t1 g1 t2 g2 (fun x => C43_peak_cancels h.valid .new .new db.toReal b x) x hx

/-- **C119**, the same for the shelves. -/
theorem C119_shelves_cancel {X E Y E' : ℝ} (h : ShelfResolved k G sr fc db slope) (h' : ShelfResolved k G sr fc (neg db) slope) (hX : 0 ≤ X)
    (hr : 191808 * G ^ 4 * (X + f.tiny) ≤ shelfMargin sr.toReal fc.toReal (gainA db.toReal) slope.toReal ^ 2 * 2 ^ f.emax)
    (hE : E = gainBound f k G (slopeR (gainA db.toReal) slope.toReal) (shelfMargin sr.toReal fc.toReal (gainA db.toReal) slope.toReal) X)
    (hY : Y = 7 * G ^ 2 / shelfMargin sr.toReal fc.toReal (gainA db.toReal) slope.toReal * X + E)
    (hr' : 191808 * G ^ 4 * (Y + f.tiny) ≤ shelfMargin sr.toReal fc.toReal (gainA (-db.toReal)) slope.toReal ^ 2 * 2 ^ f.emax)
    (hE' : E' = gainBound f k G (slopeR (gainA (-db.toReal)) slope.toReal) (shelfMargin sr.toReal fc.toReal (gainA (-db.toReal)) slope.toReal) Y)
    (b : Build) (x : ℕ → Fl L) (hx : ∀ n, (x n).Within X) :
    (∀ s t : LowShelf (Fl L), ∃ y z : ℕ → Fl L, Responds b (s.setCoefficients sr fc db slope) x y ∧
      Responds b (t.setCoefficients sr fc (neg db) slope) y z ∧ ∀ n, (z n).Finite ∧ |(z n).toReal - (x n).toReal| ≤
        7 * G ^ 2 / shelfMargin sr.toReal fc.toReal (gainA (-db.toReal)) slope.toReal * E + E') ∧
    (∀ s t : HighShelf (Fl L), ∃ y z : ℕ → Fl L, Responds b (s.setCoefficients sr fc db slope) x y ∧
      Responds b (t.setCoefficients sr fc (neg db) slope) y z ∧ ∀ n, (z n).Finite ∧ |(z n).toReal - (x n).toReal| ≤
        7 * G ^ 2 / shelfMargin sr.toReal fc.toReal (gainA (-db.toReal)) slope.toReal * E + E') := by
  have t1 := C84_shelves hL hP hf hp hk h hX hr
  have g1 := C119_gain_shelves h.valid h.gain b
  rw [← hE] at t1
  have hE0 : 0 ≤ E := ((t1.1 .new .new).follows b).nonneg hX
  have hY0 : 0 ≤ Y := by rw [hY]; exact add_nonneg (mul_nonneg (g1.1 .new).nonneg hX) hE0
  have e : (neg db).toReal = -db.toReal := neg_toReal db
  have t2 := C84_shelves hL hP hf hp hk h' hY0 (by rw [e]; exact hr')
  have g2 := C119_gain_shelves h'.valid h'.gain b
  rw [e] at t2 g2
  rw [← hE', hY] at t2
  exact ⟨fun s t => undone (t1.1 s .new) (g1.1 .new) (t2.1 t .new) (g2.1 .new) (fun x => (C43_shelves_cancel h.valid db.toReal b x).1 .new .new) x hx,
    fun s t => undone (t1.2 s .new) (g1.2 .new) (t2.2 t .new) (g2.2 .new) (fun x => (C43_shelves_cancel h.valid db.toReal b x).2 .new .new) x hx⟩

end

/-! ## Numbers -/

theorem binary64_tiny : binary64.tiny ≤ binary64.u / 1000 := by
  have : binary64.tiny ≤ (2 : ℝ) ^ (-100 : ℤ) := zpow_le_zpow_right₀ one_le_two (by decide)
  refine this.trans ?_
  rw [show binary64.u = 1 / 2 ^ 53 from rfl]; norm_num

theorem gainBound_le {R m M E₀ X B : ℝ} (hX : 1 ≤ X) (hM : 0 < M) (hm : M ≤ m) (he : gainErr binary64 2 1.42 R ≤ E₀) (hB : 0 ≤ B)
    (h : 36288 * 1.42 ^ 4 * (1.001 * binary64.u) + 34 * 1.42 ^ 2 * E₀ ≤ B * M ^ 2) : gainBound binary64 2 1.42 R m X ≤ B * X := by
  have ht := binary64_tiny
  have hu := binary64.u_pos
  unfold gainBound
  rw [div_le_iff₀ (by have := hM.trans_le hm; positivity)]
  have h1 := mul_le_mul_of_nonneg_left (pow_le_pow_left₀ hM.le hm 2) hB
  have h2 := mul_le_mul_of_nonneg_right (h.trans h1) (show 0 ≤ X by linarith)
  have h3 := mul_le_mul_of_nonneg_right he (show 0 ≤ X by linarith)
  have h4 : binary64.u ≤ binary64.u * X := le_mul_of_one_le_right hu.le hX
  calc _ ≤ (36288 * 1.42 ^ 4 * (1.001 * binary64.u) + 34 * 1.42 ^ 2 * E₀) * X := by linarith
    _ ≤ _ := by linarith

section
variable {L : Libm binary64} (hL : AccurateTrig L 2) {sr fc db q slope : Fl L} (hsr : sr.Finite) (hfc : fc.Finite)
    (h1 : 1 ≤ sr.toReal) (h2 : sr.toReal ≤ 2 ^ 100)
include hL hsr hfc h1 h2

section
variable (hP : AccuratePow L 2) (hdb : db.Finite) (h3 : sr.toReal / 8 ≤ fc.toReal) (h4 : fc.toReal ≤ 3 / 8 * sr.toReal) (hd : |db.toReal| ≤ 6)
include hP hdb h3 h4 hd

theorem peak_stage {X : ℝ} (hX1 : 1 ≤ X) (hX2 : X ≤ 2000) (hq : q.Finite) (h5 : 1 ≤ q.toReal) (h6 : q.toReal ≤ 2) (b : Build) (s : Peak (Fl L)) :
    Tracks (s.setCoefficients sr fc db q) ((Peak.new : Peak ℝ).setCoefficients sr.toReal fc.toReal db.toReal q.toReal) X (2.6 / 10 ^ 6 * X) ∧
    GainAtMost b ((Peak.new : Peak ℝ).setCoefficients sr.toReal fc.toReal db.toReal q.toReal) 1541 := by
  have hbig : (2 : ℝ) ^ (150 : ℤ) ≤ 2 ^ binary64.emax := zpow_le_zpow_right₀ one_le_two (by decide)
  have ht := binary64_tiny
  have hu : binary64.u = 1 / 2 ^ 53 := rfl
  have hg := gainIn_six hd
  norm_num at hbig h2
  obtain ⟨hm, he, hR, hX⟩ := peakResolved_of (k := 2) (r := 1 / 8) (Q := 2) (X := X) (by norm_num) (by norm_num) (by norm_num) hg (by norm_num)
    (by rw [hu]; norm_num) (by norm_num [binary64]) hsr hfc hq hdb (by linarith) h1 (by linarith)
    (by linarith) (by linarith) h5 h6 (by rw [hu] at ht; norm_num at ht ⊢; linarith)
  refine ⟨(C84_peak hL hP binary64_roomy (by decide) (by norm_num) hR (by linarith) hX s .new).le
    (gainBound_le hX1 (by norm_num) hm he (by norm_num) (by rw [hu]; norm_num)), (C119_gain_peak hR.valid hg b .new).le ?_⟩
  rw [div_le_iff₀ (lt_of_lt_of_le (by norm_num) hm)]
  refine le_trans ?_ (mul_le_mul_of_nonneg_left hm (by norm_num))
  norm_num

theorem shelf_stage {X : ℝ} (hX1 : 1 ≤ X) (hX2 : X ≤ 2000) (hsl : slope.Finite) (h5 : 1 / 2 ≤ slope.toReal) (h6 : slope.toReal ≤ 1) (b : Build) :
    (∀ s : LowShelf (Fl L), Tracks (s.setCoefficients sr fc db slope)
      ((LowShelf.new : LowShelf ℝ).setCoefficients sr.toReal fc.toReal db.toReal slope.toReal) X (3.2 / 10 ^ 7 * X) ∧
      GainAtMost b ((LowShelf.new : LowShelf ℝ).setCoefficients sr.toReal fc.toReal db.toReal slope.toReal) 557) ∧
    (∀ s : HighShelf (Fl L), Tracks (s.setCoefficients sr fc db slope)
      ((HighShelf.new : HighShelf ℝ).setCoefficients sr.toReal fc.toReal db.toReal slope.toReal) X (3.2 / 10 ^ 7 * X) ∧
      GainAtMost b ((HighShelf.new : HighShelf ℝ).setCoefficients sr.toReal fc.toReal db.toReal slope.toReal) 557) := by
  have hbig : (2 : ℝ) ^ (150 : ℤ) ≤ 2 ^ binary64.emax := zpow_le_zpow_right₀ one_le_two (by decide)
  have ht := binary64_tiny
  have hu : binary64.u = 1 / 2 ^ 53 := rfl
  have hg := gainIn_six hd
  norm_num at hbig h2
  obtain ⟨hm, he, hR, hX⟩ := shelfResolved_of (k := 2) (r := 1 / 8) (B := 2.04) (g := 1.2) (X := X) (by norm_num) (by norm_num) hg
    (by norm_num) (by norm_num) (by norm_num) (by norm_num)
    (by rw [hu]; norm_num) hsr hfc hsl hdb (by linarith) h1 (by linarith) (by linarith)
    (by linarith) (by linarith) h5 h6 (by rw [hu] at ht; norm_num at ht ⊢; linarith)
  obtain ⟨t1, t2⟩ := C84_shelves hL hP binary64_roomy (by decide) (by norm_num) hR (by linarith) hX
  obtain ⟨g1, g2⟩ := C119_gain_shelves hR.valid hg b
  have hb := gainBound_le (B := 3.2 / 10 ^ 7) hX1 (by norm_num) hm he (by norm_num) (by rw [hu]; norm_num)
  have hG : 7 * 1.42 ^ 2 / shelfMargin sr.toReal fc.toReal (gainA db.toReal) slope.toReal ≤ 557 := by
    rw [div_le_iff₀ (lt_of_lt_of_le (by norm_num) hm)]
    refine le_trans ?_ (mul_le_mul_of_nonneg_left hm (by norm_num))
    norm_num
  exact ⟨fun s => ⟨(t1 s .new).le hb, (g1 .new).le hG⟩, fun s => ⟨(t2 s .new).le hb, (g2 .new).le hG⟩⟩

/-- **C119** in f64: frequencies from 1/8 to 3/8 of the sample rate, gains up to 6 dB, `q` from 1 to 2, slopes from 1/2 to 1. Boost and
cut give samples in [-1, 1] back up to 1/100 (Peak) and 1/2000 (shelves), for ever. -/
theorem C119_cancel_f64 (b : Build) (x : ℕ → Fl L) (hx : ∀ n, (x n).Within 1) :
    (∀ q : Fl L, q.Finite → 1 ≤ q.toReal → q.toReal ≤ 2 → ∀ s t : Peak (Fl L), ∃ y z : ℕ → Fl L,
      Responds b (s.setCoefficients sr fc db q) x y ∧ Responds b (t.setCoefficients sr fc (neg db) q) y z ∧
        ∀ n, (z n).Finite ∧ |(z n).toReal - (x n).toReal| ≤ 1 / 100) ∧
    (∀ slope : Fl L, slope.Finite → 1 / 2 ≤ slope.toReal → slope.toReal ≤ 1 →
      (∀ s t : LowShelf (Fl L), ∃ y z : ℕ → Fl L, Responds b (s.setCoefficients sr fc db slope) x y ∧
        Responds b (t.setCoefficients sr fc (neg db) slope) y z ∧ ∀ n, (z n).Finite ∧ |(z n).toReal - (x n).toReal| ≤ 1 / 2000) ∧
      (∀ s t : HighShelf (Fl L), ∃ y z : ℕ → Fl L, Responds b (s.setCoefficients sr fc db slope) x y ∧
        Responds b (t.setCoefficients sr fc (neg db) slope) y z ∧ ∀ n, (z n).Finite ∧ |(z n).toReal - (x n).toReal| ≤ 1 / 2000)) := by
  have e : (neg db).toReal = -db.toReal := neg_toReal db
  have hdb' : (neg db).Finite := neg_finite.mpr hdb
  have hd' : |(neg db).toReal| ≤ 6 := by rw [e, _root_.abs_neg]; exact hd
  have hv : 0 < fc.toReal := by linarith
  have hv2 : fc.toReal < sr.toReal / 2 := by linarith
  constructor
  · intro q hq h5 h6 s t
    obtain ⟨t1, g1⟩ := peak_stage hL hsr hfc h1 h2 hP hdb h3 h4 hd le_rfl (by norm_num) hq h5 h6 b s
    obtain ⟨t2, g2⟩ := peak_stage hL hsr hfc h1 h2 hP hdb' h3 h4 hd' (X := 1541 * 1 + 2.6 / 10 ^ 6 * 1) (by norm_num) (by norm_num) hq h5 h6 b t
    rw [e] at t2 g2
    obtain ⟨y, z, hy, hz, h⟩ := undone t1 g1 t2 g2 (fun x => C43_peak_cancels ⟨hv, hv2, by linarith⟩ .new .new db.toReal b x) x hx
    exact ⟨y, z, hy, hz, fun n => ⟨(h n).1, (h n).2.trans (by norm_num)⟩⟩
  · intro slope hsl h5 h6
    obtain ⟨a1, a2⟩ := shelf_stage hL hsr hfc h1 h2 hP hdb h3 h4 hd le_rfl (by norm_num) hsl h5 h6 b
    obtain ⟨c1, c2⟩ := shelf_stage hL hsr hfc h1 h2 hP hdb' h3 h4 hd' (X := 557 * 1 + 3.2 / 10 ^ 7 * 1) (by norm_num) (by norm_num) hsl h5 h6 b
    rw [e] at c1 c2
    have hS : ValidShelf sr.toReal fc.toReal slope.toReal := ⟨hv, hv2, by linarith, h6⟩
    refine ⟨fun s t => ?_, fun s t => ?_⟩
    · obtain ⟨y, z, hy, hz, h⟩ := undone (a1 s).1 (a1 s).2 (c1 t).1 (c1 t).2 (fun x => (C43_shelves_cancel hS db.toReal b x).1 .new .new) x hx
      exact ⟨y, z, hy, hz, fun n => ⟨(h n).1, (h n).2.trans (by norm_num)⟩⟩
    · obtain ⟨y, z, hy, hz, h⟩ := undone (a2 s).1 (a2 s).2 (c2 t).1 (c2 t).2 (fun x => (C43_shelves_cancel hS db.toReal b x).2 .new .new) x hx
      exact ⟨y, z, hy, hz, fun n => ⟨(h n).1, (h n).2.trans (by norm_num)⟩⟩

end

/-- **C119** in f64: frequencies from 1/16 to 7/16 of the sample rate, `q` from 1/2 to 1, samples in [-1, 1]; sums and differences are
those of f64. -/
theorem C119_complementary_f64 (hq : q.Finite) (h3 : sr.toReal / 16 ≤ fc.toReal) (h4 : fc.toReal ≤ 7 / 16 * sr.toReal) (h5 : 1 / 2 ≤ q.toReal)
    (h6 : q.toReal ≤ 1) (lp : LowPass (Fl L)) (hp : HighPass (Fl L)) (bp1 : BandPass1 (Fl L))
    (bp2 : BandPass2 (Fl L)) (bs : BandStop (Fl L)) (ap : AllPass (Fl L)) (b : Build) (x : ℕ → Fl L) (hx : ∀ n, (x n).Within 1) :
    ∃ yl yh y1 y2 ys ya : ℕ → Fl L, Responds b (lp.setCoefficients sr fc q) x yl ∧ Responds b (hp.setCoefficients sr fc q) x yh ∧
      Responds b (bp1.setCoefficients sr fc q) x y1 ∧ Responds b (bp2.setCoefficients sr fc q) x y2 ∧
      Responds b (bs.setCoefficients sr fc q) x ys ∧ Responds b (ap.setCoefficients sr fc q) x ya ∧
      ∀ n, ((yl n +. yh n).Finite ∧ (ys n +. y2 n).Finite ∧ (ys n -. y2 n).Finite ∧ (q *. y2 n).Finite) ∧
        |(yl n +. yh n).toReal - (ys n).toReal| ≤ 4 / 10 ^ 7 ∧ |(ys n +. y2 n).toReal - (x n).toReal| ≤ 4 / 10 ^ 7 ∧
        |(ys n -. y2 n).toReal - (ya n).toReal| ≤ 4 / 10 ^ 7 ∧ |(y1 n).toReal - (q *. y2 n).toReal| ≤ 4 / 10 ^ 7 := by
  obtain ⟨t1, t2, t3, t4, t5, t6⟩ := C83_f64 hL hsr hfc hq h1 h2 h3 h4 h5 h6
  have hval : ValidParams sr.toReal fc.toReal q.toReal := ⟨by linarith, by linarith, by linarith⟩
  obtain ⟨g1, g2, g3, g4, g5, g6⟩ := C112_gain_rbj hval b
  obtain ⟨zl, zh, z1, z2, zs, za, rl, rh, r1, r2, rs, ra, id⟩ := C44_complementary hval (LowPass.new : LowPass ℝ) (HighPass.new : HighPass ℝ)
    (BandPass1.new : BandPass1 ℝ) (BandPass2.new : BandPass2 ℝ) (BandStop.new : BandStop ℝ) (AllPass.new : AllPass ℝ) b (fun n => (x n).toReal)
  have hm := rbjMargin_ge (sr := sr.toReal) (fc := fc.toReal) (q := q.toReal) (r := 1 / 16) (Q := 1) (show 0 < sr.toReal by linarith) (by norm_num)
    (by linarith) (by linarith) h5 h6
  have hG : 4 / rbjMargin sr.toReal fc.toReal q.toReal ≤ 400 := by
    rw [div_le_iff₀ (lt_of_lt_of_le (by norm_num) hm)]
    refine le_trans ?_ (mul_le_mul_of_nonneg_left hm (by norm_num))
    norm_num
  obtain ⟨yl, hl⟩ := (t1 lp .new).1 b x
  obtain ⟨yh, hh⟩ := (t2 hp .new).1 b x
  obtain ⟨y1, h1'⟩ := (t3 bp1 .new).1 b x
  obtain ⟨y2, h2'⟩ := (t4 bp2 .new).1 b x
  obtain ⟨ys, hs⟩ := (t5 bs .new).1 b x
  obtain ⟨ya, ha⟩ := (t6 ap .new).1 b x
  refine ⟨yl, yh, y1, y2, ys, ya, hl, hh, h1', h2', hs, ha, fun n => ?_⟩
  have al : Approx (yl n) (zl n) _ := (t1 lp .new).2.2 b x yl zl hx hl rl n
  have ah : Approx (yh n) (zh n) _ := (t2 hp .new).2.2 b x yh zh hx hh rh n
  obtain ⟨f1, e1⟩ := (t3 bp1 .new).2.2 b x y1 z1 hx h1' r1 n
  have a2 : Approx (y2 n) (z2 n) _ := (t4 bp2 .new).2.2 b x y2 z2 hx h2' r2 n
  have as : Approx (ys n) (zs n) _ := (t5 bs .new).2.2 b x ys zs hx hs rs n
  obtain ⟨fa, ea⟩ := (t6 ap .new).2.2 b x ya za hx ha ra n
  have lv : ∀ {τ : Type} [Processor τ ℝ] {r : τ} {z : ℕ → ℝ}, GainAtMost b r (4 / rbjMargin sr.toReal fc.toReal q.toReal) →
      Responds b r (fun n => (x n).toReal) z → |z n| ≤ 400 := fun g h => by
    simpa using (g.le hG).level (X := 1) h (fun n => (hx n).2) n
  have ll := lv (g1 _) rl
  have lh := lv (g2 _) rh
  have l2 := lv (g4 _) r2
  have ls := lv (g5 _) rs
  obtain ⟨i1, i2, i3, i4⟩ := id n
  have hbig : (2 : ℝ) ^ (103 : ℤ) ≤ 2 ^ binary64.emax := zpow_le_zpow_right₀ one_le_two (by decide)
  have hu : binary64.u = 1 / 2 ^ 53 := rfl
  have ht := binary64_tiny
  rw [hu] at ht
  norm_num at hbig ht
  have s1 : Approx (yl n +. yh n) (zl n + zh n) (2.1 / 10 ^ 7) := al.add ah (B := 1000)
    (by have := abs_add_le (zl n) (zh n); linarith) (by linarith) (by rw [hu]; norm_num; linarith)
  have s2 : Approx (ys n +. y2 n) (zs n + z2 n) (2.1 / 10 ^ 7) := as.add a2 (B := 1000)
    (by have := abs_add_le (zs n) (z2 n); linarith) (by linarith) (by rw [hu]; norm_num; linarith)
  have s3 : Approx (ys n -. y2 n) (zs n - z2 n) (2.1 / 10 ^ 7) := as.sub a2 (B := 1000)
    (by have := abs_sub (zs n) (z2 n); linarith) (by linarith) (by rw [hu]; norm_num; linarith)
  have s4 : Approx (q *. y2 n) (q.toReal * z2 n) (2.1 / 10 ^ 7) := by
    have aq : Approx q q.toReal 0 := ⟨hq, by simp⟩
    have hq0 : |q.toReal| ≤ 1 := by rw [abs_le]; constructor <;> linarith
    have hqz : |q.toReal * z2 n| ≤ 400 := by
      rw [abs_mul]
      calc |q.toReal| * |z2 n| ≤ 1 * 400 := mul_le_mul hq0 l2 (abs_nonneg _) (by norm_num)
        _ = 400 := by norm_num
    refine aq.mul a2 (x := 1 / 10 ^ 7) (B := 1000) ?_ (by linarith) (by linarith) (by rw [hu]; norm_num; linarith)
    linarith
  obtain ⟨_, es⟩ := as
  rw [i1] at s1
  rw [i2] at s2
  rw [i3] at s3
  rw [← i4] at s4
  refine ⟨⟨s1.1, s2.1, s3.1, s4.1⟩, ?_, s2.2.trans (by norm_num), ?_, ?_⟩
  · have := s1.2
    rw [abs_le] at *; constructor <;> linarith
  · have := s3.2
    rw [abs_le] at *; constructor <;> linarith
  · have := s4.2
    rw [abs_le] at *; constructor <;> linarith

end

/-- **C119**, where they fail: in f32 at 1 Hz and 48 kHz, BandStop plus BandPass2 is not the input, and LowPass plus HighPass never gives a
number again either, although the input is silent. -/
theorem C119_split_lost_f32 {L : Libm binary32} (hL : SmallAngle L) {sr fc q : Fl L} (hsr : sr.Finite) (hfc : fc.Finite) (hq : q.Finite)
    (h1 : sr.toReal = 48000) (h2 : fc.toReal = 1) (h3 : q.toReal = 11863283 / 2 ^ 24) (lp : LowPass (Fl L)) (hp : HighPass (Fl L))
    (bp : BandPass2 (Fl L)) (bs : BandStop (Fl L)) (b : Build) (x : ℕ → Fl L) (hx : (x 0).Finite) (hx0 : (x 0).toReal = -1583 / 2048)
    (hx1 : ∀ n, 1 ≤ n → (x n).Finite ∧ (x n).toReal = 0) :
    ∃ yl yh y2 ys : ℕ → Fl L, Responds b (lp.setCoefficients sr fc q) x yl ∧ Responds b (hp.setCoefficients sr fc q) x yh ∧
      Responds b (bp.setCoefficients sr fc q) x y2 ∧ Responds b (bs.setCoefficients sr fc q) x ys ∧
      ∃ N, ∀ n, N ≤ n → ¬ (ys n +. y2 n).Finite ∧ ¬ (yl n +. yh n).Finite := by
  obtain ⟨d1, d2, -, -⟩ := C80_diverges_f32 hL hsr hfc hq h1 h2 h3
  obtain ⟨yh, hyh, -, N, hN⟩ := d1 hp b x hx hx0 hx1
  obtain ⟨ys, hys, -, M, hM⟩ := d2 bs b x hx hx0 hx1
  obtain ⟨yl, hyl⟩ : ∃ y, Responds b (lp.setCoefficients sr fc q) x y := by
    obtain ⟨y, hy⟩ := Biquad2.total_fl (lp.setCoefficients sr fc q).biquad b x
    exact ⟨y, (LowPass.responds_iff _).mpr hy⟩
  obtain ⟨y2, hy2⟩ : ∃ y, Responds b (bp.setCoefficients sr fc q) x y := by
    obtain ⟨y, hy⟩ := Biquad2.total_fl (bp.setCoefficients sr fc q).biquad b x
    exact ⟨y, (BandPass2.responds_iff _).mpr hy⟩
  exact ⟨yl, yh, y2, ys, hyl, hyh, hy2, hys, max N M, fun n hn =>
    ⟨add_not_finite_left (hM n (le_trans (le_max_right _ _) hn)), add_not_finite_right (hN n (le_trans (le_max_left _ _) hn))⟩⟩

/-- The conditions of C119 in f64: 48 kHz, 12 kHz, 6 dB, `q = 1`, with a library that rounds correctly. Those of the numerical versions are
among them; those of `C119_split_lost_f32` are the ones of C80. -/
example : ∃ (L : Libm binary64) (sr fc db : Fl L), AccurateTrig L 2 ∧ AccuratePow L 2 ∧ sr.toReal = 48000 ∧ fc.toReal = 12000 ∧ db.toReal = 6 ∧
    PeakResolved 2 1.42 sr fc db one ∧ PeakResolved 2 1.42 sr fc (neg db) one ∧ ShelfResolved 2 1.42 sr fc db one ∧
    ShelfResolved 2 1.42 sr fc (neg db) one ∧ Resolved 2 sr fc one := by
  let L : Libm binary64 :=
    { exp := id, cos := fun x => FP.ofReal binary64 false (Real.cos x.toReal), sin := fun x => FP.ofReal binary64 false (Real.sin x.toReal),
      log10 := id, powf := fun x y => FP.ofReal binary64 false (x.toReal ^ y.toReal) }
  have hlim : (2 : ℝ) ^ (101 : ℤ) ≤ binary64.lim := zpow_le_zpow_right₀ one_le_two (by decide)
  have ex : ∀ n : ℕ, n ≤ 50000 → ∃ a : Fl L, a.Finite ∧ a.toReal = n := fun n hn => by
    have hn' : (n : ℝ) ≤ 50000 := by exact_mod_cast hn
    refine exists_of_isRep L (isRep_nat (hn.trans (by norm_num [binary64]))) ?_
    rw [abs_of_nonneg (by positivity)]; norm_num at hlim ⊢; linarith
  obtain ⟨a, ha1, ha2⟩ := ex 48000 (by norm_num)
  obtain ⟨c, hc1, hc2⟩ := ex 12000 (by norm_num)
  obtain ⟨d, hd1, hd2⟩ := ex 6 (by norm_num)
  have hbig : (2 : ℝ) ^ (150 : ℤ) ≤ 2 ^ binary64.emax := zpow_le_zpow_right₀ one_le_two (by decide)
  have ht := binary64_tiny
  have hu : binary64.u = 1 / 2 ^ 53 := rfl
  push_cast at ha2 hc2 hd2
  norm_num at hbig
  have h1 : (one : Fl L).toReal = 1 := one_toReal
  have nd : (neg d).toReal = -6 := by rw [neg_toReal, hd2]
  have key : ∀ db : Fl L, db.Finite → |db.toReal| ≤ 6 → PeakResolved 2 1.42 a c db one ∧ ShelfResolved 2 1.42 a c db one := by
    intro db hdb hd
    have hg := gainIn_six hd
    obtain ⟨-, -, h, -⟩ := peakResolved_of (k := 2) (r := 1 / 8) (Q := 2) (X := 1) (q := one) (by norm_num) (by norm_num) (by norm_num) hg (by norm_num)
      (by rw [hu]; norm_num) (by norm_num [binary64]) ha1 hc1 one_finite hdb (by linarith) (by rw [ha2]; norm_num) (by rw [ha2]; linarith)
      (by rw [ha2, hc2]; norm_num) (by rw [ha2, hc2]; norm_num) (by rw [h1]) (by rw [h1]; norm_num) (by rw [hu] at ht; norm_num at ht ⊢; linarith)
    obtain ⟨-, -, h', -⟩ := shelfResolved_of (k := 2) (r := 1 / 8) (B := 2.04) (g := 1.2) (X := 1) (slope := one) (by norm_num) (by norm_num) hg
      (by norm_num) (by norm_num) (by norm_num) (by norm_num)
      (by rw [hu]; norm_num) ha1 hc1 one_finite hdb (by linarith) (by rw [ha2]; norm_num) (by rw [ha2]; linarith) (by linarith)
      (by rw [ha2, hc2]; norm_num) (by rw [ha2, hc2]; norm_num) (by rw [h1]; norm_num) (by rw [h1]) (by rw [hu] at ht; norm_num at ht ⊢; linarith)
    exact ⟨h, h'⟩
  obtain ⟨k1, k2⟩ := key d hd1 (by rw [hd2]; norm_num)
  obtain ⟨k3, k4⟩ := key (neg d) (neg_finite.mpr hd1) (by rw [nd]; norm_num)
  obtain ⟨hR, -⟩ := resolved_of (X := 1) (r := 1 / 16) (Q := 1) (q := (one : Fl L)) (by rw [hu]; norm_num) (by norm_num [binary64]) ha1 hc1 one_finite
    (by rw [ha2]; norm_num) (by rw [ha2]; linarith) (by norm_num) (by rw [ha2, hc2]; norm_num) (by rw [ha2, hc2]; norm_num) (by rw [h1]; norm_num)
    (by rw [h1]) (by rw [hu] at ht; norm_num at ht ⊢; linarith)
  exact ⟨L, a, c, d, .of_rounded binary64_roomy (fun _ _ => rfl) (fun _ _ => rfl), .of_rounded binary64_roomy (by decide) (fun _ _ _ _ => rfl),
    ha2, hc2, hd2, k1, k3, k2, k4, hR⟩

end Rasp
