import Verif.Props.Scale
import Verif.Model.Rbj
import Verif.Lemmas.RbjReal
import Verif.Lemmas.RoundErr
import Verif.Lemmas.WindowsFl

/-!
# C115: the rbj filters depend on the frequency and the sample rate only through their ratio

In exact arithmetic always, in floating point bit for bit for powers of two (twice the sample rate and twice the frequency).
-/

namespace Rasp
open FloatOps Fl

/-- The filters are the same if the computed angles are. -/
theorem same_filters {T : Type} [FloatOps T] {sr fr sr' fr' : T} (h : two *. pi *. fr' /. sr' = two *. pi *. fr /. sr) (q db S : T) :
    (∀ s : LowPass T, s.setCoefficients sr' fr' q = s.setCoefficients sr fr q) ∧
    (∀ s : HighPass T, s.setCoefficients sr' fr' q = s.setCoefficients sr fr q) ∧
    (∀ s : BandPass1 T, s.setCoefficients sr' fr' q = s.setCoefficients sr fr q) ∧
    (∀ s : BandPass2 T, s.setCoefficients sr' fr' q = s.setCoefficients sr fr q) ∧
    (∀ s : BandStop T, s.setCoefficients sr' fr' q = s.setCoefficients sr fr q) ∧
    (∀ s : AllPass T, s.setCoefficients sr' fr' q = s.setCoefficients sr fr q) ∧
    (∀ s : Peak T, s.setCoefficients sr' fr' db q = s.setCoefficients sr fr db q) ∧
    (∀ s : LowShelf T, s.setCoefficients sr' fr' db S = s.setCoefficients sr fr db S) ∧
    (∀ s : HighShelf T, s.setCoefficients sr' fr' db S = s.setCoefficients sr fr db S) := by
  refine ⟨fun s => ?_, fun s => ?_, fun s => ?_, fun s => ?_, fun s => ?_, fun s => ?_, fun s => ?_, fun s => ?_, fun s => ?_⟩
  · simp only [LowPass.setCoefficients, h]
  · simp only [HighPass.setCoefficients, h]
  · simp only [BandPass1.setCoefficients, h]
  · simp only [BandPass2.setCoefficients, h]
  · simp only [BandStop.setCoefficients, h]
  · simp only [AllPass.setCoefficients, h]
  · simp only [Peak.setCoefficients, h]
  · simp only [LowShelf.setCoefficients, h]
  · simp only [HighShelf.setCoefficients, h]

/-- **C115**, exact arithmetic: any common factor of frequency and sample rate cancels. -/
theorem C115_exact {c : ℝ} (hc : c ≠ 0) (sr f q db S : ℝ) :
    (∀ s : LowPass ℝ, s.setCoefficients (c * sr) (c * f) q = s.setCoefficients sr f q) ∧
    (∀ s : HighPass ℝ, s.setCoefficients (c * sr) (c * f) q = s.setCoefficients sr f q) ∧
    (∀ s : BandPass1 ℝ, s.setCoefficients (c * sr) (c * f) q = s.setCoefficients sr f q) ∧
    (∀ s : BandPass2 ℝ, s.setCoefficients (c * sr) (c * f) q = s.setCoefficients sr f q) ∧
    (∀ s : BandStop ℝ, s.setCoefficients (c * sr) (c * f) q = s.setCoefficients sr f q) ∧
    (∀ s : AllPass ℝ, s.setCoefficients (c * sr) (c * f) q = s.setCoefficients sr f q) ∧
    (∀ s : Peak ℝ, s.setCoefficients (c * sr) (c * f) db q = s.setCoefficients sr f db q) ∧
    (∀ s : LowShelf ℝ, s.setCoefficients (c * sr) (c * f) db S = s.setCoefficients sr f db S) ∧
    (∀ s : HighShelf ℝ, s.setCoefficients (c * sr) (c * f) db S = s.setCoefficients sr f db S) := by
  refine same_filters ?_ q db S
  simp only [real_mul, real_div, real_two, real_pi]
  rw [mul_left_comm, mul_div_mul_left _ _ hc]

variable {f : Fmt} {L : Libm f}

theorem FP.ofReal_congr {s t : Bool} {x : ℝ} (h : x ≠ 0) : FP.ofReal f s x = FP.ofReal f t x := by
  unfold FP.ofReal
  simp only [if_neg h]

/-- A common positive factor of two finite numbers cancels in their quotient, bit for bit. -/
theorem div_cancel {x y x' y' : Fl L} (hx : x.Finite) (hy : y.Finite) (hx' : x'.Finite) (hy' : y'.Finite) {c : ℝ} (hc : 0 < c)
    (h0 : x.toReal ≠ 0) (hy0 : y.toReal ≠ 0) (ex : x'.toReal = c * x.toReal) (ey : y'.toReal = c * y.toReal) : x' /. y' = x /. y := by
  have fin : ∀ {z : Fl L}, z.Finite → ∃ s a ha, z = (FP.fin s a ha : FP f) := by
    intro z hz
    match z, hz with
    | FP.fin s a ha, _ => exact ⟨s, a, ha, rfl⟩
  have nz : ∀ {s a} {ha}, FP.toReal (FP.fin s a ha : FP f) ≠ 0 → a ≠ 0 := by
    intro s a ha h h0
    have := FP.abs_toReal_fin (f := f) s a ha
    exact h (abs_eq_zero.mp (this.trans h0))
  obtain ⟨s, a, ha, rfl⟩ := fin hx
  obtain ⟨t, b, hb, rfl⟩ := fin hy
  obtain ⟨s', a', ha', rfl⟩ := fin hx'
  obtain ⟨t', b', hb', rfl⟩ := fin hy'
  change FP.toReal (FP.fin s a ha : FP f) ≠ 0 at h0
  change FP.toReal (FP.fin t b hb : FP f) ≠ 0 at hy0
  change FP.toReal (FP.fin s' a' ha' : FP f) = c * FP.toReal (FP.fin s a ha : FP f) at ex
  change FP.toReal (FP.fin t' b' hb' : FP f) = c * FP.toReal (FP.fin t b hb : FP f) at ey
  have hb0 : b' ≠ 0 := nz (by rw [ey]; exact mul_ne_zero hc.ne' hy0)
  have e1 : FP.div (FP.fin s a ha : FP f) (FP.fin t b hb) = FP.ofReal f (s != t) _ := if_neg (nz hy0)
  have e2 : FP.div (FP.fin s' a' ha' : FP f) (FP.fin t' b' hb') = FP.ofReal f (s' != t') _ := if_neg hb0
  change FP.div (FP.fin s' a' ha' : FP f) (FP.fin t' b' hb') = FP.div (FP.fin s a ha : FP f) (FP.fin t b hb)
  rw [e1, e2, ex, ey, mul_div_mul_left _ _ hc.ne']
  exact FP.ofReal_congr (div_ne_zero h0 hy0)

theorem toReal_ne_zero_of_normal {c x : Fl L} (hc : c.Finite) (hx : x.Finite) (no : (c *. x).Finite)
    (h : (2 : ℝ) ^ (f.emin + f.p - 1) ≤ |c.toReal * x.toReal|) : (c *. x).toReal ≠ 0 := by
  have nov : FP.NoOvf f (c.toReal * x.toReal) := by
    by_contra hn
    rw [mul_ovf hc hx hn] at no
    exact inf_not_finite _ no
  rw [(mul_val hc hx nov).2]
  intro h0
  have h1 : |rnd f (c.toReal * x.toReal)| = 0 := by rw [h0, _root_.abs_zero]
  have hp := f.hp
  rw [abs_rnd] at h1
  have h2 : IsRep f ((2 : ℝ) ^ f.emin) := isRep_two_zpow le_rfl
  have h3 : (2 : ℝ) ^ f.emin ≤ 2 ^ (f.emin + f.p - 1) := zpow_le_zpow_right₀ (by norm_num) (by omega)
  have := le_rnd_of_le h2 (h3.trans h)
  rw [h1] at this
  exact absurd this (not_le.mpr (two_zpow_pos _))

theorem two_pi_bounds (he : 3 ≤ f.emax) : (two *. pi : Fl L).Finite ∧ 4 ≤ (two *. pi : Fl L).toReal ∧ (two *. pi : Fl L).toReal ≤ 8 := by
  have hp := f.hp
  have hem := f.hemin
  have r : ∀ k : ℕ, IsRep f ((2 : ℝ) ^ k) := fun k => by
    have := isRep_two_zpow (f := f) (e := k) (by omega)
    rwa [zpow_natCast] at this
  have h8 : (8 : ℝ) ≤ 2 ^ f.emax := by
    have : (2 : ℝ) ^ (3 : ℤ) ≤ 2 ^ f.emax := zpow_le_zpow_right₀ (by norm_num) he
    norm_num at this
    exact this
  have p1 : (2 : ℝ) ≤ rnd f Real.pi := le_rnd_of_le (by simpa using r 1) (by linarith [Real.pi_gt_three])
  have p2 : rnd f Real.pi ≤ 4 := rnd_le_of_le (by have := r 2; norm_num at this; exact this) Real.pi_le_four
  have hv : FP.NoOvf f ((two : Fl L).toReal * (pi : Fl L).toReal) := by
    rw [two_val.2, pi_val.2]
    apply noOvf_of_le_emax
    rw [abs_of_nonneg (by positivity)]
    linarith
  have := mul_val (two_val (L := L)).1 (pi_val (L := L)).1 hv
  rw [two_val.2, pi_val.2] at this
  refine ⟨this.1, ?_, ?_⟩
  · rw [this.2]; exact le_rnd_of_le (by have := r 2; norm_num at this; exact this) (by linarith)
  · rw [this.2]; exact rnd_le_of_le (by have := r 3; norm_num at this; exact this) (by linarith)

/-- **C115**, floating point: `2 ^ k` times the sample rate and `2 ^ k` times the frequency give the same filter, bit for bit. The
frequency must be a normal number, and `2 π` times the new one must not overflow. -/
theorem C115_power_of_two (he : 3 ≤ f.emax) {sr fr sr' fr' : Fl L} {k : ℕ} (hfr : fr.Finite) (hfr' : fr'.Finite)
    (efr : fr'.toReal = 2 ^ k * fr.toReal) (hsr : sr.Finite) (hsr' : sr'.Finite) (esr : sr'.toReal = 2 ^ k * sr.toReal) (h0 : sr.toReal ≠ 0)
    (hn : (2 : ℝ) ^ (f.emin + f.p - 1) ≤ |fr.toReal|) (hv : |fr'.toReal| ≤ 2 ^ (f.emax - 3)) (q db S : Fl L) :
    (∀ s : LowPass (Fl L), s.setCoefficients sr' fr' q = s.setCoefficients sr fr q) ∧
    (∀ s : HighPass (Fl L), s.setCoefficients sr' fr' q = s.setCoefficients sr fr q) ∧
    (∀ s : BandPass1 (Fl L), s.setCoefficients sr' fr' q = s.setCoefficients sr fr q) ∧
    (∀ s : BandPass2 (Fl L), s.setCoefficients sr' fr' q = s.setCoefficients sr fr q) ∧
    (∀ s : BandStop (Fl L), s.setCoefficients sr' fr' q = s.setCoefficients sr fr q) ∧
    (∀ s : AllPass (Fl L), s.setCoefficients sr' fr' q = s.setCoefficients sr fr q) ∧
    (∀ s : Peak (Fl L), s.setCoefficients sr' fr' db q = s.setCoefficients sr fr db q) ∧
    (∀ s : LowShelf (Fl L), s.setCoefficients sr' fr' db S = s.setCoefficients sr fr db S) ∧
    (∀ s : HighShelf (Fl L), s.setCoefficients sr' fr' db S = s.setCoefficients sr fr db S) := by
  obtain ⟨hP, hP1, hP2⟩ := two_pi_bounds (L := L) he
  have hn' : (2 : ℝ) ^ (f.emin + f.p - 1) ≤ |(two *. pi : Fl L).toReal * fr.toReal| := by
    rw [abs_mul]
    refine hn.trans (le_mul_of_one_le_left (abs_nonneg _) ?_)
    rw [abs_of_pos (by linarith)]; linarith
  have hv' : (two *. pi *. fr').Finite := by
    refine (mul_val hP hfr' (noOvf_of_le_emax ?_)).1
    rw [abs_mul, abs_of_pos (show (0 : ℝ) < (two *. pi : Fl L).toReal by linarith)]
    calc (two *. pi : Fl L).toReal * |fr'.toReal| ≤ 8 * 2 ^ (f.emax - 3) := mul_le_mul hP2 hv (abs_nonneg _) (by norm_num)
      _ = 2 ^ f.emax := by
        rw [show (8 : ℝ) = 2 ^ (3 : ℤ) by norm_num, ← zpow_add₀ (by norm_num)]; congr 1; ring
  obtain ⟨h3, h4⟩ := Louder.mul (fun _ => ⟨hfr, efr⟩ : fr.Louder k fr') (.inr hn') hv'
  exact same_filters (div_cancel h3 hsr hv' hsr' (c := 2 ^ k) (by positivity) (toReal_ne_zero_of_normal hP hfr h3 hn') h0 h4 esr) q db S

/-- 1 kHz at 44.1 kHz and 2 kHz at 88.2 kHz meet the hypotheses in `f32`. -/
example {L : Libm binary32} (q : Fl L) (s : LowPass (Fl L)) :
    s.setCoefficients (ofUsize 88200) (ofUsize 2000) q = s.setCoefficients (ofUsize 44100) (ofUsize 1000) q := by
  have v : ∀ n : ℕ, n ≤ 100000 → (ofUsize n : Fl L).Finite ∧ (ofUsize n : Fl L).toReal = n := fun n hn => by
    have h1 : (n : ℝ) ≤ 100000 := by exact_mod_cast hn
    have h := ofUsize_val (L := L) (n := n) (h1.trans (by norm_num [binary32]))
    rwa [rnd_of_isRep (isRep_nat (f := binary32) (hn.trans (by norm_num [binary32])))] at h
  have a := v 88200 (by norm_num)
  have b := v 44100 (by norm_num)
  have c := v 2000 (by norm_num)
  have d := v 1000 (by norm_num)
  refine (C115_power_of_two (k := 1) (by norm_num [binary32]) d.1 c.1 ?_ b.1 a.1 ?_ ?_ ?_ ?_ q q q).1 s
  · rw [c.2, d.2]; norm_num
  · rw [a.2, b.2]; norm_num
  · rw [b.2]; norm_num
  · rw [d.2]; norm_num [binary32]
  · rw [c.2]; norm_num [binary32]

end Rasp
