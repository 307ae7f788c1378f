import Verif.Props.Phaser
import Verif.Props.ChainFloat
import Verif.Props.PeakGain

/-!
# C162: phasers in f64
-/

namespace Rasp
open FloatOps Fl
open Filter hiding pi
variable {b : Build} {L : Libm binary64} {sr fc q : Fl L}

/-- One all-pass filter: error and gain. -/
theorem allPass_f64 (hL : AccurateTrig L 2) (hsr : sr.Finite) (h1 : 1 ≤ sr.toReal) (h2 : sr.toReal ≤ 2 ^ 100) (hfc : fc.Finite) (hq : q.Finite)
    (h3 : sr.toReal / 16 ≤ fc.toReal) (h4 : fc.toReal ≤ 7 / 16 * sr.toReal) (h5 : 1 / 2 ≤ q.toReal) (h6 : q.toReal ≤ 1) {X : ℝ} (hX1 : 1 ≤ X) (hX2 : X ≤ 2 ^ 60) (b : Build)
    (s : AllPass (Fl L)) (r : AllPass ℝ) : Follows b (s.setCoefficients sr fc q) (r.setCoefficients sr.toReal fc.toReal q.toReal) X (X / 25000000) ∧
      GainAtMost b (r.setCoefficients sr.toReal fc.toReal q.toReal) 17 := by
  have hbig : (2 : ℝ) ^ (103 : ℤ) ≤ 2 ^ binary64.emax := zpow_le_zpow_right₀ one_le_two (by decide)
  have ht : binary64.tiny ≤ binary64.u / 1000 := by
    have : binary64.tiny ≤ (2 : ℝ) ^ (-100 : ℤ) := by
      unfold Fmt.tiny
      have : (2 : ℝ) ^ binary64.emin ≤ 2 ^ (-100 : ℤ) := zpow_le_zpow_right₀ one_le_two (by decide)
      have : (0 : ℝ) < 2 ^ binary64.emin := by positivity
      linarith
    refine this.trans ?_
    rw [show binary64.u = 1 / 2 ^ 53 from rfl]
    norm_num
  have hu : binary64.u = 1 / 2 ^ 53 := rfl
  norm_num at hbig
  obtain ⟨hR, hX⟩ := resolved_of (X := X) (r := 1 / 16) (Q := 1) (by rw [hu]; norm_num) (by norm_num [binary64]) hsr hfc hq h1
    (by norm_num at h2; linarith) (by norm_num) (by linarith) (by linarith) h5 h6 (by
      rw [hu] at ht; norm_num at ht hX2 ⊢; linarith)
  obtain ⟨-, -, -, -, -, t6⟩ := C83_tracks hL binary64_roomy (by norm_num) hR (zero_le_one.trans hX1) hX
  have hv : ValidParams sr.toReal fc.toReal q.toReal := hR.valid
  have hb : rbjBound binary64 2 sr.toReal fc.toReal q.toReal X ≤ X / 25000000 := by
    have hm := rbjMargin_ge (sr := sr.toReal) (fc := fc.toReal) (q := q.toReal) (r := 1 / 16) (Q := 1) (show 0 < sr.toReal by linarith) (by norm_num) (by linarith) (by linarith) h5 h6
    have hm2 := pow_le_pow_left₀ (by positivity) hm 2
    have hq1 : 1 / (2 * q.toReal) ≤ 1 := by rw [div_le_one (by linarith)]; linarith
    unfold rbjBound coeffErr
    rw [div_le_iff₀ (lt_of_lt_of_le (by norm_num) hm2)]
    norm_num at hm2
    generalize 1 / (2 * q.toReal) = H at hq1 ⊢
    have h7 : X / 25000000 * (1 / 6561) ≤ X / 25000000 * rbjMargin sr.toReal fc.toReal q.toReal ^ 2 := mul_le_mul_of_nonneg_left (by linarith) (by positivity)
    have h8 : H * X ≤ 1 * X := mul_le_mul_of_nonneg_right hq1 (by linarith)
    refine le_trans ?_ h7
    rw [hu] at ht ⊢
    rw [show 34 * ((5 * 2 + 86) * (1 / 2 ^ 53) * (1 + H)) * X = 34 * 96 * (1 / 2 ^ 53) * (X + H * X) by ring]
    norm_num at ht ⊢
    linarith
  refine ⟨((t6 s r).le hb).follows b, ?_⟩
  obtain ⟨G, g1, -, g3⟩ := (C133_filters b hv h5).2.2.2.2.2 r
  have hG := C112_gain_filter ((C87_rbj b sr.toReal fc.toReal q.toReal 0 0).2.2.2.2.2.1 r) g1
  refine ⟨hG.1, hG.2.1, fun x x' y y' D hy hy' hd n => (hG.2.2 x x' y y' D hy hy' hd n).trans (mul_le_mul_of_nonneg_right g3 ((abs_nonneg _).trans (hd 0)))⟩

/-- Parameters in range. -/
def InPhaserRange (sr : Fl L) (p : AllPass (Fl L) × Fl L × Fl L) : Prop :=
  p.2.1.Finite ∧ p.2.2.Finite ∧ sr.toReal / 16 ≤ p.2.1.toReal ∧ p.2.1.toReal ≤ 7 / 16 * sr.toReal ∧ 1 / 2 ≤ p.2.2.toReal ∧ p.2.2.toReal ≤ 1

theorem phaser_aux (hL : AccurateTrig L 2) (hsr : sr.Finite) (h1 : 1 ≤ sr.toReal) (h2 : sr.toReal ≤ 2 ^ 100) (b : Build) : ∀ (ss : List (AllPass (Fl L) × Fl L × Fl L)),
    (∀ p ∈ ss, InPhaserRange sr p) → ∀ (X D : ℝ), 1 ≤ X → 0 ≤ D → 18 ^ ss.length * X ≤ 2 ^ 60 → ∀ (x : ℕ → Fl L) (x' : ℕ → ℝ), (∀ n, (x n).Within X) → (∀ n, |(x n).toReal - x' n| ≤ D) →
    ∃ y z, FlThrough b (flAllPasses sr ss) x y ∧ Through b (allPasses sr.toReal (ss.map fun p => (AllPass.new, p.2.1.toReal, p.2.2.toReal))) x' z ∧
      ∀ n, (y n).Within (18 ^ ss.length * X) ∧ |(y n).toReal - z n| ≤ 18 ^ ss.length * (D + ss.length * (X / 25000000))
  | [], _, X, D, hX, hD, hR, x, x', hx, hd => ⟨x, x', rfl, rfl, fun n => by simpa using ⟨hx n, hd n⟩⟩
  | p :: ss, h, X, D, hX, hD, hR, x, x', hx, hd => by
    obtain ⟨p1, p2, p3, p4, p5, p6⟩ := h p List.mem_cons_self
    rw [List.length_cons, pow_succ] at hR
    have hpow : (1 : ℝ) ≤ 18 ^ ss.length := one_le_pow₀ (by norm_num)
    have hX2 : X ≤ 2 ^ 60 := by nlinarith
    obtain ⟨hF, hG⟩ := allPass_f64 hL hsr h1 h2 p1 p2 p3 p4 p5 p6 hX hX2 b p.1 AllPass.new
    obtain ⟨y, z, hy, hz, he⟩ := hF x hx
    obtain ⟨z', hz'⟩ := hG.1 x'
    have hzz := hG.2.2 _ _ _ _ D hz hz' hd
    have hzl := hG.level hz fun n => (hx n).2
    obtain ⟨u, v, hu, hv, hw⟩ := phaser_aux hL hsr h1 h2 b ss (fun q hq => h q (List.mem_cons_of_mem _ hq)) (18 * X) (17 * D + X / 25000000) (by linarith) (by positivity)
      (by rw [← mul_assoc]; exact hR) y z' (fun n => ⟨(he n).1, by
        have := abs_add_le ((y n).toReal - z n) (z n)
        rw [sub_add_cancel] at this
        have h3 := (he n).2
        have h4 := hzl n
        linarith⟩) (fun n => by
        have := abs_sub_le (y n).toReal (z n) (z' n)
        have h3 := (he n).2
        have h4 := hzz n
        linarith)
    refine ⟨u, v, ⟨y, hy, hu⟩, ⟨z', hz', hv⟩, fun n => ?_⟩
    obtain ⟨w1, w2⟩ := hw n
    rw [List.length_cons, pow_succ, mul_assoc]
    refine ⟨w1, w2.trans ?_⟩
    rw [mul_assoc]
    refine mul_le_mul_of_nonneg_left ?_ (by linarith)
    push_cast
    have : 0 ≤ X / 25000000 := by positivity
    linarith

/-- **C162.** Phasers in f64: up to twelve `AllPass` filters with frequencies from 1/16 to 7/16 of the sample rate and quality factors from 1/2 to 1, samples in [-1, 1]. The sum, formed in
f64, stays finite and within `(N + 1) 18^N / 25000000` of the exact phaser, for ever. So at each of the notches of `C162_notches` what remains of a sinusoid is in the end below that. -/
theorem C162_float (hL : AccurateTrig L 2) (hsr : sr.Finite) (h1 : 1 ≤ sr.toReal) (h2 : sr.toReal ≤ 2 ^ 100) {ss : List (AllPass (Fl L) × Fl L × Fl L)}
    (h : ∀ p ∈ ss, InPhaserRange sr p) (hN : ss.length ≤ 12) (b : Build) (x : ℕ → Fl L) (hx : ∀ n, (x n).Within 1) :
    ∃ y v, FlThrough b (flAllPasses sr ss) x y ∧ Mixes b (allPasses sr.toReal (ss.map fun p => (AllPass.new, p.2.1.toReal, p.2.2.toReal))) 1 (fun n => (x n).toReal) v ∧
      (∀ n, (x n +. y n).Finite ∧ |(x n +. y n).toReal - v n| ≤ (ss.length + 1) * 18 ^ ss.length / 25000000) ∧
      ∀ w A φ : ℝ, Nulls b (allPasses sr.toReal (ss.map fun p => (AllPass.new, p.2.1.toReal, p.2.2.toReal))) 1 w → SettlesTo (fun n => (x n).toReal) A w φ →
        ∀ ε > 0, ∀ᶠ n in atTop, |(x n +. y n).toReal| ≤ (ss.length + 1) * 18 ^ ss.length / 25000000 + ε := by
  have hpow : (18 : ℝ) ^ ss.length ≤ 18 ^ 12 := pow_le_pow_right₀ (by norm_num) hN
  have hpow1 : (1 : ℝ) ≤ 18 ^ ss.length := one_le_pow₀ (by norm_num)
  obtain ⟨y, z, hy, hz, he⟩ := phaser_aux hL hsr h1 h2 b ss h 1 0 le_rfl le_rfl (by norm_num at hpow ⊢; linarith) x (fun n => (x n).toReal) hx (by simp)
  have hlen : (0 : ℝ) ≤ ss.length := Nat.cast_nonneg _
  have hlen2 : (ss.length : ℝ) ≤ 12 := by exact_mod_cast hN
  have key : ∀ n, (x n +. y n).Finite ∧ |(x n +. y n).toReal - ((x n).toReal + 1 * z n)| ≤ (ss.length + 1) * 18 ^ ss.length / 25000000 := fun n => by
    obtain ⟨e1, e2⟩ := he n
    have a1 : Approx (x n) (x n).toReal 0 := ⟨(hx n).1, by simp⟩
    have a2 : Approx (y n) (z n) (18 ^ ss.length * (0 + ss.length * (1 / 25000000))) := ⟨e1.1, e2⟩
    have hbig : (2 : ℝ) ^ (103 : ℤ) ≤ 2 ^ binary64.emax := zpow_le_zpow_right₀ one_le_two (by decide)
    have hu : binary64.u = 1 / 2 ^ 53 := rfl
    have ht : binary64.tiny ≤ (2 : ℝ) ^ (-100 : ℤ) := zpow_le_zpow_right₀ one_le_two (by decide)
    have e3 := e1.2
    have e4 := (hx n).2
    generalize (18 : ℝ) ^ ss.length = P at *
    have hPl : P * (0 + ss.length * (1 / 25000000)) ≤ P := by nlinarith
    rw [one_mul]
    refine a1.add a2 (B := 5 * P) ?_ ?_ ?_
    · have h3 := abs_add_le (x n).toReal (z n)
      have h4 := abs_add_le (z n - (y n).toReal) (y n).toReal
      rw [sub_add_cancel, abs_sub_comm] at h4
      linarith
    · norm_num at hbig hpow ⊢; linarith
    · rw [hu]; norm_num at ht ⊢; linarith
  refine ⟨y, fun n => (x n).toReal + 1 * z n, hy, ⟨z, hz, fun n => rfl⟩, key, fun w A φ hn hs ε hε => ?_⟩
  have ht := hn A φ _ _ hs ⟨z, hz, fun n => rfl⟩
  filter_upwards [(Metric.tendsto_nhds.mp ht) ε hε] with n hn
  rw [Real.dist_eq, sub_zero] at hn
  have h3 := (key n).2
  have h4 := abs_add_le ((x n +. y n).toReal - ((x n).toReal + 1 * z n)) ((x n).toReal + 1 * z n)
  rw [sub_add_cancel] at h4
  linarith

/-- The conditions of `C162_float`: two stages at 48 kHz, set to 6 and 12 kHz with the quality factor 1. -/
example : ∃ (L : Libm binary64) (sr : Fl L) (ss : List (AllPass (Fl L) × Fl L × Fl L)), AccurateTrig L 2 ∧ sr.Finite ∧ 1 ≤ sr.toReal ∧ sr.toReal ≤ 2 ^ 100 ∧
    (∀ p ∈ ss, InPhaserRange sr p) ∧ ss.length = 2 := by
  let L : Libm binary64 :=
    { exp := id, cos := fun x => FP.ofReal binary64 false (Real.cos x.toReal),
      sin := fun x => FP.ofReal binary64 false (Real.sin x.toReal), log10 := id, powf := fun x _ => x }
  have hl : ∀ v : ℝ, |v| ≤ 2 ^ 100 → |v| < binary64.lim := by
    intro v h
    have : (2 : ℝ) ^ (101 : ℤ) ≤ binary64.lim := zpow_le_zpow_right₀ one_le_two (by decide)
    norm_num at h this ⊢
    linarith
  have hn : ∀ n : ℕ, n ≤ 48000 → ∃ a : Fl L, a.Finite ∧ a.toReal = n := fun n h =>
    exists_of_isRep L (isRep_nat (f := binary64) (h.trans (by norm_num [binary64]))) (hl _ (by
      have : (n : ℝ) ≤ 48000 := by exact_mod_cast h
      rw [Nat.abs_cast]; norm_num; linarith))
  obtain ⟨a, a1, a2⟩ := hn 48000 le_rfl
  obtain ⟨c, c1, c2⟩ := hn 6000 (by norm_num)
  obtain ⟨d, d1, d2⟩ := hn 12000 (by norm_num)
  obtain ⟨q, q1, q2⟩ := hn 1 (by norm_num)
  refine ⟨L, a, [(AllPass.new, c, q), (AllPass.new, d, q)], .of_rounded binary64_roomy (fun _ _ => rfl) (fun _ _ => rfl), a1, ?_, ?_, ?_, rfl⟩
  · rw [a2]; norm_num
  · rw [a2]; norm_num
  · intro p hp
    simp only [List.mem_cons, List.not_mem_nil, or_false] at hp
    rcases hp with rfl | rfl <;> refine ⟨?_, q1, ?_⟩ <;> first | exact c1 | exact d1 | (simp only [a2, c2, d2, q2]; norm_num)

end Rasp
