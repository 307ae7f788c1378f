import Verif.Lemmas.PeakFloat

/-!
# Rounding errors of the coefficients of the shelves
-/

namespace Rasp
open FloatOps Fl
variable {f : Fmt} {L : Libm f} {U G R A S x y : ℝ} {a c sn sl : Fl L}

/-- The square root of the bandwidth. -/
noncomputable def slopeR (A S : ℝ) : ℝ := Real.sqrt ((A + 1 / A) * (1 / S - 1) + 2)

theorem slope_facts (gle : A ≤ G) (gge : 1 ≤ A * G) (hA : 0 < A) (hS : 0 < S) (hS1 : S ≤ 1) :
    2 ≤ A + 1 / A ∧ A + 1 / A ≤ 2 * G ∧ 0 ≤ 1 / S - 1 ∧ 2 ≤ (A + 1 / A) * (1 / S - 1) + 2 ∧
    (A + 1 / A) * (1 / S) ≤ G * ((A + 1 / A) * (1 / S - 1) + 2) := by
  have h1 : 2 ≤ A + 1 / A := by
    have : A * (1 / A) = 1 := by field_simp
    have : 0 < 1 / A := by positivity
    nlinarith [sq_nonneg (A - 1 / A), sq_nonneg (A + 1 / A)]
  have h2 : 1 / A ≤ G := by rw [div_le_iff₀ hA]; linarith
  have h3 : 0 ≤ 1 / S - 1 := by rw [sub_nonneg, le_div_iff₀ hS]; linarith
  have h4 : 0 ≤ (A + 1 / A) * (1 / S - 1) := by positivity
  refine ⟨h1, by linarith, h3, by linarith, ?_⟩
  have hG : 1 ≤ G := by linarith
  have : (A + 1 / A) * (1 / S - 1) ≤ G * ((A + 1 / A) * (1 / S - 1)) := le_mul_of_one_le_left h4 hG
  linarith

theorem one_le_slopeR (hA : 0 < A) (hS : 0 < S) (hS1 : S ≤ 1) : 1 ≤ slopeR A S := by
  have hle : A ≤ A + 1 / A := by have : 0 < 1 / A := by positivity
                                 linarith
  obtain ⟨_, _, _, h, _⟩ := slope_facts (G := A + 1 / A) hle (by
    have : A * (1 / A) = 1 := by field_simp
    nlinarith [sq_nonneg A]) hA hS hS1
  unfold slopeR
  rw [Real.one_le_sqrt]
  linarith

/-- The square root, in floating point. -/
theorem slope_near (hC : Ctx f U G (slopeR A S)) (nA : Near U a A 18 A) (gle : A ≤ G) (gge : 1 ≤ A * G) (hA : 0 < A) (hsl : sl.Finite) (hslv : sl.toReal = S)
    (hS : 0 < S) (hS1 : S ≤ 1) (hSmax : 5 * G ≤ S * 2 ^ f.emax) :
    Near U (sqrt ((a +. one /. a) *. (one /. sl -. one) +. two)) (slopeR A S) 36 (G * slopeR A S) := by
  obtain ⟨w1, w2, t0, r0, v⟩ := slope_facts gle gge hA hS hS1
  have hu := hC.hu
  have hu0 := f.u_pos
  obtain ⟨s1, s2, s3⟩ := hC.small
  have hG := hC.hG
  have hU0 : 0 < U := by linarith
  have hR1 := one_le_slopeR hA hS hS1
  have hG4 : G ≤ G ^ 4 := le_self_pow₀ hG (by norm_num)
  have hG4' : 1 ≤ G ^ 4 := one_le_pow₀ hG
  have hGR : G * slopeR A S ≤ G ^ 4 * slopeR A S := mul_le_mul_of_nonneg_right hG4 (by linarith)
  have hGR0 : 0 ≤ G ^ 4 * slopeR A S := by positivity
  have hi : 0 < 1 / A := by positivity
  have hiG : 1 ≤ G ^ 4 * (1 / A) := by
    rw [mul_one_div, le_div_iff₀ hA]; linarith
  have nsl : Near U sl S 0 S := ⟨⟨hsl, by rw [hslv]; simp⟩, by rw [abs_of_pos hS]⟩
  have hSi : 0 < 1 / S := by positivity
  have hemax : 5 * G * (1 / S) ≤ 2 ^ f.emax := by
    rw [mul_one_div, div_le_iff₀ hS]; linarith
  have tiny1 : 500 * f.tiny ≤ f.u := by
    have h1 := hC.tiny
    have h2 := f.tiny_pos
    nlinarith
  have ninv : Near U (one /. a) (1 / A) 24 (1 / A) := by
    refine near_one.div nA hu (g := 1) (τ := 1 / A) (M := 1 / A) hA (by linarith) (by rw [one_div_mul_cancel hA.ne'])
      (by rw [abs_of_pos hi]) le_rfl (hC.fits (by linarith) ?_) le_rfl (by norm_num) (by linarith) (by linarith) (by linarith)
    linarith
  have nW : Near U (a +. one /. a) (A + 1 / A) 26 (A + 1 / A) := by
    refine nA.add ninv hu (by rw [abs_of_pos (by linarith)]) (hC.fits ?_ ?_) (by linarith) (by linarith)
    · nlinarith
    · linarith
  have nS : Near U (one /. sl) (1 / S) 2 (1 / S) := by
    refine near_one.div nsl hu (g := 1) (τ := 1 / S) (M := 1 / S) hS (by linarith) (by rw [one_div_mul_cancel hS.ne'])
      (by rw [abs_of_pos hSi]) le_rfl ⟨?_, ?_⟩ le_rfl le_rfl (by norm_num) (by linarith) (by linarith)
    · have := mul_le_mul_of_nonneg_left (show 1 ≤ 1 / S by linarith) hu0.le
      linarith
    · nlinarith
  have nT : Near U (one /. sl -. one) (1 / S - 1) 4 (1 / S) := by
    refine nS.sub near_one hu (by rw [abs_of_nonneg t0]; linarith) ⟨?_, ?_⟩ (by linarith) (by linarith)
    · have := mul_le_mul_of_nonneg_left (show 1 ≤ 1 / S by linarith) hu0.le
      linarith
    · nlinarith
  have hV : f.Fits ((A + 1 / A) * (1 / S)) := by
    constructor
    · have : 1 ≤ (A + 1 / A) * (1 / S) := by nlinarith
      have := mul_le_mul_of_nonneg_left this hu0.le
      linarith
    · have := mul_le_mul_of_nonneg_right w2 hSi.le
      linarith
  have nWT : Near U ((a +. one /. a) *. (one /. sl -. one)) ((A + 1 / A) * (1 / S - 1)) 32 ((A + 1 / A) * (1 / S)) := by
    have := nW.mul nT hu hV (by norm_num) (by norm_num) (by linarith) (by linarith)
    norm_num at this ⊢
    exact this
  have narg : Near U ((a +. one /. a) *. (one /. sl -. one) +. two) ((A + 1 / A) * (1 / S - 1) + 2) 34 ((A + 1 / A) * (1 / S)) := by
    refine nWT.add near_two hu (by rw [abs_of_nonneg (by linarith)]; linarith) hV (by linarith) (by linarith)
  have := narg.sqrt hu (by linarith) v (by norm_num) hG (by linarith) (hC.fits (T := G * slopeR A S) ?_ ?_)
  · rw [show (34 : ℝ) + 2 = 36 by norm_num] at this
    exact this
  · have : 1 ≤ G * slopeR A S := one_le_mul_of_one_le_of_one_le hG hR1
    have : G * slopeR A S ≤ G ^ 4 * (G * slopeR A S) := le_mul_of_one_le_left (by linarith) hG4'
    linarith
  · linarith

/-- `sqrt_product` as computed. -/
theorem product_near (hC : Ctx f U G R) (nA : Near U a A 18 A) (gle : A ≤ G) (gge : 1 ≤ A * G) (hA : 0 < A) (ns : Near U sn y 14 1)
    {r : Fl L} (nR : Near U r R 36 (G * R)) (hR1 : 1 ≤ R) :
    Near U (two *. sqrt a *. (sn /. two *. r)) (2 * Real.sqrt A * (y / 2 * R)) 81 (G * (Real.sqrt A * R)) := by
  have hu := hC.hu
  have hu0 := f.u_pos
  obtain ⟨s1, s2, s3⟩ := hC.small
  have hG := hC.hG
  have hU0 : 0 < U := by linarith
  have hG4 : G ≤ G ^ 4 := le_self_pow₀ hG (by norm_num)
  have hG2 : G ^ 2 ≤ G ^ 4 := pow_le_pow_right₀ hG (by norm_num)
  have hG4' : 1 ≤ G ^ 4 := one_le_pow₀ hG
  have hsq := Real.sqrt_pos.mpr hA
  have hsqG : Real.sqrt A ≤ G := by rw [Real.sqrt_le_left (by linarith)]; nlinarith
  have hsqG' : 1 ≤ G * Real.sqrt A := by
    have h1 := Real.mul_self_sqrt hA.le
    have h2 : 1 ≤ G * Real.sqrt A * Real.sqrt A := by rw [mul_assoc, h1]; linarith
    rcases le_total (Real.sqrt A) 1 with h | h
    · nlinarith
    · nlinarith
  have hGs : G * Real.sqrt A ≤ G ^ 4 * Real.sqrt A := mul_le_mul_of_nonneg_right hG4 hsq.le
  have hR0 : 0 ≤ G ^ 4 * R := by positivity
  have hGR : G * R ≤ G ^ 4 * R := mul_le_mul_of_nonneg_right hG4 (by linarith)
  have small : U ≤ 1 / 7200 := by
    have : U * 2 ≤ U * (G ^ 2 * (1 + R)) := mul_le_mul_of_nonneg_left (by
      have : 1 ≤ G ^ 2 := one_le_pow₀ hG
      nlinarith) hU0.le
    linarith
  have nsq : Near U (sqrt a) (Real.sqrt A) 20 (Real.sqrt A) := by
    have := nA.sqrt hu (g := 1) hA (by linarith) (by norm_num) le_rfl (by linarith) (by rw [one_mul]; exact hC.fits (by linarith) (by linarith))
    rw [one_mul, show (18 : ℝ) + 2 = 20 by norm_num] at this
    exact this
  have n2s : Near U (two *. sqrt a) (2 * Real.sqrt A) 22 (2 * Real.sqrt A) := by
    have := near_two.mul nsq hu (hC.fits (by linarith) (by linarith)) (by norm_num) (by norm_num) (by norm_num) (by linarith)
    rw [show (0 : ℝ) + 20 + 2 = 22 by norm_num] at this
    exact this
  have nh : Near U (sn /. two) (y / 2) 19 (1 / 2) := by
    refine ns.div near_two hu (g := 1) (τ := 1 / 2) (M := 1 / 2) (by norm_num) (by norm_num) (by norm_num) ?_ le_rfl
      (hC.fits (by linarith) (by linarith)) (by norm_num) (by norm_num) (by norm_num) (by norm_num) (by linarith)
    have := ns.le
    rw [abs_div]; norm_num; linarith
  have hGR1 : 1 ≤ G * R := one_le_mul_of_one_le_of_one_le hG hR1
  have nα : Near U (sn /. two *. r) (y / 2 * R) 57 (1 / 2 * (G * R)) := by
    have := nh.mul nR hu (hC.fits (by nlinarith) (by linarith)) (by norm_num) (by norm_num) (by linarith) (by linarith)
    rw [show (19 : ℝ) + 36 + 2 = 57 by norm_num] at this
    exact this
  have hZ : 1 ≤ G ^ 4 * (2 * Real.sqrt A * (1 / 2 * (G * R))) := by
    have h1 : 1 ≤ G * Real.sqrt A * (G * R) := one_le_mul_of_one_le_of_one_le hsqG' hGR1
    have h2 : G * Real.sqrt A * (G * R) ≤ G ^ 4 * Real.sqrt A * (G * R) := mul_le_mul_of_nonneg_right hGs (by linarith)
    linarith
  have hZ2 : 2 * Real.sqrt A * (1 / 2 * (G * R)) ≤ G ^ 4 * R := by
    have h1 : Real.sqrt A * (G * R) ≤ G * (G * R) := mul_le_mul_of_nonneg_right hsqG (by linarith)
    have h2 : G ^ 2 * R ≤ G ^ 4 * R := mul_le_mul_of_nonneg_right hG2 (by linarith)
    linarith
  have := n2s.mul nα hu (hC.fits (by linarith) (by linarith)) (by norm_num) (by norm_num) (by linarith) (by linarith)
  rw [show (22 : ℝ) + 57 + 2 = 81 by norm_num, show 2 * Real.sqrt A * (1 / 2 * (G * R)) = G * (Real.sqrt A * R) by ring] at this
  exact this

/-- The sums and products with the cosine. -/
theorem sums_near (hC : Ctx f U G R) (nA : Near U a A 18 A) (gle : A ≤ G) (hA : 0 < A) (nc : Near U c x 14 1) :
    Near U (a +. one +. (a -. one) *. c) (A + 1 + (A - 1) * x) 30 (2 * (A + 1)) ∧
    Near U (a +. one -. (a -. one) *. c) (A + 1 - (A - 1) * x) 30 (2 * (A + 1)) ∧
    Near U (a -. one +. (a +. one) *. c) (A - 1 + (A + 1) * x) 30 (2 * (A + 1)) ∧
    Near U (a -. one -. (a +. one) *. c) (A - 1 - (A + 1) * x) 30 (2 * (A + 1)) := by
  have hu := hC.hu
  have hu0 := f.u_pos
  obtain ⟨s1, s2, s3⟩ := hC.small
  have hG := hC.hG
  have hR := hC.hR
  have hU0 : 0 < U := by linarith
  have hG4 : G ≤ G ^ 4 := le_self_pow₀ hG (by norm_num)
  have hG4' : 1 ≤ G ^ 4 := one_le_pow₀ hG
  have hGR : 0 ≤ G ^ 4 * R := by positivity
  have hx := abs_le.mp nc.le
  have hGA : 0 < G ^ 4 * A := by positivity
  have f1 : f.Fits (A + 1) := hC.fits (by linarith) (by linarith)
  have f2 : f.Fits (2 * (A + 1)) := hC.fits (by linarith) (by linarith)
  have p1 : Near U (a +. one) (A + 1) 20 (A + 1) :=
    nA.add near_one hu (by rw [abs_of_pos (by linarith)]) f1 (by linarith) (by linarith)
  have m1 : Near U (a -. one) (A - 1) 20 (A + 1) :=
    nA.sub near_one hu (by rw [abs_le]; constructor <;> linarith) f1 (by linarith) (by linarith)
  have pc : Near U ((a +. one) *. c) ((A + 1) * x) 36 (A + 1) := by
    have := p1.mul nc hu (by rw [mul_one]; exact f1) (by norm_num) (by norm_num) (by linarith) (by linarith)
    rwa [mul_one, show (20 : ℝ) + 14 + 2 = 36 by norm_num] at this
  have mc : Near U ((a -. one) *. c) ((A - 1) * x) 36 (A + 1) := by
    have := m1.mul nc hu (by rw [mul_one]; exact f1) (by norm_num) (by norm_num) (by linarith) (by linarith)
    rwa [mul_one, show (20 : ℝ) + 14 + 2 = 36 by norm_num] at this
  have q1 := abs_le.mp p1.le
  have q2 := abs_le.mp m1.le
  have q3 := abs_le.mp pc.le
  have q4 := abs_le.mp mc.le
  refine ⟨p1.add mc hu ?_ f2 (by linarith) (by linarith), p1.sub mc hu ?_ f2 (by linarith) (by linarith),
    m1.add pc hu ?_ f2 (by linarith) (by linarith), m1.sub pc hu ?_ f2 (by linarith) (by linarith)⟩ <;>
  · rw [abs_le]; constructor <;> linarith

/-- Numerators and denominator from the sums. -/
theorem numerators_near (hC : Ctx f U G R) (nA : Near U a A 18 A) (gle : A ≤ G) (gge : 1 ≤ A * G) (hA : 0 < A) (hR1 : 1 ≤ R)
    {d e n m p : Fl L} {D E N M P Z Q : ℝ}
    (nd : Near U d D 30 (2 * (A + 1))) (ne : Near U e E 30 (2 * (A + 1))) (nn : Near U n N 30 (2 * (A + 1))) (nm : Near U m M 30 (2 * (A + 1)))
    (np : Near U p P 81 (G * Z)) (hZ0 : 0 < Z) (hZ : 2 * Z ≤ (A + 1) * R) (hQ : Q = 2 * (A + 1) + G * Z) :
    Near U (d +. p) (D + P) 83 Q ∧ Near U (d -. p) (D - P) 83 Q ∧
    Near U (a *. (e +. p)) (A * (E + P)) 103 (A * Q) ∧ Near U (a *. (e -. p)) (A * (E - P)) 103 (A * Q) ∧
    Near U (two *. a *. m) (2 * A * M) 52 (2 * A * (2 * (A + 1))) ∧ Near U (neg two *. a *. m) (-2 * A * M) 52 (2 * A * (2 * (A + 1))) ∧
    Near U (two *. n) (2 * N) 32 (2 * (2 * (A + 1))) ∧ Near U (neg two *. n) (-2 * N) 32 (2 * (2 * (A + 1))) := by
  have hu := hC.hu
  have hG := hC.hG
  have hU0 : 0 < U := f.u_pos.trans_le hu
  have small : U ≤ 1 / 7200 := by
    have h1 := hC.small.2.2
    have hG2 : 1 ≤ G ^ 2 := one_le_pow₀ hG
    have : U * 2 ≤ U * (G ^ 2 * (1 + R)) := mul_le_mul_of_nonneg_left (by nlinarith) hU0.le
    linarith
  have hW : ∀ {T : ℝ}, 1 ≤ 2 * (G ^ 4 * T) → T ≤ 14000 * (G ^ 4 * (1 + R)) → f.Fits T := hC.fits
  have hQ2 : 2 ≤ Q := by
    have : 0 < G * Z := by positivity
    rw [hQ]; linarith
  have hG4' : 1 ≤ G ^ 4 := one_le_pow₀ hG
  have hG4 : G ≤ G ^ 4 := le_self_pow₀ hG (by norm_num)
  have hAG4 : 1 ≤ G ^ 4 * A := by
    have := mul_le_mul_of_nonneg_right hG4 hA.le
    linarith
  have hGQ3 : G * Q ≤ 5 * (G ^ 4 * (1 + R)) := by
    have hG2 : G ^ 2 ≤ G ^ 4 := pow_le_pow_right₀ hG (by norm_num)
    have G3R : G ^ 3 * R ≤ G ^ 4 * R := mul_le_mul_of_nonneg_right (pow_le_pow_right₀ hG (by norm_num)) (by linarith)
    have GA : (A + 1) * R ≤ 2 * G * R := mul_le_mul_of_nonneg_right (by linarith) (by linarith)
    have GZ : G * (2 * Z) ≤ G * (2 * G * R) := mul_le_mul_of_nonneg_left (hZ.trans GA) (by linarith)
    have h1 : Q ≤ 4 * G + G * (G * R) := by rw [hQ]; linarith
    have := mul_le_mul_of_nonneg_left h1 (show 0 ≤ G by linarith)
    have : 0 ≤ G ^ 4 * R := by positivity
    linarith
  have hQ5 : Q ≤ 5 * (G ^ 4 * (1 + R)) := (le_mul_of_one_le_left (by linarith) hG).trans hGQ3
  have fQ : f.Fits Q := hW (by nlinarith) (by linarith)
  have hA1 : 2 * (A + 1) ≤ Q := by rw [hQ]; have : 0 < G * Z := by positivity
                                   linarith
  have f1 : f.Fits (2 * (2 * (A + 1))) := hW (by nlinarith) (by linarith)
  have f2 : f.Fits (2 * A) := hW (by linarith) (by linarith)
  have hAQ : A * Q ≤ G * Q := mul_le_mul_of_nonneg_right gle (by linarith)
  have fAQ : f.Fits (A * Q) := hW (by nlinarith) (by linarith)
  have hAA : A * (2 * (A + 1)) ≤ A * Q := mul_le_mul_of_nonneg_left hA1 hA.le
  have f3 : f.Fits (2 * A * (2 * (A + 1))) := hW (by nlinarith) (by linarith)
  have l1 := nd.le
  have l2 := ne.le
  have l3 := np.le
  have add : ∀ {v : Fl L} {t : ℝ}, Near U v t 30 (2 * (A + 1)) → Near U (v +. p) (t + P) 83 Q ∧ Near U (v -. p) (t - P) 83 Q := by
    intro v t h
    have hc : 30 * (2 * (A + 1)) + 81 * (G * Z) + 2 * Q ≤ 83 * Q := by rw [hQ]; linarith
    exact ⟨h.add np hu ((abs_add_le _ _).trans (by rw [hQ]; linarith [h.le])) fQ hc (by linarith),
      h.sub np hu ((abs_sub _ _).trans (by rw [hQ]; linarith [h.le])) fQ hc (by linarith)⟩
  have n2a : Near U (two *. a) (2 * A) 20 (2 * A) := by
    have := near_two.mul nA hu f2 (by norm_num) (by norm_num) (by norm_num) (by linarith)
    rwa [show (0 : ℝ) + 18 + 2 = 20 by norm_num] at this
  have n2a' : Near U (neg two *. a) (-2 * A) 20 (2 * A) := by
    have := near_two.neg.mul nA hu f2 (by norm_num) (by norm_num) (by norm_num) (by linarith)
    rwa [show (0 : ℝ) + 18 + 2 = 20 by norm_num] at this
  refine ⟨(add nd).1, (add nd).2, ?_, ?_, ?_, ?_, ?_, ?_⟩
  · have := nA.mul (add ne).1 hu fAQ (by norm_num) (by norm_num) (by linarith) (by linarith)
    rwa [show (18 : ℝ) + 83 + 2 = 103 by norm_num] at this
  · have := nA.mul (add ne).2 hu fAQ (by norm_num) (by norm_num) (by linarith) (by linarith)
    rwa [show (18 : ℝ) + 83 + 2 = 103 by norm_num] at this
  · have := n2a.mul nm hu f3 (by norm_num) (by norm_num) (by linarith) (by linarith)
    rwa [show (20 : ℝ) + 30 + 2 = 52 by norm_num] at this
  · have := n2a'.mul nm hu f3 (by norm_num) (by norm_num) (by linarith) (by linarith)
    rwa [show (20 : ℝ) + 30 + 2 = 52 by norm_num] at this
  · have := near_two.mul nn hu f1 (by norm_num) (by norm_num) (by norm_num) (by linarith)
    rwa [show (0 : ℝ) + 30 + 2 = 32 by norm_num] at this
  · have := near_two.neg.mul nn hu f1 (by norm_num) (by norm_num) (by norm_num) (by linarith)
    rwa [show (0 : ℝ) + 30 + 2 = 32 by norm_num] at this

/-- Division by the denominator. -/
theorem quotient_near (hC : Ctx f U G R) (hR1 : 1 ≤ R) {d v : Fl L} {D t b T Q : ℝ} (nd : Near U d D 83 Q) (hD : 0 < D)
    (hg : Q ≤ 2 * (G ^ 2 * (1 + R)) * D) (hn : Near U v t b T) (hT : |t| ≤ 2 * (G * Q)) (hb : b * T ≤ 104 * (G * Q)) (ht : |t| ≤ 2 * G ^ 2 * D) :
    Approx (v /. d) (t / D) (660 * U * (G ^ 4 * (1 + R))) := by
  have hu := hC.hu
  have hG := hC.hG
  have hU0 : 0 < U := f.u_pos.trans_le hu
  obtain ⟨s1, s2, s3⟩ := hC.small
  have hbig := hC.big
  have hW : 2 ≤ 1 + R := by linarith
  have hG4' : 1 ≤ G ^ 4 := one_le_pow₀ hG
  have hG2 : G ^ 2 ≤ G ^ 4 := pow_le_pow_right₀ hG (by norm_num)
  have hG3W : G ^ 3 * (1 + R) ≤ G ^ 4 * (1 + R) := mul_le_mul_of_nonneg_right (pow_le_pow_right₀ hG (by norm_num)) (by linarith)
  have hMQ : 2 * G ^ 2 ≤ G ^ 4 * (1 + R) := by
    have : G ^ 4 * 2 ≤ G ^ 4 * (1 + R) := mul_le_mul_of_nonneg_left (by linarith) (by positivity)
    linarith
  have hW1 : 1 ≤ G ^ 4 * (1 + R) := one_le_mul_of_one_le_of_one_le hG4' (by linarith)
  have hfin : f.Fits (G ^ 4 * (1 + R)) := hC.fits (by nlinarith) (by linarith)
  have hτ : 2 * (G * Q) ≤ 2 * (G * (2 * (G ^ 2 * (1 + R)))) * D := by
    have := mul_le_mul_of_nonneg_left hg (show 0 ≤ G by linarith)
    linarith
  refine ((hn.mono (Q := 2 * (G * Q)) (c := 52) hT (by linarith) hU0.le).div nd hu (g := 2 * (G ^ 2 * (1 + R))) (τ := 2 * (G * (2 * (G ^ 2 * (1 + R))))) (M := 2 * G ^ 2)
    (c := 660) (Q := G ^ 4 * (1 + R)) hD hg hτ ?_ hMQ hfin (by norm_num) (by norm_num) (by linarith) (by linarith) (by linarith)).approx
  rw [abs_div, abs_of_pos hD, div_le_iff₀ hD]; exact ht

/-- Numerators against the denominator, in exact arithmetic. -/
structure ShelfShape (G A R D E N M P Z : ℝ) : Prop where
  hP : 0 < P
  hPZ : P ≤ Z
  hZ : 2 * Z ≤ (A + 1) * R
  hD : A + 1 ≤ G * D
  hE : E ≤ G * D
  hE0 : 0 ≤ E
  hN : |N| ≤ D
  hM : |M| ≤ E

theorem ShelfShape.den {G A R D E N M P Z : ℝ} (h : ShelfShape G A R D E N M P Z) (hA : 0 < A) (hG : 1 ≤ G) (hR1 : 1 ≤ R) :
    0 < D ∧ 2 * (A + 1) + G * Z ≤ 2 * (G ^ 2 * (1 + R)) * (D + P) := by
  obtain ⟨hP, hPZ, hZ, hD, hE, hE0, hN, hM⟩ := h
  have hD0 : 0 < D := by
    have : 0 < G * D := by linarith
    exact (pos_iff_pos_of_mul_pos this).mp (by linarith)
  refine ⟨hD0, ?_⟩
  have h1 : G * (2 * Z) ≤ G * (G * D * R) :=
    mul_le_mul_of_nonneg_left (hZ.trans (mul_le_mul_of_nonneg_right hD (by linarith))) (by linarith)
  have h2 : G * D ≤ G ^ 2 * D := mul_le_mul_of_nonneg_right (by nlinarith) hD0.le
  have h3 : 0 ≤ G ^ 2 * (1 + R) * P := by positivity
  have h4 : 0 ≤ G ^ 2 * R * D := by positivity
  linarith

/-- Bounds on the exact numerators. -/
theorem ShelfShape.bounds {G A R D E N M P Z : ℝ} (h : ShelfShape G A R D E N M P Z) (hA : 0 < A) (gle : A ≤ G) (hG : 1 ≤ G) (hR1 : 1 ≤ R) :
    |A * (E + P)| ≤ 2 * G ^ 2 * (D + P) ∧ |2 * A * M| ≤ 2 * G ^ 2 * (D + P) ∧ |-2 * A * M| ≤ 2 * G ^ 2 * (D + P) ∧
    |A * (E - P)| ≤ 2 * G ^ 2 * (D + P) ∧ |2 * N| ≤ 2 * G ^ 2 * (D + P) ∧ |-2 * N| ≤ 2 * G ^ 2 * (D + P) ∧
    |D - P| ≤ 2 * G ^ 2 * (D + P) := by
  obtain ⟨hD0, _⟩ := h.den hA hG hR1
  obtain ⟨hP, hPZ, hZ, hD, hE, hE0, hN, hM⟩ := h
  have hG2' : 1 ≤ G ^ 2 := one_le_pow₀ hG
  have hAE : A * E ≤ G * (G * D) := mul_le_mul gle hE hE0 (by linarith)
  have hAP : A * P ≤ G ^ 2 * P := mul_le_mul_of_nonneg_right (by nlinarith) hP.le
  have hG2D : D ≤ G ^ 2 * D := le_mul_of_one_le_left hD0.le hG2'
  have hG2P : 0 < G ^ 2 * P := by positivity
  have hAE0 : 0 ≤ A * E := by positivity
  have hAP0 : 0 ≤ A * P := by positivity
  have hG2P' : P ≤ G ^ 2 * P := le_mul_of_one_le_left hP.le hG2'
  have hNN := abs_le.mp hN
  have hAM : |A * M| ≤ A * E := by rw [abs_mul, abs_of_pos hA]; exact mul_le_mul_of_nonneg_left hM hA.le
  have hAM' := abs_le.mp hAM
  refine ⟨?_, ?_, ?_, ?_, ?_, ?_, ?_⟩ <;>
  · rw [abs_le]; constructor <;> linarith

/-- The coefficients from the sums. -/
theorem coeffs_near (hC : Ctx f U G R) (nA : Near U a A 18 A) (gle : A ≤ G) (gge : 1 ≤ A * G) (hA : 0 < A) (hR1 : 1 ≤ R)
    {d e n m p : Fl L} {D E N M P Z : ℝ}
    (nd : Near U d D 30 (2 * (A + 1))) (ne : Near U e E 30 (2 * (A + 1))) (nn : Near U n N 30 (2 * (A + 1))) (nm : Near U m M 30 (2 * (A + 1)))
    (np : Near U p P 81 (G * Z)) (h : ShelfShape G A R D E N M P Z) :
    Approx (a *. (e +. p) /. (d +. p)) (A * (E + P) / (D + P)) (660 * U * (G ^ 4 * (1 + R))) ∧
    Approx (two *. a *. m /. (d +. p)) (2 * A * M / (D + P)) (660 * U * (G ^ 4 * (1 + R))) ∧
    Approx (neg two *. a *. m /. (d +. p)) (-2 * A * M / (D + P)) (660 * U * (G ^ 4 * (1 + R))) ∧
    Approx (a *. (e -. p) /. (d +. p)) (A * (E - P) / (D + P)) (660 * U * (G ^ 4 * (1 + R))) ∧
    Approx (two *. n /. (d +. p)) (2 * N / (D + P)) (660 * U * (G ^ 4 * (1 + R))) ∧
    Approx (neg two *. n /. (d +. p)) (-2 * N / (D + P)) (660 * U * (G ^ 4 * (1 + R))) ∧
    Approx ((d -. p) /. (d +. p)) ((D - P) / (D + P)) (660 * U * (G ^ 4 * (1 + R))) := by
  have hG := hC.hG
  obtain ⟨hD0, hg⟩ := h.den hA hG hR1
  have hZ0 : 0 < Z := h.hP.trans_le h.hPZ
  obtain ⟨Q, hQ⟩ : ∃ Q, Q = 2 * (A + 1) + G * Z := ⟨_, rfl⟩
  rw [← hQ] at hg
  obtain ⟨n0, n1, n2, n3, n4, n5, n6, n7⟩ := numerators_near hC nA gle gge hA hR1 nd ne nn nm np hZ0 h.hZ hQ
  obtain ⟨c2, c4, c5, c3, c6, c7, c1⟩ := h.bounds hA gle hG hR1
  have hA1 : 2 * (A + 1) ≤ Q := by rw [hQ]; have : 0 < G * Z := by positivity
                                   linarith
  have hQG : Q ≤ G * Q := le_mul_of_one_le_left (by linarith) hG
  have hAQ : A * Q ≤ G * Q := mul_le_mul_of_nonneg_right gle (by linarith)
  have hAA : A * (2 * (A + 1)) ≤ A * Q := mul_le_mul_of_nonneg_left hA1 hA.le
  have q := fun {v : Fl L} {t b T : ℝ} (hn : Near U v t b T) (hT : T ≤ 2 * (G * Q)) (hb : b * T ≤ 104 * (G * Q)) (ht : |t| ≤ 2 * G ^ 2 * (D + P)) =>
    quotient_near hC hR1 n0 (by linarith [h.hP]) hg hn (hn.le.trans hT) hb ht
  exact ⟨q n2 (by linarith) (by linarith) c2, q n4 (by linarith) (by linarith) c4, q n5 (by linarith) (by linarith) c5,
    q n3 (by linarith) (by linarith) c3, q n6 (by linarith) (by linarith) c6, q n7 (by linarith) (by linarith) c7,
    q n1 (by linarith) (by linarith) c1⟩

theorem two_le_slopeR_sq (hA : 0 < A) (hS : 0 < S) (hS1 : S ≤ 1) : 2 ≤ slopeR A S ^ 2 := by
  obtain ⟨_, _, _, h, _⟩ := slope_facts (A := A) (S := S) (G := A + 1 / A) (le_add_of_nonneg_right (by positivity)) (by
    have : A * (1 / A) = 1 := by field_simp
    nlinarith [sq_nonneg A]) hA hS hS1
  unfold slopeR
  rw [Real.sq_sqrt (by linarith)]
  exact h

/-- LowShelf; with `-x`, HighShelf. -/
theorem shelfShape (hA : 0 < A) (gle : A ≤ G) (gge : 1 ≤ A * G) (hG : 1 ≤ G) (hR : 1 ≤ R) (hx : |x| ≤ 1) (hy : 0 < y) (hy1 : y ≤ 1) :
    ShelfShape G A R (A + 1 + (A - 1) * x) (A + 1 - (A - 1) * x) (A - 1 + (A + 1) * x) (A - 1 - (A + 1) * x)
      (2 * Real.sqrt A * (y / 2 * R)) (Real.sqrt A * R) := by
  have hsq := Real.sqrt_pos.mpr hA
  have hsq2 := Real.mul_self_sqrt hA.le
  rw [abs_le] at hx
  have x1 : 0 ≤ 1 + x := by linarith
  have x2 : 0 ≤ 1 - x := by linarith
  have hGA : A ≤ A * G := le_mul_of_one_le_right hA.le hG
  have z0 : 0 < Real.sqrt A * R := by positivity
  have a1 : 0 ≤ A * (1 + x) := by positivity
  have a2 : 0 ≤ A * (1 - x) := by positivity
  refine ⟨by positivity, ?_, ?_, ?_, ?_, ?_, ?_, ?_⟩
  · have := mul_le_mul_of_nonneg_left hy1 z0.le
    linarith
  · have : 2 * Real.sqrt A ≤ A + 1 := by nlinarith [sq_nonneg (Real.sqrt A - 1)]
    have := mul_le_mul_of_nonneg_right this (show 0 ≤ R by linarith)
    linarith
  · have h1 := mul_le_mul_of_nonneg_right (show A + 1 ≤ 2 * (A * G) by linarith) x1
    have h2 := mul_le_mul_of_nonneg_right (show A + 1 ≤ 2 * G by linarith) x2
    linarith
  · have h1 := mul_le_mul_of_nonneg_right gge x1
    have h2 := mul_le_mul_of_nonneg_right gle x2
    linarith
  · linarith
  · rw [abs_le]; constructor <;> linarith
  · rw [abs_le]; constructor <;> linarith

/-- Distance of the poles from the unit circle. -/
noncomputable def shelfMargin (sr fc A S : ℝ) : ℝ :=
  2 * A * Real.sin (angle sr fc) ^ 2 /
    (A + 1 + |A - 1| * |Real.cos (angle sr fc)| + 2 * Real.sqrt A * alphaS sr fc A S) ^ 2

theorem shelf_margin {D N P V : ℝ} (hA : 0 < A) (hy : 0 < y) (hD : 0 < D) (hP : 0 < P) (h1 : D ^ 2 - N ^ 2 = 4 * A * y ^ 2)
    (h2 : 2 * A * y ^ 2 ≤ P ^ 2) (hV : D + P ≤ V) :
    PoleMargin (2 * N / (D + P)) ((D - P) / (D + P)) (2 * A * y ^ 2 / V ^ 2) ∧
    PoleMargin (-2 * N / (D + P)) ((D - P) / (D + P)) (2 * A * y ^ 2 / V ^ 2) := by
  have hd : 0 < D + P := by linarith
  have hV0 : 0 < V := by linarith
  have hw : 0 < 2 * A * y ^ 2 := by positivity
  have hN : |N| < D := by
    rw [← abs_of_pos hD, ← sq_lt_sq]; linarith
  have hN' := abs_lt.mp hN
  have le : ∀ {c : ℝ}, 2 * A * y ^ 2 ≤ c → 4 * (2 * A * y ^ 2 / V ^ 2) ≤ 4 * (c / (D + P) ^ 2) := fun {c} hc =>
    mul_le_mul_of_nonneg_left (div_le_div₀ (by linarith) hc (by positivity) (pow_le_pow_left₀ hd.le hV 2)) (by norm_num)
  have e1 : (1 - (D - P) / (D + P)) ^ 2 = 4 * (P ^ 2 / (D + P) ^ 2) := by field_simp; ring
  have e2 : (1 + (D - P) / (D + P) + 2 * N / (D + P)) * (1 + (D - P) / (D + P) - 2 * N / (D + P)) = 4 * (4 * A * y ^ 2 / (D + P) ^ 2) := by
    rw [← h1]; field_simp; ring
  have hs : |D - P| < D + P := by rw [abs_lt]; constructor <;> linarith
  refine ⟨⟨stablePair_div hd hs (by rw [abs_lt]; constructor <;> linarith), by positivity, by rw [e1]; exact le h2, ?_⟩,
    ⟨stablePair_div hd hs (by rw [abs_lt]; constructor <;> linarith), by positivity, by rw [e1]; exact le h2, ?_⟩⟩
  · rw [e2]; exact le (by linarith)
  · rw [show -2 * N / (D + P) = -(2 * N / (D + P)) by ring, ← sub_eq_add_neg, sub_neg_eq_add, mul_comm (1 + (D - P) / (D + P) - _), e2]; exact le (by linarith)

theorem alphaS_eq (sr fc A S : ℝ) : alphaS sr fc A S = Real.sin (angle sr fc) / 2 * slopeR A S := rfl

theorem shelf_poleMargin {sr fc : ℝ} (hA : 0 < A) (h : ValidShelf sr fc S) {D N : ℝ} (hD : 0 < D) (hD' : D ≤ A + 1 + |A - 1| * |Real.cos (angle sr fc)|)
    (hN : D ^ 2 - N ^ 2 = 4 * A * Real.sin (angle sr fc) ^ 2) :
    PoleMargin (2 * N / (D + 2 * Real.sqrt A * alphaS sr fc A S)) ((D - 2 * Real.sqrt A * alphaS sr fc A S) / (D + 2 * Real.sqrt A * alphaS sr fc A S)) (shelfMargin sr fc A S) ∧
    PoleMargin (-2 * N / (D + 2 * Real.sqrt A * alphaS sr fc A S)) ((D - 2 * Real.sqrt A * alphaS sr fc A S) / (D + 2 * Real.sqrt A * alphaS sr fc A S)) (shelfMargin sr fc A S) := by
  have hy : 0 < Real.sin (angle sr fc) := h.params.sin_pos
  have hR := two_le_slopeR_sq hA h.2.2.1 h.2.2.2
  have hR1 := one_le_slopeR hA h.2.2.1 h.2.2.2
  have hsq := Real.sqrt_pos.mpr hA
  rw [shelfMargin, alphaS_eq]
  refine shelf_margin hA hy hD (by positivity) hN ?_ (by linarith)
  rw [show (2 * Real.sqrt A * (Real.sin (angle sr fc) / 2 * slopeR A S)) ^ 2 = Real.sqrt A ^ 2 * Real.sin (angle sr fc) ^ 2 * slopeR A S ^ 2 by ring,
    Real.sq_sqrt hA.le]
  have := mul_le_mul_of_nonneg_left hR (show 0 ≤ A * Real.sin (angle sr fc) ^ 2 by positivity)
  linarith

/-- Both shelves. -/
theorem shelf_poleMargins {sr fc : ℝ} (hA : 0 < A) (h : ValidShelf sr fc S) :
    PoleMargin (-2 * (A - 1 + (A + 1) * Real.cos (angle sr fc)) / (A + 1 + (A - 1) * Real.cos (angle sr fc) + 2 * Real.sqrt A * alphaS sr fc A S))
      ((A + 1 + (A - 1) * Real.cos (angle sr fc) - 2 * Real.sqrt A * alphaS sr fc A S) /
        (A + 1 + (A - 1) * Real.cos (angle sr fc) + 2 * Real.sqrt A * alphaS sr fc A S)) (shelfMargin sr fc A S) ∧
    PoleMargin (2 * (A - 1 - (A + 1) * Real.cos (angle sr fc)) / (A + 1 - (A - 1) * Real.cos (angle sr fc) + 2 * Real.sqrt A * alphaS sr fc A S))
      ((A + 1 - (A - 1) * Real.cos (angle sr fc) - 2 * Real.sqrt A * alphaS sr fc A S) /
        (A + 1 - (A - 1) * Real.cos (angle sr fc) + 2 * Real.sqrt A * alphaS sr fc A S)) (shelfMargin sr fc A S) := by
  have hy : 0 < Real.sin (angle sr fc) := h.params.sin_pos
  have e := Real.sin_sq_add_cos_sq (angle sr fc)
  have hx1 : |Real.cos (angle sr fc)| < 1 := by
    rw [← abs_one, ← sq_lt_sq]; nlinarith
  have hx := abs_lt.mp hx1
  have hm : |(A - 1) * Real.cos (angle sr fc)| = |A - 1| * |Real.cos (angle sr fc)| := abs_mul _ _
  have hm' := abs_le.mp hm.le
  have p1 : 0 < A * (1 + Real.cos (angle sr fc)) := mul_pos hA (by linarith)
  have p2 : 0 < A * (1 - Real.cos (angle sr fc)) := mul_pos hA (by linarith)
  exact ⟨(shelf_poleMargin hA h (by linarith) (by linarith) (by linear_combination (-4) * A * e)).2,
    (shelf_poleMargin hA h (by linarith) (by linarith) (by linear_combination (-4) * A * e)).1⟩

section
variable {k : ℝ} {sr fc db slope : Fl L}

/-- Parameters of the shelves for which the precision suffices. -/
structure ShelfResolved (k G : ℝ) (sr fc db slope : Fl L) : Prop where
  hsr : sr.Finite ∧ 1 ≤ sr.toReal ∧ 8 * sr.toReal ≤ 2 ^ f.emax
  hfc : fc.Finite
  hdb : db.Finite ∧ |db.toReal| ≤ 120
  gain : GainIn db.toReal G
  hslope : slope.Finite ∧ 5 * G ≤ slope.toReal * 2 ^ f.emax
  valid : ValidShelf sr.toReal fc.toReal slope.toReal
  margin : 8 * gainErr f k G (slopeR (gainA db.toReal) slope.toReal) ≤ shelfMargin sr.toReal fc.toReal (gainA db.toReal) slope.toReal

theorem ShelfResolved.ctx (h : ShelfResolved k G sr fc db slope) (hf : f.Roomy) (hk : 0 ≤ k) :
    Ctx f ((k + 1) * f.u) G (slopeR (gainA db.toReal) slope.toReal) := by
  have hu := f.u_pos
  have hR := one_le_slopeR (gainA_pos db.toReal) h.valid.2.2.1 h.valid.2.2.2
  refine .mk' hf (by nlinarith [mul_nonneg hk hu.le]) h.gain.one_le (by linarith) ?_
  have h1 := h.margin
  have h2 := (shelf_poleMargins (gainA_pos db.toReal) h.valid).1.le_one
  unfold gainErr at h1
  have : 0 ≤ (k + 1) * f.u * (G ^ 4 * (1 + slopeR (gainA db.toReal) slope.toReal)) := by positivity
  linarith

/-- The coefficients of both shelves. -/
theorem ShelfResolved.within (hL : AccurateTrig L k) (hP : AccuratePow L k) (hf : f.Roomy) (hp : 7 ≤ f.p) (hk : 0 ≤ k)
    (h : ShelfResolved k G sr fc db slope) :
    (∀ s : LowShelf (Fl L), CoeffsWithin (s.setCoefficients sr fc db slope).biquad
      (gainA db.toReal * (gainA db.toReal + 1 - (gainA db.toReal - 1) * Real.cos (angle sr.toReal fc.toReal) + 2 * Real.sqrt (gainA db.toReal) * alphaS sr.toReal fc.toReal (gainA db.toReal) slope.toReal) /
        (gainA db.toReal + 1 + (gainA db.toReal - 1) * Real.cos (angle sr.toReal fc.toReal) + 2 * Real.sqrt (gainA db.toReal) * alphaS sr.toReal fc.toReal (gainA db.toReal) slope.toReal))
      (2 * gainA db.toReal * (gainA db.toReal - 1 - (gainA db.toReal + 1) * Real.cos (angle sr.toReal fc.toReal)) /
        (gainA db.toReal + 1 + (gainA db.toReal - 1) * Real.cos (angle sr.toReal fc.toReal) + 2 * Real.sqrt (gainA db.toReal) * alphaS sr.toReal fc.toReal (gainA db.toReal) slope.toReal))
      (gainA db.toReal * (gainA db.toReal + 1 - (gainA db.toReal - 1) * Real.cos (angle sr.toReal fc.toReal) - 2 * Real.sqrt (gainA db.toReal) * alphaS sr.toReal fc.toReal (gainA db.toReal) slope.toReal) /
        (gainA db.toReal + 1 + (gainA db.toReal - 1) * Real.cos (angle sr.toReal fc.toReal) + 2 * Real.sqrt (gainA db.toReal) * alphaS sr.toReal fc.toReal (gainA db.toReal) slope.toReal))
      (-2 * (gainA db.toReal - 1 + (gainA db.toReal + 1) * Real.cos (angle sr.toReal fc.toReal)) /
        (gainA db.toReal + 1 + (gainA db.toReal - 1) * Real.cos (angle sr.toReal fc.toReal) + 2 * Real.sqrt (gainA db.toReal) * alphaS sr.toReal fc.toReal (gainA db.toReal) slope.toReal))
      ((gainA db.toReal + 1 + (gainA db.toReal - 1) * Real.cos (angle sr.toReal fc.toReal) - 2 * Real.sqrt (gainA db.toReal) * alphaS sr.toReal fc.toReal (gainA db.toReal) slope.toReal) /
        (gainA db.toReal + 1 + (gainA db.toReal - 1) * Real.cos (angle sr.toReal fc.toReal) + 2 * Real.sqrt (gainA db.toReal) * alphaS sr.toReal fc.toReal (gainA db.toReal) slope.toReal))
      (gainErr f k G (slopeR (gainA db.toReal) slope.toReal))) ∧
    (∀ s : HighShelf (Fl L), CoeffsWithin (s.setCoefficients sr fc db slope).biquad
      (gainA db.toReal * (gainA db.toReal + 1 + (gainA db.toReal - 1) * Real.cos (angle sr.toReal fc.toReal) + 2 * Real.sqrt (gainA db.toReal) * alphaS sr.toReal fc.toReal (gainA db.toReal) slope.toReal) /
        (gainA db.toReal + 1 - (gainA db.toReal - 1) * Real.cos (angle sr.toReal fc.toReal) + 2 * Real.sqrt (gainA db.toReal) * alphaS sr.toReal fc.toReal (gainA db.toReal) slope.toReal))
      (-2 * gainA db.toReal * (gainA db.toReal - 1 + (gainA db.toReal + 1) * Real.cos (angle sr.toReal fc.toReal)) /
        (gainA db.toReal + 1 - (gainA db.toReal - 1) * Real.cos (angle sr.toReal fc.toReal) + 2 * Real.sqrt (gainA db.toReal) * alphaS sr.toReal fc.toReal (gainA db.toReal) slope.toReal))
      (gainA db.toReal * (gainA db.toReal + 1 + (gainA db.toReal - 1) * Real.cos (angle sr.toReal fc.toReal) - 2 * Real.sqrt (gainA db.toReal) * alphaS sr.toReal fc.toReal (gainA db.toReal) slope.toReal) /
        (gainA db.toReal + 1 - (gainA db.toReal - 1) * Real.cos (angle sr.toReal fc.toReal) + 2 * Real.sqrt (gainA db.toReal) * alphaS sr.toReal fc.toReal (gainA db.toReal) slope.toReal))
      (2 * (gainA db.toReal - 1 - (gainA db.toReal + 1) * Real.cos (angle sr.toReal fc.toReal)) /
        (gainA db.toReal + 1 - (gainA db.toReal - 1) * Real.cos (angle sr.toReal fc.toReal) + 2 * Real.sqrt (gainA db.toReal) * alphaS sr.toReal fc.toReal (gainA db.toReal) slope.toReal))
      ((gainA db.toReal + 1 - (gainA db.toReal - 1) * Real.cos (angle sr.toReal fc.toReal) - 2 * Real.sqrt (gainA db.toReal) * alphaS sr.toReal fc.toReal (gainA db.toReal) slope.toReal) /
        (gainA db.toReal + 1 - (gainA db.toReal - 1) * Real.cos (angle sr.toReal fc.toReal) + 2 * Real.sqrt (gainA db.toReal) * alphaS sr.toReal fc.toReal (gainA db.toReal) slope.toReal))
      (gainErr f k G (slopeR (gainA db.toReal) slope.toReal))) := by
  have hC := h.ctx hf hk
  have nA := gain_near hP hk hp hC h.hdb.1 h.hdb.2
  have hv := h.valid
  obtain ⟨nc, ns⟩ := trig_near hL hf hC h.hsr.1 h.hfc h.hsr.2.1 h.hsr.2.2 hv.1 hv.2.1 hk
  have hA := gainA_pos db.toReal
  have hR := one_le_slopeR hA hv.2.2.1 hv.2.2.2
  have nR := slope_near hC nA h.gain.le h.gain.ge hA h.hslope.1 rfl hv.2.2.1 hv.2.2.2 h.hslope.2
  have np := product_near hC nA h.gain.le h.gain.ge hA ns nR hR
  obtain ⟨n1, n2, n3, n4⟩ := sums_near hC nA h.gain.le hA nc
  have hx := Real.abs_cos_le_one (angle sr.toReal fc.toReal)
  have hy : 0 < Real.sin (angle sr.toReal fc.toReal) := hv.params.sin_pos
  have hy1 := Real.sin_le_one (angle sr.toReal fc.toReal)
  have sl := shelfShape (R := slopeR (gainA db.toReal) slope.toReal) hA h.gain.le h.gain.ge hC.hG hR hx hy hy1
  have sh := shelfShape (R := slopeR (gainA db.toReal) slope.toReal) (x := -Real.cos (angle sr.toReal fc.toReal)) hA h.gain.le h.gain.ge hC.hG hR (by rwa [abs_neg]) hy hy1
  simp only [mul_neg, ← sub_eq_add_neg, sub_neg_eq_add] at sh
  obtain ⟨l1, l2, l3, l4, l5, l6, l7⟩ := coeffs_near hC nA h.gain.le h.gain.ge hA hR n1 n2 n3 n4 np sl
  obtain ⟨m1, m2, m3, m4, m5, m6, m7⟩ := coeffs_near hC nA h.gain.le h.gain.ge hA hR n2 n1 n4 n3 np sh
  exact ⟨fun s => ⟨l1, l2, l4, l6, l7, ⟨zero_finite, zero_toReal⟩, ⟨zero_finite, zero_toReal⟩⟩,
    fun s => ⟨m1, m3, m4, m5, m7, ⟨zero_finite, zero_toReal⟩, ⟨zero_finite, zero_toReal⟩⟩⟩

end

end Rasp
