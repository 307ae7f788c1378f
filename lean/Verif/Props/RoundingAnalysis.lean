import Verif.Lemmas.RoundErr
import Verif.Lemmas.SmoothFl
import Verif.Model.Analysis

/-!
# C74 The analysis processors in floating-point arithmetic stay close to exact arithmetic

All statements are in IEEE arithmetic (any format, any math library), for streams of any length.
-/

namespace Rasp
open FloatOps

section analysis
variable {f : Fmt} {L : Libm f}

noncomputable def LeakyIntegrator.exact (s : LeakyIntegrator (Fl L)) : LeakyIntegrator ℝ := ⟨s.alpha.toReal, s.y_z1.toReal⟩
noncomputable def PeakEnvDetector.exact (s : PeakEnvDetector (Fl L)) : PeakEnvDetector ℝ :=
  ⟨s.attack_gain.toReal, s.release_gain.toReal, s.envelope.toReal⟩
noncomputable def RmsEnvDetector.exact (s : RmsEnvDetector (Fl L)) : RmsEnvDetector ℝ :=
  ⟨s.attack_gain.toReal, s.release_gain.toReal, s.envelope.toReal⟩

/-- A finite gain in `[0, g]`. -/
def Fl.Gain (g : ℝ) (a : Fl L) : Prop := a.Finite ∧ 0 ≤ a.toReal ∧ a.toReal ≤ g

/-- One smoothing step: the result stays within the range and is off by at most `6 (2^-p X + 2^emin)`. -/
theorem step_error {α x y : Fl L} {X : ℝ} (hα : α.Finite) (h0 : 0 ≤ α.toReal) (h1 : α.toReal < 1) (hx : x.Within X)
    (hy : y.Within X) (hov : 2 * X ≤ 2 ^ f.emax) :
    (x +. α *. (y -. x)).Within X ∧ min x.toReal y.toReal ≤ (x +. α *. (y -. x)).toReal ∧
      |(x +. α *. (y -. x)).toReal - (x.toReal + α.toReal * (y.toReal - x.toReal))| ≤ 6 * (f.u * X + f.tiny) := by
  have hX : 0 ≤ X := (abs_nonneg _).trans hx.2
  have hu := f.u_pos; have hu4 := f.u_le; have ht := f.tiny_pos
  obtain ⟨hx1, hx2⟩ := abs_le.mp hx.2
  obtain ⟨hy1, hy2⟩ := abs_le.mp hy.2
  have hd2 : |y.toReal - x.toReal| ≤ 2 * X := by rw [abs_le]; constructor <;> linarith
  have hno : FP.NoOvf f (y.toReal - x.toReal) := Fl.noOvf_of_le_emax (hd2.trans hov)
  obtain ⟨b0, b1, b2⟩ := Fl.smooth_between hα h0 h1 hx.1 hy.1 hno
  refine ⟨⟨b0, abs_le.mpr ⟨le_trans (le_min hx1 hy1) b1, b2.trans (max_le hx2 hy2)⟩⟩, b1, ?_⟩
  obtain ⟨hd, hd'⟩ := Fl.sub_val hy.1 hx.1 hno
  obtain ⟨hm, hm'⟩ := Fl.mul_val hα hd (Fl.noOvf_of_abs_le (y := y -. x) (by
    rw [abs_mul, abs_of_nonneg h0]
    have := abs_nonneg (y -. x).toReal
    nlinarith))
  obtain ⟨-, -, c3, c4⟩ := rnd_smooth_between (Fl.isRep_toReal α) h0 h1 (Fl.isRep_toReal x) (Fl.isRep_toReal y)
  have hs' := (Fl.add_val hx.1 hm (Fl.noOvf_of_mem (x := x) (y := y) (by rw [hm', hd']; exact c3) (by rw [hm', hd']; exact c4))).2
  rw [hd'] at hm'
  rw [hs', hm']
  have r1 := abs_rnd_sub_le_u f (y.toReal - x.toReal)
  have r2 := abs_rnd_sub_le_u f (α.toReal * rnd f (y.toReal - x.toReal))
  have r3 := abs_rnd_sub_le_u f (x.toReal + rnd f (α.toReal * rnd f (y.toReal - x.toReal)))
  have c5 : |x.toReal + rnd f (α.toReal * rnd f (y.toReal - x.toReal))| ≤ X :=
    abs_le.mpr ⟨le_trans (le_min hx1 hy1) c3, c4.trans (max_le hx2 hy2)⟩
  generalize rnd f (x.toReal + rnd f (α.toReal * rnd f (y.toReal - x.toReal))) = r at r3 ⊢
  generalize rnd f (α.toReal * rnd f (y.toReal - x.toReal)) = m at r2 r3 c5 ⊢
  generalize rnd f (y.toReal - x.toReal) = d at r1 r2
  have e1 : |d - (y.toReal - x.toReal)| ≤ f.u * (2 * X) + f.tiny :=
    r1.trans (by have := mul_le_mul_of_nonneg_left hd2 hu.le; linarith)
  have e1' : |α.toReal * (d - (y.toReal - x.toReal))| ≤ f.u * (2 * X) + f.tiny := by
    rw [abs_mul, abs_of_nonneg h0]
    have := abs_nonneg (d - (y.toReal - x.toReal))
    nlinarith
  have ed : |α.toReal * d| ≤ 2 * X + (f.u * (2 * X) + f.tiny) := by
    have : |d| ≤ 2 * X + (f.u * (2 * X) + f.tiny) := by
      have := abs_add_le (y.toReal - x.toReal) (d - (y.toReal - x.toReal))
      rw [add_sub_cancel] at this
      linarith
    rw [abs_mul, abs_of_nonneg h0]
    have := abs_nonneg d
    nlinarith
  have e2 : |m - α.toReal * d| ≤ f.u * (2 * X) + f.u * (f.u * (2 * X) + f.tiny) + f.tiny := by
    have := mul_le_mul_of_nonneg_left ed hu.le
    linarith
  have e3 : |r - (x.toReal + m)| ≤ f.u * X + f.tiny := by
    have := mul_le_mul_of_nonneg_left c5 hu.le
    linarith
  have tri := abs_add_three (r - (x.toReal + m)) (m - α.toReal * d) (α.toReal * (d - (y.toReal - x.toReal)))
  have : r - (x.toReal + m) + (m - α.toReal * d) + α.toReal * (d - (y.toReal - x.toReal))
      = r - (x.toReal + α.toReal * (y.toReal - x.toReal)) := by ring
  rw [this] at tri
  have huX : 0 ≤ f.u * X := by positivity
  have q1 : f.u * (f.u * (2 * X) + f.tiny) ≤ 1 / 4 * (f.u * (2 * X) + f.tiny) :=
    mul_le_mul_of_nonneg_right hu4 (by positivity)
  linarith

/-- The exact step of the detectors, as a function of sample and envelope. -/
theorem follow_lipschitz {a r g i e i' e' : ℝ} (ha0 : 0 ≤ a) (ha : a ≤ g) (hr0 : 0 ≤ r) (hr : r ≤ g) (hg : g ≤ 1) :
    |(i + (if e < i then a else r) * (e - i)) - (i' + (if e' < i' then a else r) * (e' - i'))| ≤ g * |e - e'| + |i - i'| := by
  have key : ∃ c, 0 ≤ c ∧ c ≤ g ∧
      (if e < i then a else r) * (e - i) - (if e' < i' then a else r) * (e' - i') = c * ((e - i) - (e' - i')) := by
    by_cases h : e < i <;> by_cases h' : e' < i'
    · exact ⟨a, ha0, ha, by rw [if_pos h, if_pos h']; ring⟩
    · rw [if_pos h, if_neg h']
      have hd : 0 < (e' - i') - (e - i) := by linarith
      refine ⟨(a * (i - e) + r * (e' - i')) / ((e' - i') - (e - i)), div_nonneg (by nlinarith) hd.le, ?_, ?_⟩
      · rw [div_le_iff₀ hd]; nlinarith
      · rw [div_mul_eq_mul_div, eq_div_iff hd.ne']; ring
    · rw [if_neg h, if_pos h']
      have hd : 0 < (e - i) - (e' - i') := by linarith
      refine ⟨(r * (e - i) + a * (i' - e')) / ((e - i) - (e' - i')), div_nonneg (by nlinarith) hd.le, ?_, ?_⟩
      · rw [div_le_iff₀ hd]; nlinarith
      · rw [div_mul_cancel₀ _ hd.ne']; ring
    · exact ⟨r, hr0, hr, by rw [if_neg h, if_neg h']; ring⟩
  obtain ⟨c, c0, c1, hc⟩ := key
  have : (i + (if e < i then a else r) * (e - i)) - (i' + (if e' < i' then a else r) * (e' - i'))
      = c * (e - e') + (1 - c) * (i - i') := by linear_combination hc
  rw [this]
  refine (abs_add_le _ _).trans ?_
  rw [abs_mul, abs_mul, abs_of_nonneg c0, abs_of_nonneg (show 0 ≤ 1 - c by linarith)]
  nlinarith [abs_nonneg (e - e'), abs_nonneg (i - i')]

theorem abs_le_contract {g δ e e' : ℝ} (hg : g < 1) (h : e' ≤ g * e + δ) (g0 : 0 ≤ g) (he : e ≤ δ / (1 - g)) :
    e' ≤ δ / (1 - g) := by
  have : 0 < 1 - g := by linarith
  rw [le_div_iff₀ this] at he ⊢
  nlinarith

/-- C74, LeakyIntegrator: the error is at most `6 (2^-p X + 2^emin) / (1 - alpha)`. -/
theorem C74_leaky {s : LeakyIntegrator (Fl L)} {X : ℝ} (hα : s.alpha.Finite) (h0 : 0 ≤ s.alpha.toReal)
    (h1 : s.alpha.toReal < 1) (hm : s.y_z1.Within X) (hov : 2 * X ≤ 2 ^ f.emax) :
    Tracks s s.exact X (6 * (f.u * X + f.tiny) / (1 - s.alpha.toReal)) := by
  refine tracks_of (fun _ _ _ => ⟨_, _, rfl⟩) (fun _ _ _ => ⟨_, _, rfl⟩) ?_
  rintro b x y z hx ⟨st, rfl, hst⟩ ⟨rt, hr0, hrt⟩
  have hX : 0 ≤ X := (abs_nonneg _).trans hm.2
  have hδ : 0 ≤ 6 * (f.u * X + f.tiny) := by have := f.u_pos; have := f.tiny_pos; positivity
  have inv : ∀ n, (st n).alpha = (st 0).alpha ∧ (rt n).alpha = (st 0).alpha.toReal ∧ (st n).y_z1.Within X ∧
      |(st n).y_z1.toReal - (rt n).y_z1| ≤ 6 * (f.u * X + f.tiny) / (1 - (st 0).alpha.toReal) := by
    intro n
    induction n with
    | zero =>
      refine ⟨rfl, by rw [hr0]; rfl, hm, ?_⟩
      rw [hr0]
      simp only [LeakyIntegrator.exact, sub_self, abs_zero]
      exact div_nonneg hδ (by linarith)
    | succ n ih =>
      obtain ⟨i1, i2, i3, i4⟩ := ih
      have e1 := hst n
      have e2 := hrt n
      simp only [Processor.process, LeakyIntegrator.process, Except.ok.injEq, Prod.mk.injEq] at e1 e2
      obtain ⟨e1, -⟩ := e1
      obtain ⟨e2, -⟩ := e2
      have := step_error hα h0 h1 (hx n) i3 hov
      rw [← e1, ← e2]
      refine ⟨i1, i2, by rw [i1]; exact this.1, ?_⟩
      refine abs_le_contract h1 ?_ h0 i4
      simp only [i1, i2, real_add, real_mul, real_sub]
      have t := abs_add_le ((x n +. (st 0).alpha *. ((st n).y_z1 -. x n)).toReal
        - ((x n).toReal + (st 0).alpha.toReal * ((st n).y_z1.toReal - (x n).toReal)))
        ((st 0).alpha.toReal * ((st n).y_z1.toReal - (rt n).y_z1))
      rw [abs_mul, abs_of_nonneg h0] at t
      refine le_trans (le_of_eq ?_) (t.trans ?_)
      · congr 1; ring
      · linarith [this.2.2]
  intro n
  have e1 := hst n
  have e2 := hrt n
  simp only [Processor.process, LeakyIntegrator.process, Except.ok.injEq, Prod.mk.injEq] at e1 e2
  obtain ⟨-, -, i3, i4⟩ := inv (n + 1)
  have h3 : (st (n + 1)).y_z1 = y n := by rw [← e1.1]; exact e1.2
  have h4 : (rt (n + 1)).y_z1 = z n := by rw [← e2.1]; exact e2.2
  rw [h3] at i3 i4
  rw [h4] at i4
  exact ⟨i3.1, i4⟩

/-- One step of a detector against the exact step from a nearby envelope and sample. -/
theorem follow_error {a r e i : Fl L} {g A e' i' : ℝ} (hg : g < 1) (ha : a.Gain g) (hr : r.Gain g) (hi : i.Within A)
    (he : e.Within A) (hov : 2 * A ≤ 2 ^ f.emax) :
    (i +. (if lt e i then a else r) *. (e -. i)).Within A ∧
    min i.toReal e.toReal ≤ (i +. (if lt e i then a else r) *. (e -. i)).toReal ∧
    |(i +. (if lt e i then a else r) *. (e -. i)).toReal
      - (i' + (if e' < i' then a.toReal else r.toReal) * (e' - i'))|
      ≤ g * |e.toReal - e'| + (6 * (f.u * A + f.tiny) + |i.toReal - i'|) := by
  have hsel : (if lt e i = true then a else r).Gain g ∧
      (if lt e i = true then a else r).toReal = if e.toReal < i.toReal then a.toReal else r.toReal := by
    have := Fl.lt_iff he.1 hi.1
    by_cases h : e.toReal < i.toReal
    · rw [if_pos (this.mpr h), if_pos h]; exact ⟨ha, rfl⟩
    · rw [if_neg (fun h' => h (this.mp h')), if_neg h]; exact ⟨hr, rfl⟩
  obtain ⟨⟨g1, g2, g3⟩, g4⟩ := hsel
  have s := step_error g1 g2 (by linarith) hi he hov
  refine ⟨s.1, s.2.1, ?_⟩
  have s2 := s.2.2
  rw [g4] at s2
  have lip := follow_lipschitz (i := i.toReal) (e := e.toReal) (i' := i') (e' := e') ha.2.1 ha.2.2 hr.2.1 hr.2.2 hg.le
  have t := abs_sub_le ((i +. (if lt e i then a else r) *. (e -. i)).toReal)
    (i.toReal + (if e.toReal < i.toReal then a.toReal else r.toReal) * (e.toReal - i.toReal))
    (i' + (if e' < i' then a.toReal else r.toReal) * (e' - i'))
  linarith

/-- C74, PeakEnvDetector: with both gains at most `g < 1` the error is at most `6 (2^-p X + 2^emin) / (1 - g)`, even where
the two runs take different branches. -/
theorem C74_peak {s : PeakEnvDetector (Fl L)} {X g : ℝ} (hg : g < 1) (ha : s.attack_gain.Gain g) (hr : s.release_gain.Gain g)
    (hm : s.envelope.Within X) (hov : 2 * X ≤ 2 ^ f.emax) :
    Tracks s s.exact X (6 * (f.u * X + f.tiny) / (1 - g)) := by
  refine tracks_of (fun _ _ _ => ⟨_, _, rfl⟩) (fun _ _ _ => ⟨_, _, rfl⟩) ?_
  rintro b x y z hx ⟨st, rfl, hst⟩ ⟨rt, hr0, hrt⟩
  have hX : 0 ≤ X := (abs_nonneg _).trans hm.2
  have hδ : 0 ≤ 6 * (f.u * X + f.tiny) := by have := f.u_pos; have := f.tiny_pos; positivity
  have g0 : 0 ≤ g := ha.2.1.trans ha.2.2
  have inv : ∀ n, (st n).attack_gain = (st 0).attack_gain ∧ (st n).release_gain = (st 0).release_gain ∧
      (rt n).attack_gain = (st 0).attack_gain.toReal ∧ (rt n).release_gain = (st 0).release_gain.toReal ∧
      (st n).envelope.Within X ∧ |(st n).envelope.toReal - (rt n).envelope| ≤ 6 * (f.u * X + f.tiny) / (1 - g) := by
    intro n
    induction n with
    | zero =>
      refine ⟨rfl, rfl, by rw [hr0]; rfl, by rw [hr0]; rfl, hm, ?_⟩
      rw [hr0]
      simp only [PeakEnvDetector.exact, sub_self, abs_zero]
      exact div_nonneg hδ (by linarith)
    | succ n ih =>
      obtain ⟨i1, i2, i3, i4, i5, i6⟩ := ih
      have e1 := hst n
      have e2 := hrt n
      simp only [Processor.process, PeakEnvDetector.process, Except.ok.injEq, Prod.mk.injEq] at e1 e2
      obtain ⟨e1, -⟩ := e1
      obtain ⟨e2, -⟩ := e2
      have hxa : (FloatOps.abs (x n)).Within X :=
        ⟨Fl.abs_finite.mpr (hx n).1, by rw [Fl.abs_toReal, abs_abs]; exact (hx n).2⟩
      have := follow_error (e' := (rt n).envelope) (i' := |(x n).toReal|) hg ha hr hxa i5 hov
      rw [← e1, ← e2]
      refine ⟨i1, i2, i3, i4, by rw [i1, i2]; exact this.1, ?_⟩
      refine abs_le_contract hg ?_ g0 i6
      simp only [i1, i2, i3, i4, real_add, real_mul, real_sub, real_lt, real_abs]
      refine this.2.2.trans ?_
      rw [Fl.abs_toReal, sub_self, abs_zero, add_zero]
  intro n
  have e1 := hst n
  have e2 := hrt n
  simp only [Processor.process, PeakEnvDetector.process, Except.ok.injEq, Prod.mk.injEq] at e1 e2
  obtain ⟨-, -, -, -, i3, i4⟩ := inv (n + 1)
  have h3 : (st (n + 1)).envelope = y n := by rw [← e1.1]; exact e1.2
  have h4 : (rt (n + 1)).envelope = z n := by rw [← e2.1]; exact e2.2
  rw [h3] at i3 i4
  rw [h4] at i4
  exact ⟨i3.1, i4⟩

theorem abs_sqrt_sub_le {a b : ℝ} (ha : 0 ≤ a) (hb : 0 ≤ b) : |√a - √b| ≤ √|a - b| := by
  apply Real.le_sqrt_of_sq_le
  have h1 := Real.sqrt_nonneg a
  have h2 := Real.sqrt_nonneg b
  have h3 := Real.sq_sqrt ha
  have h4 := Real.sq_sqrt hb
  rw [sq_abs]
  rcases le_total a b with h | h
  · have := Real.sqrt_le_sqrt h
    rw [abs_of_nonpos (by linarith)]
    nlinarith
  · have := Real.sqrt_le_sqrt h
    rw [abs_of_nonneg (by linarith)]
    nlinarith

/-- C74, RmsEnvDetector: with both gains at most `g < 1` the error of the mean square is at most
`9 (2^-p X² + 2^emin) / (1 - g)`, and that of the output at most four times the root of `(2^-p X² + 2^emin) / (1 - g)`
plus `2^-p X + 2^emin`. -/
theorem C74_rms {s : RmsEnvDetector (Fl L)} {X g : ℝ} (hX : 0 ≤ X) (hg : g < 1) (ha : s.attack_gain.Gain g)
    (hr : s.release_gain.Gain g) (hm : s.envelope.Within (X ^ 2)) (hm0 : 0 ≤ s.envelope.toReal)
    (hov : 4 * (X ^ 2 + f.tiny) ≤ 2 ^ f.emax) :
    Tracks s s.exact X (4 * √((f.u * X ^ 2 + f.tiny) / (1 - g)) + (f.u * X + f.tiny)) := by
  refine tracks_of (fun _ _ _ => ⟨_, _, rfl⟩) (fun _ _ _ => ⟨_, _, rfl⟩) ?_
  rintro b x y z hx ⟨st, rfl, hst⟩ ⟨rt, hr0, hrt⟩
  have hu := f.u_pos; have hu4 := f.u_le; have ht := f.tiny_pos
  have hX2 : 0 ≤ X ^ 2 := sq_nonneg X
  have huX : 0 ≤ f.u * X ^ 2 := by positivity
  obtain ⟨A, hA⟩ : ∃ A, A = X ^ 2 + f.u * X ^ 2 + f.tiny := ⟨_, rfl⟩
  obtain ⟨D, hD⟩ : ∃ D, D = f.u * X ^ 2 + f.tiny := ⟨_, rfl⟩
  have hD0 : 0 ≤ D := by rw [hD]; positivity
  have hg1 : 0 < 1 - g := by linarith
  have huX4 : f.u * X ^ 2 ≤ 1 / 4 * X ^ 2 := mul_le_mul_of_nonneg_right hu4 hX2
  have hAov : 2 * A ≤ 2 ^ f.emax := by rw [hA]; linarith
  have hAD : 6 * (f.u * A + f.tiny) + D ≤ 9 * D := by
    rw [hA, hD]
    have q1 : f.u * (f.u * X ^ 2) ≤ 1 / 4 * (f.u * X ^ 2) := mul_le_mul_of_nonneg_right hu4 huX
    have q2 : f.u * f.tiny ≤ 1 / 4 * f.tiny := mul_le_mul_of_nonneg_right hu4 ht.le
    nlinarith
  have g0 : 0 ≤ g := ha.2.1.trans ha.2.2
  have hmA : (st 0).envelope.Within A := ⟨hm.1, hm.2.trans (by rw [hA]; linarith)⟩
  have sq : ∀ n, (x n *. x n).Within A ∧ 0 ≤ (x n *. x n).toReal ∧ |(x n *. x n).toReal - (x n).toReal ^ 2| ≤ D ∧
      (x n).toReal ^ 2 ≤ X ^ 2 := by
    intro n
    have h2 : (x n).toReal ^ 2 ≤ X ^ 2 := sq_le_sq' (abs_le.mp (hx n).2).1 (abs_le.mp (hx n).2).2
    have h3 : |(x n).toReal * (x n).toReal| ≤ X ^ 2 := by rw [abs_mul_self]; linarith [sq (x n).toReal]
    obtain ⟨v1, v2⟩ := Fl.mul_val (hx n).1 (hx n).1 (Fl.noOvf_of_le_emax (h3.trans (by linarith)))
    have r := abs_rnd_sub_le_u f ((x n).toReal * (x n).toReal)
    have r' : |rnd f ((x n).toReal * (x n).toReal) - (x n).toReal ^ 2| ≤ D := by
      rw [pow_two, hD]
      have := mul_le_mul_of_nonneg_left h3 hu.le
      linarith
    have r0 : 0 ≤ rnd f ((x n).toReal * (x n).toReal) := rnd_nonneg (mul_self_nonneg _)
    rw [Fl.Within, v2]
    refine ⟨⟨v1, ?_⟩, r0, r', h2⟩
    rw [abs_of_nonneg r0, hA]
    have := (abs_le.mp r').2
    linarith
  have inv : ∀ n, (st n).attack_gain = (st 0).attack_gain ∧ (st n).release_gain = (st 0).release_gain ∧
      (rt n).attack_gain = (st 0).attack_gain.toReal ∧ (rt n).release_gain = (st 0).release_gain.toReal ∧
      (st n).envelope.Within A ∧ 0 ≤ (st n).envelope.toReal ∧ 0 ≤ (rt n).envelope ∧ (rt n).envelope ≤ X ^ 2 ∧
      |(st n).envelope.toReal - (rt n).envelope| ≤ 9 * D / (1 - g) := by
    intro n
    induction n with
    | zero =>
      rw [hr0]
      refine ⟨rfl, rfl, rfl, rfl, hmA, hm0, hm0, (abs_le.mp hm.2).2, ?_⟩
      simp only [RmsEnvDetector.exact, sub_self, abs_zero]
      exact div_nonneg (by linarith) hg1.le
    | succ n ih =>
      obtain ⟨i1, i2, i3, i4, i5, i6, i7, i8, i9⟩ := ih
      have e1 := hst n
      have e2 := hrt n
      simp only [Processor.process, RmsEnvDetector.process, Except.ok.injEq, Prod.mk.injEq] at e1 e2
      obtain ⟨e1, -⟩ := e1
      obtain ⟨e2, -⟩ := e2
      obtain ⟨s1, s2, s3, s4⟩ := sq n
      have key := follow_error (e' := (rt n).envelope) (i' := (x n).toReal ^ 2) hg ha hr s1 i5 hAov
      rw [← e1, ← e2]
      simp only [i1, i2, i3, i4, real_add, real_mul, real_sub, real_lt, ← pow_two]
      have conv : ∀ c : ℝ, 0 ≤ c → c ≤ 1 → 0 ≤ (x n).toReal ^ 2 + c * ((rt n).envelope - (x n).toReal ^ 2) ∧
          (x n).toReal ^ 2 + c * ((rt n).envelope - (x n).toReal ^ 2) ≤ X ^ 2 := by
        intro c c0 c1
        have := sq_nonneg (x n).toReal
        constructor <;> nlinarith
      have hc : ∀ p : Prop, [Decidable p] → 0 ≤ (if p then (st 0).attack_gain.toReal else (st 0).release_gain.toReal) ∧
          (if p then (st 0).attack_gain.toReal else (st 0).release_gain.toReal) ≤ 1 := by
        intro p _
        split_ifs
        · exact ⟨ha.2.1, ha.2.2.trans hg.le⟩
        · exact ⟨hr.2.1, hr.2.2.trans hg.le⟩
      refine ⟨trivial, trivial, trivial, trivial, key.1, le_trans (le_min s2 i6) key.2.1, (conv _ (hc _).1 (hc _).2).1,
        (conv _ (hc _).1 (hc _).2).2, ?_⟩
      refine abs_le_contract hg ?_ g0 i9
      refine key.2.2.trans ?_
      linarith
  intro n
  have e1 := hst n
  have e2 := hrt n
  simp only [Processor.process, RmsEnvDetector.process, Except.ok.injEq, Prod.mk.injEq] at e1 e2
  obtain ⟨-, -, -, -, i3, i4, i5, i6, i7⟩ := inv (n + 1)
  have h3 : sqrt (st (n + 1)).envelope = y n := by rw [← e1.1]; exact e1.2
  have h4 : √(rt (n + 1)).envelope = z n := by rw [← e2.1]; exact e2.2
  generalize (st (n + 1)).envelope = v at h3 i3 i4 i7
  generalize (rt (n + 1)).envelope = w at h4 i5 i6 i7
  obtain ⟨v1, v2⟩ := Fl.sqrt_val i3.1 i4
  rw [← h3, ← h4, v2]
  refine ⟨v1, ?_⟩
  have r := abs_rnd_sub_le_u f √v.toReal
  have hs := abs_sqrt_sub_le i4 i5
  have hE : √|v.toReal - w| ≤ 3 * √(D / (1 - g)) := by
    refine (Real.sqrt_le_sqrt i7).trans ?_
    rw [show 9 * D / (1 - g) = 3 ^ 2 * (D / (1 - g)) by ring, Real.sqrt_mul (by norm_num), Real.sqrt_sq (by norm_num)]
  have hw : √w ≤ X := by rw [← Real.sqrt_sq hX]; exact Real.sqrt_le_sqrt i6
  have hw0 := Real.sqrt_nonneg w
  rw [abs_of_nonneg (Real.sqrt_nonneg _)] at r
  have hv : √v.toReal ≤ X + 3 * √(D / (1 - g)) := by
    have := (abs_le.mp hs).2
    linarith
  have hq := Real.sqrt_nonneg (D / (1 - g))
  have r1 : f.u * √v.toReal ≤ f.u * X + 3 / 4 * √(D / (1 - g)) := by
    have a1 := mul_le_mul_of_nonneg_left hv hu.le
    have a2 : f.u * √(D / (1 - g)) ≤ 1 / 4 * √(D / (1 - g)) := mul_le_mul_of_nonneg_right hu4 hq
    linarith
  have t := abs_sub_le (rnd f √v.toReal) √v.toReal √w
  rw [← hD]
  linarith

/-- A smoother with gain 1/2 in single precision. -/
example {L : Libm binary32} {s : PeakEnvDetector (Fl L)} (ha : s.attack_gain.Gain (1 / 2)) (hr : s.release_gain.Gain (1 / 2))
    (hm : s.envelope = zero) : Tracks s s.exact 1 (13 * 2 ^ (-24 : ℤ)) := by
  have key := C74_peak (X := 1) (g := 1 / 2) (by norm_num) ha hr (by rw [hm]; exact ⟨Fl.zero_finite, by simp⟩)
    (by norm_num [binary32])
  refine key.le ?_
  simp only [Fmt.u, Fmt.tiny, binary32]
  norm_num

example {L : Libm binary32} : ∃ s : PeakEnvDetector (Fl L), s.attack_gain.Gain (1 / 2) ∧ s.release_gain.Gain (1 / 2) ∧
    s.attack_gain.toReal = 1 / 2 ∧ s.envelope = zero := by
  have h1 : (1 / 2 : ℝ) = 2 ^ (-1 : ℤ) := by norm_num
  obtain ⟨v, hv, e⟩ := Fl.exists_of_isRep L (v := 1 / 2) (by rw [h1]; exact isRep_two_zpow (by decide))
    (by unfold Fmt.lim; norm_num [binary32])
  have : v.Gain (1 / 2) := ⟨hv, by rw [e]; norm_num, e.le⟩
  exact ⟨⟨v, v, zero⟩, this, this, e, rfl⟩

end analysis

end Rasp
