import Verif.Spec.SmallBiquad
import Verif.Props.TimeShift
import Verif.Props.PassThrough
import Verif.Lemmas.WindowsFl
import Verif.Lemmas.RoundErr

/-! # C117: the small filters as biquads, in floating point -/

namespace Rasp
open FloatOps Fl
variable {f : Fmt} {L : Libm f} {b : Build}

namespace Fl.Same
variable {x y z w : Fl L}

theorem add_zero (x : Fl L) (hz : z.Same zero) : (x +. z).Same x := by
  obtain ⟨h1, h2⟩ := zero_iff.mp hz
  by_cases hx : x.Finite
  · obtain ⟨k1, k2⟩ := add_zero_val hx h1 h2
    exact .inr (.inr ⟨k1, hx, k2⟩)
  · rcases not_finite_cases hx with h | ⟨s, rfl⟩
    · exact .inl ⟨add_nan_left h, h⟩
    · refine .inr (.inl ⟨s, ?_, rfl⟩)
      match z, h1 with
      | FP.fin _ _ _, _ => rfl

theorem zero_add' (x : Fl L) (hz : z.Same zero) : (z +. x).Same x := by
  obtain ⟨h1, h2⟩ := zero_iff.mp hz
  by_cases hx : x.Finite
  · have h := add_val h1 hx (by rw [h2, _root_.zero_add]; exact noOvf_toReal x)
    rw [h2, _root_.zero_add, rnd_of_isRep (isRep_toReal x)] at h
    exact .inr (.inr ⟨h.1, hx, h.2⟩)
  · rcases not_finite_cases hx with h | ⟨s, rfl⟩
    · exact .inl ⟨add_nan_right h, h⟩
    · refine .inr (.inl ⟨s, ?_, rfl⟩)
      match z, h1 with
      | FP.fin _ _ _, _ => rfl

theorem neg_zero (hz : z.Same zero) : (FloatOps.neg z).Same zero := by
  obtain ⟨h1, h2⟩ := zero_iff.mp hz
  exact zero_iff.mpr ⟨neg_finite.mpr h1, by rw [neg_toReal, h2, _root_.neg_zero]⟩

theorem sub_zero (x : Fl L) (hz : z.Same zero) : (x -. z).Same x := add_zero x hz.neg_zero

theorem trans (h : x.Same y) (h' : y.Same z) : x.Same z := h.opposite.trans h'.symm.opposite.symm

/-- `w + (0 - v)` is `w - v`. -/
theorem add_zero_sub (w v : Fl L) (hz : z.Same zero) : (w +. (z -. v)).Same (w -. v) :=
  (rfl' w).add (zero_add' (FloatOps.neg v) hz)

/-- Zero times a finite number. -/
theorem zero_times (hx : x.Finite) : (zero *. x).Same zero := mul_zero hx (rfl' _)

end Fl.Same

private theorem zz : (zero : Fl L).Same zero := .rfl' _

/-- Agreement from a relation between states that one finite step preserves. -/
private theorem sameWhileFinite_of {σ τ : Type} [Processor σ (Fl L)] [Processor τ (Fl L)] (p : σ → Fl L → σ × Fl L)
    (q : τ → Fl L → τ × Fl L) (hp : ∀ (b : Build) (s : σ) (x : Fl L), Processor.process b s x = .ok (p s x))
    (hq : ∀ (b : Build) (t : τ) (x : Fl L), Processor.process b t x = .ok (q t x)) (R : σ → τ → Prop) {s : σ} {t : τ}
    (h0 : R s t) (out : ∀ u v x, R u v → (p u x).2.Same (q v x).2)
    (step : ∀ u v x, R u v → x.Finite → (p u x).2.Finite → R (p u x).1 (q v x).1) : SameWhileFinite s t := by
  intro b x y ⟨st, hs0, hst⟩
  have hst' : ∀ n, p (st n) (x n) = (st (n + 1), y n) := fun n => by
    have := hst n
    rw [hp] at this
    exact Except.ok.inj this
  refine exists_run (fun n v => (∀ k < n, (x k).Finite ∧ (y k).Finite) → R (st n) v)
    (fun n w => (∀ k < n, (x k).Finite ∧ (y k).Finite) → (y n).Same w) (fun _ => by rwa [hs0]) ?_
  intro n v hv
  refine ⟨_, _, hq b v _, ?_, ?_⟩
  · intro hf
    obtain ⟨f1, f2⟩ := hf n (by omega)
    have := step _ _ (x n) (hv fun k hk => hf k (by omega)) f1 (by rw [hst']; exact f2)
    rwa [hst'] at this
  · intro hf
    have := out _ _ (x n) (hv hf)
    rwa [hst'] at this

private theorem sum2 {w v z z' : Fl L} (h : w.Same v) (hz : z.Same zero) (hz' : z'.Same zero) :
    w.Same (v +. z +. z') :=
  h.trans ((Fl.Same.add_zero _ hz').trans (Fl.Same.add_zero _ hz)).symm

private theorem diff2 {w v z z' : Fl L} (h : w.Same v) (hz : z.Same zero) (hz' : z'.Same zero) :
    w.Same (v -. z -. z') :=
  h.trans ((Fl.Same.sub_zero _ hz').trans (Fl.Same.sub_zero _ hz)).symm

private theorem fin_of_same {x y : Fl L} (h : x.Same y) (hx : x.Finite) : y.Finite := by
  rcases h with ⟨h, _⟩ | ⟨s, rfl, _⟩ | ⟨_, h, _⟩
  · exact absurd hx h.not_finite
  · exact absurd hx (inf_not_finite s)
  · exact h

/-- **C117**, direct form I: each small filter is the biquad with its missing coefficients zero, in floating point, for
all coefficients. -/
theorem C117_biquad1 (L : Libm f) (b0 b1 b2 a1 a2 : Fl L) :
    SameWhileFinite (OnePole.new.setCoefficients b0 a1) (Biquad1.new.setCoefficients b0 zero zero a1 zero) ∧
    SameWhileFinite (OneZero.new.setCoefficients b0 b1) (Biquad1.new.setCoefficients b0 b1 zero zero zero) ∧
    SameWhileFinite (TwoPole.new.setCoefficients b0 a1 a2) (Biquad1.new.setCoefficients b0 zero zero a1 a2) ∧
    SameWhileFinite (TwoZero.new.setCoefficients b0 b1 b2) (Biquad1.new.setCoefficients b0 b1 b2 zero zero) := by
  have fz : (zero : Fl L).Finite := zero_finite
  refine ⟨?_, ?_, ?_, ?_⟩
  · refine sameWhileFinite_of OnePole.process Biquad1.process (fun _ _ _ => rfl) (fun _ _ _ => rfl)
      (fun u v => (u.b0 = b0 ∧ u.a1 = a1) ∧ (v.b0 = b0 ∧ v.b1 = zero ∧ v.b2 = zero ∧ v.a1 = a1 ∧ v.a2 = zero) ∧
        u.y_z1.Same v.y_z1 ∧ v.x_z1.Finite ∧ v.x_z2.Finite ∧ v.y_z2.Finite ∧ u.y_z1.Finite)
      ⟨⟨rfl, rfl⟩, ⟨rfl, rfl, rfl, rfl, rfl⟩, zz, fz, fz, fz, fz⟩ ?_ ?_
    all_goals
      rintro ⟨u1, _, _⟩ ⟨x1, x2, y1, y2, c0, c1, c2, d1, d2⟩ x ⟨⟨rfl, rfl⟩, ⟨rfl, rfl, rfl, rfl, rfl⟩, h1, h2, h3, h4, h5⟩
      simp only at h1 h2 h3 h4 h5
      have key : (OnePole.process ⟨u1, c0, d1⟩ x).2.Same
          (Biquad1.process ⟨x1, x2, y1, y2, c0, zero, zero, d1, zero⟩ x).2 := by
        simp only [OnePole.process, Biquad1.process]
        exact ((sum2 (.rfl' _) (.zero_times h2) (.zero_times h3)).sub (h1.mul_left _)).trans
          (Fl.Same.sub_zero _ (.zero_times h4)).symm
    · exact key
    · intro fx fy
      exact ⟨⟨rfl, rfl⟩, ⟨rfl, rfl, rfl, rfl, rfl⟩, key, fx, h2, fin_of_same h1 h5, fy⟩
  · refine sameWhileFinite_of OneZero.process Biquad1.process (fun _ _ _ => rfl) (fun _ _ _ => rfl)
      (fun u v => (u.b0 = b0 ∧ u.b1 = b1) ∧ (v.b0 = b0 ∧ v.b1 = b1 ∧ v.b2 = zero ∧ v.a1 = zero ∧ v.a2 = zero) ∧
        u.x_z1 = v.x_z1 ∧ v.x_z1.Finite ∧ v.x_z2.Finite ∧ v.y_z1.Finite ∧ v.y_z2.Finite)
      ⟨⟨rfl, rfl⟩, ⟨rfl, rfl, rfl, rfl, rfl⟩, rfl, fz, fz, fz, fz⟩ ?_ ?_
    all_goals
      rintro ⟨u1, o, _, _⟩ ⟨x1, x2, y1, y2, c0, c1, c2, d1, d2⟩ x ⟨⟨rfl, rfl⟩, ⟨rfl, rfl, rfl, rfl, rfl⟩, h1, h2, h3, h4, h5⟩
      simp only at h1 h2 h3 h4 h5
      subst h1
      have key : (OneZero.process ⟨u1, o, c0, c1⟩ x).2.Same
          (Biquad1.process ⟨u1, x2, y1, y2, c0, c1, zero, zero, zero⟩ x).2 := by
        simp only [OneZero.process, Biquad1.process]
        exact diff2 (Fl.Same.add_zero _ (.zero_times h3)).symm (.zero_times h4) (.zero_times h5)
    · exact key
    · intro fx fy
      exact ⟨⟨rfl, rfl⟩, ⟨rfl, rfl, rfl, rfl, rfl⟩, rfl, fx, h2, fin_of_same key fy, h4⟩
  · refine sameWhileFinite_of TwoPole.process Biquad1.process (fun _ _ _ => rfl) (fun _ _ _ => rfl)
      (fun u v => (u.b0 = b0 ∧ u.a1 = a1 ∧ u.a2 = a2) ∧
        (v.b0 = b0 ∧ v.b1 = zero ∧ v.b2 = zero ∧ v.a1 = a1 ∧ v.a2 = a2) ∧
        u.y_z1.Same v.y_z1 ∧ u.y_z2.Same v.y_z2 ∧ v.x_z1.Finite ∧ v.x_z2.Finite)
      ⟨⟨rfl, rfl, rfl⟩, ⟨rfl, rfl, rfl, rfl, rfl⟩, zz, zz, fz, fz⟩ ?_ ?_
    all_goals
      rintro ⟨u1, u2, _, _, _⟩ ⟨x1, x2, y1, y2, c0, c1, c2, d1, d2⟩ x
        ⟨⟨rfl, rfl, rfl⟩, ⟨rfl, rfl, rfl, rfl, rfl⟩, h1, h2, h3, h4⟩
      simp only at h1 h2 h3 h4
      have key : (TwoPole.process ⟨u1, u2, c0, d1, d2⟩ x).2.Same
          (Biquad1.process ⟨x1, x2, y1, y2, c0, zero, zero, d1, d2⟩ x).2 := by
        simp only [TwoPole.process, Biquad1.process]
        exact ((sum2 (.rfl' _) (.zero_times h3) (.zero_times h4)).sub (h1.mul_left _)).sub (h2.mul_left _)
    · exact key
    · intro fx fy
      exact ⟨⟨rfl, rfl, rfl⟩, ⟨rfl, rfl, rfl, rfl, rfl⟩, key, h1, fx, h3⟩
  · refine sameWhileFinite_of TwoZero.process Biquad1.process (fun _ _ _ => rfl) (fun _ _ _ => rfl)
      (fun u v => (u.b0 = b0 ∧ u.b1 = b1 ∧ u.b2 = b2) ∧
        (v.b0 = b0 ∧ v.b1 = b1 ∧ v.b2 = b2 ∧ v.a1 = zero ∧ v.a2 = zero) ∧
        u.x_z1 = v.x_z1 ∧ u.x_z2 = v.x_z2 ∧ v.y_z1.Finite ∧ v.y_z2.Finite)
      ⟨⟨rfl, rfl, rfl⟩, ⟨rfl, rfl, rfl, rfl, rfl⟩, rfl, rfl, fz, fz⟩ ?_ ?_
    all_goals
      rintro ⟨u1, u2, o, _, _, _⟩ ⟨x1, x2, y1, y2, c0, c1, c2, d1, d2⟩ x
        ⟨⟨rfl, rfl, rfl⟩, ⟨rfl, rfl, rfl, rfl, rfl⟩, h1, h2, h3, h4⟩
      simp only at h1 h2 h3 h4
      subst h1 h2
      have key : (TwoZero.process ⟨u1, u2, o, c0, c1, c2⟩ x).2.Same
          (Biquad1.process ⟨u1, u2, y1, y2, c0, c1, c2, zero, zero⟩ x).2 := by
        simp only [TwoZero.process, Biquad1.process]
        exact diff2 (.rfl' _) (.zero_times h3) (.zero_times h4)
    · exact key
    · intro fx fy
      exact ⟨⟨rfl, rfl, rfl⟩, ⟨rfl, rfl, rfl, rfl, rfl⟩, rfl, rfl, fin_of_same key fy, h3⟩

/-- **C117**, transposed direct form II: the first-order filters agree with it too, for finite coefficients. -/
theorem C117_biquad2 (L : Libm f) {b0 b1 a1 : Fl L} (hb : b1.Finite) (ha : a1.Finite) :
    SameWhileFinite (OnePole.new.setCoefficients b0 a1) (Biquad2.new.setCoefficients b0 zero zero a1 zero) ∧
    SameWhileFinite (OneZero.new.setCoefficients b0 b1) (Biquad2.new.setCoefficients b0 b1 zero zero zero) := by
  refine ⟨?_, ?_⟩
  · refine sameWhileFinite_of OnePole.process Biquad2.process (fun _ _ _ => rfl) (fun _ _ _ => rfl)
      (fun u v => (u.b0 = b0 ∧ u.a1 = a1) ∧ (v.b0 = b0 ∧ v.b1 = zero ∧ v.b2 = zero ∧ v.a1 = a1 ∧ v.a2 = zero) ∧
        (zero -. a1 *. u.y_z1).Same v.z1 ∧ v.z2.Same zero)
      ⟨⟨rfl, rfl⟩, ⟨rfl, rfl, rfl, rfl, rfl⟩, zz.zero_sub (zz.zero_mul ha), zz⟩ ?_ ?_
    all_goals
      rintro ⟨u1, _, _⟩ ⟨z1, z2, o, c0, c1, c2, d1, d2⟩ x ⟨⟨rfl, rfl⟩, ⟨rfl, rfl, rfl, rfl, rfl⟩, h1, h2⟩
      simp only at h1 h2
      have key : (OnePole.process ⟨u1, c0, d1⟩ x).2.Same
          (Biquad2.process ⟨z1, z2, o, c0, zero, zero, d1, zero⟩ x).2 := by
        simp only [OnePole.process, Biquad2.process]
        exact (Fl.Same.add_zero_sub _ _ zz).symm.trans ((Fl.Same.rfl' _).add h1)
    · exact key
    · intro fx fy
      have fy' := fin_of_same key fy
      refine ⟨⟨rfl, rfl⟩, ⟨rfl, rfl, rfl, rfl, rfl⟩, ?_, ?_⟩
      · exact (((Fl.Same.zero_times fx).zero_add h2).symm).sub (key.mul_left _)
      · exact (Fl.Same.zero_times fx).zero_sub (.zero_times fy')
  · refine sameWhileFinite_of OneZero.process Biquad2.process (fun _ _ _ => rfl) (fun _ _ _ => rfl)
      (fun u v => (u.b0 = b0 ∧ u.b1 = b1) ∧ (v.b0 = b0 ∧ v.b1 = b1 ∧ v.b2 = zero ∧ v.a1 = zero ∧ v.a2 = zero) ∧
        (b1 *. u.x_z1).Same v.z1 ∧ v.z2.Same zero)
      ⟨⟨rfl, rfl⟩, ⟨rfl, rfl, rfl, rfl, rfl⟩, zz.zero_mul hb, zz⟩ ?_ ?_
    all_goals
      rintro ⟨u1, o', _, _⟩ ⟨z1, z2, o, c0, c1, c2, d1, d2⟩ x ⟨⟨rfl, rfl⟩, ⟨rfl, rfl, rfl, rfl, rfl⟩, h1, h2⟩
      simp only at h1 h2
      have key : (OneZero.process ⟨u1, o', c0, c1⟩ x).2.Same
          (Biquad2.process ⟨z1, z2, o, c0, c1, zero, zero, zero⟩ x).2 := by
        simp only [OneZero.process, Biquad2.process]
        exact (Fl.Same.rfl' _).add h1
    · exact key
    · intro fx fy
      have fy' := fin_of_same key fy
      refine ⟨⟨rfl, rfl⟩, ⟨rfl, rfl, rfl, rfl, rfl⟩, ?_, ?_⟩
      · exact ((Fl.Same.sub_zero _ (.zero_times fy')).trans (Fl.Same.add_zero _ h2)).symm
      · exact (Fl.Same.zero_times fx).zero_sub (.zero_times fy')

/-! ## The second-order filters differ from the transposed form -/

private def Val (v : Fl L) (r : ℝ) : Prop := v.Finite ∧ v.toReal = r

private theorem Val.add {v w : Fl L} {r s t q : ℝ} (hv : Val v r) (hw : Val w s) (hq : r + s = q)
    (ho : |q| ≤ 2 ^ f.emax) (ht : rnd f q = t) : Val (v +. w) t := by
  subst hq
  obtain ⟨h1, rfl⟩ := hv; obtain ⟨h2, rfl⟩ := hw
  obtain ⟨k1, k2⟩ := add_val h1 h2 (noOvf_of_le_emax ho)
  exact ⟨k1, k2.trans ht⟩

private theorem Val.sub {v w : Fl L} {r s t q : ℝ} (hv : Val v r) (hw : Val w s) (hq : r - s = q)
    (ho : |q| ≤ 2 ^ f.emax) (ht : rnd f q = t) : Val (v -. w) t := by
  subst hq
  obtain ⟨h1, rfl⟩ := hv; obtain ⟨h2, rfl⟩ := hw
  obtain ⟨k1, k2⟩ := sub_val h1 h2 (noOvf_of_le_emax ho)
  exact ⟨k1, k2.trans ht⟩

private theorem Val.one_mul {v : Fl L} {r : ℝ} (hv : Val v r) : Val (one *. v) r := by
  obtain ⟨h1, rfl⟩ := hv; exact one_mul_val h1

private theorem Val.zero_mul {v : Fl L} {r : ℝ} (hv : Val v r) : Val (zero *. v) 0 := by
  obtain ⟨h1, rfl⟩ := hv; exact zero_mul_val h1

private theorem Val.neg_one_mul {v : Fl L} {r : ℝ} (hv : Val v r) : Val (FloatOps.neg one *. v) (-r) := by
  obtain ⟨h1, rfl⟩ := hv
  have h : (FloatOps.neg one : Fl L).Finite := neg_finite.mpr one_finite
  have e : (FloatOps.neg one : Fl L).toReal * v.toReal = (FloatOps.neg v).toReal := by simp
  obtain ⟨k1, k2⟩ := mul_val h h1 (by rw [e]; exact noOvf_toReal _)
  exact ⟨k1, by rw [k2, e, rnd_of_isRep (isRep_toReal _)]; simp⟩

private theorem val_zero : Val (zero : Fl L) 0 := ⟨zero_finite, zero_toReal⟩
private theorem val_one : Val (one : Fl L) 1 := ⟨one_finite, one_toReal⟩

private theorem three_steps {σ : Type} [Processor σ (Fl L)] {s : σ} {x y : ℕ → Fl L} (p : σ → Fl L → σ × Fl L)
    (hp : ∀ (b : Build) (s : σ) (x : Fl L), Processor.process b s x = .ok (p s x)) (h : Responds b s x y) :
    y 2 = (p (p (p s (x 0)).1 (x 1)).1 (x 2)).2 := by
  obtain ⟨st, h0, hs⟩ := h
  have h' : ∀ n, p (st n) (x n) = (st (n + 1), y n) := fun n => by
    have := hs n; rw [hp] at this; exact Except.ok.inj this
  have e0 := h' 0; have e1 := h' 1; have e2 := h' 2
  rw [h0] at e0
  rw [e0, e1, e2]

/-- **C117**, refuted for the second-order filters and the transposed form: on the inputs `-2^(p+1), 2^(p+1), 1`, `TwoZero`
with all coefficients one answers 0 at the third sample, `Biquad2` with the same coefficients 1; on
`2^(p+1), 0, 1`, `TwoPole` with `b0 = 1, a1 = -1, a2 = 1` answers 0, `Biquad2` 1. -/
theorem C117_false_second_order (L : Libm f) (hf : (f.p : ℤ) + 1 < f.emax) :
    (∃ x : ℕ → Fl L, (∀ n, (x n).Finite) ∧ ∀ y y' : ℕ → Fl L,
      Responds b (TwoZero.new.setCoefficients one one one : TwoZero (Fl L)) x y →
      Responds b (Biquad2.new.setCoefficients one one one zero zero : Biquad2 (Fl L)) x y' →
      (y 2).toReal = 0 ∧ (y' 2).toReal = 1) ∧
    (∃ x : ℕ → Fl L, (∀ n, (x n).Finite) ∧ ∀ y y' : ℕ → Fl L,
      Responds b (TwoPole.new.setCoefficients one (FloatOps.neg one) one : TwoPole (Fl L)) x y →
      Responds b (Biquad2.new.setCoefficients one zero zero (FloatOps.neg one) one : Biquad2 (Fl L)) x y' →
      (y 2).toReal = 0 ∧ (y' 2).toReal = 1) := by
  set B : ℝ := 2 ^ ((f.p : ℤ) + 1) with hB
  have hemin := f.hemin
  have hB1 : 1 ≤ B := one_le_zpow₀ (by norm_num) (by omega)
  have hrep : IsRep f B := isRep_two_zpow (by omega)
  have hBe : 2 * B ≤ 2 ^ f.emax := by
    rw [hB, ← zpow_one_add₀ (by norm_num)]
    exact zpow_le_zpow_right₀ (by norm_num) (by omega)
  have hlim : |B| < f.lim := by
    rw [abs_of_pos (by linarith)]
    unfold Fmt.lim
    exact zpow_lt_zpow_right₀ (by norm_num) (by omega)
  obtain ⟨vB, fB⟩ := Fl.exists_of_isRep L hrep hlim
  have fB : Val vB B := fB
  have fN : Val (FloatOps.neg vB) (-B) := ⟨neg_finite.mpr fB.1, by rw [neg_toReal, fB.2]⟩
  have rB : rnd f (1 + B) = B := by
    have e1 : (2 : ℝ) ^ ((2 : ℤ) + f.p - 1) = B := by rw [hB]; congr 1; ring
    have e2 : (2 : ℝ) ^ ((2 : ℤ) + f.p) = 2 * B := by
      rw [hB, ← zpow_one_add₀ (by norm_num)]; congr 1; ring
    have hp := f.hp
    have e3 : ((2 ^ (f.p - 1) : ℤ) : ℝ) * 2 ^ (2 : ℤ) = B := by
      push_cast
      rw [← zpow_natCast, ← zpow_add₀ (by norm_num), hB]
      congr 1
      push_cast [Nat.cast_sub (show 1 ≤ f.p by omega)]; ring
    rw [rnd_eq_of (f := f) (m := 2 ^ (f.p - 1)) (e := 2) (by omega)
      (by rw [e1, abs_of_pos (by linarith)]; linarith) (by
        rw [e2, abs_of_pos (by linarith)]
        have : (2 : ℝ) ≤ B := by
          calc (2 : ℝ) = 2 ^ (1 : ℤ) := by norm_num
            _ ≤ B := zpow_le_zpow_right₀ (by norm_num) (by omega)
        linarith) (by
        have : (1 + B) / 2 ^ (2 : ℤ) - ((2 ^ (f.p - 1) : ℤ) : ℝ) = 1 / 4 := by
          rw [← e3]; norm_num; ring
        rw [this]; norm_num), e3]
  have r0 : rnd f 0 = 0 := rnd_zero f
  have r1 : rnd f 1 = 1 := by
    have := rnd_of_isRep (isRep_toReal (one : Fl L)); rwa [one_toReal] at this
  have rBB : rnd f B = B := rnd_of_isRep hrep
  have rNB : rnd f (-B) = -B := by
    have := rnd_of_isRep (isRep_toReal (FloatOps.neg vB)); rwa [fN.2] at this
  have a0 : |(0 : ℝ)| ≤ 2 ^ f.emax := by rw [_root_.abs_zero]; positivity
  have aB : |B| ≤ 2 ^ f.emax := by rw [abs_of_pos (by linarith)]; linarith
  have aN : |-B| ≤ 2 ^ f.emax := by rw [_root_.abs_neg]; exact aB
  have a1 : |(1 : ℝ)| ≤ 2 ^ f.emax := by rw [abs_one]; linarith
  have a1B : |1 + B| ≤ 2 ^ f.emax := by rw [abs_of_pos (by linarith)]; linarith
  refine ⟨⟨fun n => if n = 0 then FloatOps.neg vB else if n = 1 then vB else one, ?_, ?_⟩,
    ⟨fun n => if n = 0 then vB else if n = 1 then zero else one, ?_, ?_⟩⟩
  · intro n; dsimp only; split_ifs; exacts [fN.1, fB.1, one_finite]
  · intro y y' h h'
    rw [three_steps TwoZero.process (fun _ _ _ => rfl) h, three_steps Biquad2.process (fun _ _ _ => rfl) h']
    simp only [TwoZero.process, Biquad2.process, TwoZero.setCoefficients, TwoZero.new, Biquad2.setCoefficients,
      Biquad2.new, if_true, one_ne_zero, if_false, OfNat.ofNat_ne_zero, OfNat.ofNat_ne_one]
    have o0 := fN.one_mul.add val_zero (_root_.add_zero _) aN rNB
    have z10 := (fN.one_mul.add val_zero (_root_.add_zero _) aN rNB).sub o0.zero_mul (_root_.sub_zero _) aN rNB
    have z20 := fN.one_mul.sub o0.zero_mul (_root_.sub_zero _) aN rNB
    have o1 := fB.one_mul.add z10 (add_neg_cancel _) a0 r0
    have z11 := (fB.one_mul.add z20 (add_neg_cancel _) a0 r0).sub o1.zero_mul (_root_.sub_zero _) a0 r0
    exact ⟨((val_one.one_mul.add fB.one_mul rfl a1B rB).add fN.one_mul (add_neg_cancel _) a0 r0).2,
      (val_one.one_mul.add z11 (_root_.add_zero _) a1 r1).2⟩
  · intro n; dsimp only; split_ifs; exacts [fB.1, zero_finite, one_finite]
  · intro y y' h h'
    rw [three_steps TwoPole.process (fun _ _ _ => rfl) h, three_steps Biquad2.process (fun _ _ _ => rfl) h']
    simp only [TwoPole.process, Biquad2.process, TwoPole.setCoefficients, TwoPole.new, Biquad2.setCoefficients,
      Biquad2.new, if_true, one_ne_zero, if_false, OfNat.ofNat_ne_zero, OfNat.ofNat_ne_one]
    have y0 := (fB.one_mul.sub val_zero.neg_one_mul (q := B) (by ring) aB rBB).sub val_zero.one_mul
      (_root_.sub_zero _) aB rBB
    have y1 := ((val_zero (L := L)).one_mul.sub y0.neg_one_mul (q := B) (by ring) aB rBB).sub val_zero.one_mul
      (_root_.sub_zero _) aB rBB
    have o0 := fB.one_mul.add val_zero (_root_.add_zero _) aB rBB
    have z10 := (fB.zero_mul.add val_zero (_root_.add_zero _) a0 r0).sub o0.neg_one_mul (q := B) (by ring) aB rBB
    have z20 := fB.zero_mul.sub o0.one_mul (_root_.zero_sub _) aN rNB
    have o1 := (val_zero (L := L)).one_mul.add z10 (_root_.zero_add _) aB rBB
    have z11 := ((val_zero (L := L)).zero_mul.add z20 (_root_.zero_add _) aN rNB).sub o1.neg_one_mul (q := 0) (by ring) a0 r0
    exact ⟨((val_one.one_mul.sub y1.neg_one_mul (sub_neg_eq_add _ _) a1B rB).sub y0.one_mul (sub_self _) a0 r0).2,
      (val_one.one_mul.add z11 (_root_.add_zero _) a1 r1).2⟩

/-- In f32 a `TwoZero` and a `Biquad2` with the same coefficients give 0 and 1 on the same three samples. -/
example (L : Libm binary32) : ∃ x : ℕ → Fl L, (∀ n, (x n).Finite) ∧ ∀ y y' : ℕ → Fl L,
    Responds ⟨true⟩ (TwoZero.new.setCoefficients one one one : TwoZero (Fl L)) x y →
    Responds ⟨true⟩ (Biquad2.new.setCoefficients one one one zero zero : Biquad2 (Fl L)) x y' →
    (y 2).toReal = 0 ∧ (y' 2).toReal = 1 :=
  (C117_false_second_order L (by norm_num [binary32])).1

/-- A signal that stays finite for ever: the agreement covers all samples. -/
example (L : Libm binary64) : ∃ y y' : ℕ → Fl L,
    Responds ⟨true⟩ (OnePole.new.setCoefficients one zero : OnePole (Fl L)) (fun _ => one) y ∧
    Responds ⟨true⟩ (Biquad1.new.setCoefficients one zero zero zero zero : Biquad1 (Fl L)) (fun _ => one) y' ∧
    ∀ n, (y n).Same (y' n) := by
  obtain ⟨y, hp, hy⟩ := (C29_new_filters_pass_through L).1 ⟨true⟩ (fun _ => one) (fun _ => one_finite)
  have hf : ∀ n, (y n).Finite := by
    intro n
    have := hy n
    rcases (y n).cases with ⟨s, h⟩ | ⟨s, h⟩ | h
    · rw [h] at this; exact Bool.noConfusion this
    · rw [h] at this
      have key : ∀ o : Fl L, o.Finite → Fl.eq (Fl.inf L s) o = false := by
        intro o ho
        match o, ho with
        | FP.fin _ _ _, _ => cases s <;> rfl
      rw [key _ one_finite] at this
      exact Bool.noConfusion this
    · exact h
  obtain ⟨y', h1, h2⟩ := (C117_biquad1 L one zero zero zero zero).1 ⟨true⟩ _ y hp
  exact ⟨y, y', hp, h1, fun n => h2 n fun k _ => ⟨one_finite, hf k⟩⟩

end Rasp
