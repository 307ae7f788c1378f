import Verif.Spec.TimeShift
import Verif.Props.Polarity
import Verif.Props.Delay
import Verif.Props.LinearReal
import Verif.Props.LinearInt

/-!
# C90: filters, detectors and delay lines do not care when a signal starts, also in floating point
-/

namespace Rasp
open FloatOps Fl
variable {f : Fmt} {L : Libm f} {b : Build}

theorem Fl.Opposite.symm {x y : Fl L} (h : x.Opposite y) : y.Opposite x := by
  rcases h with ⟨h1, h2⟩ | ⟨s, rfl, rfl⟩ | ⟨h1, h2, h3⟩
  · exact .inl ⟨h2, h1⟩
  · exact .inr (.inl ⟨!s, rfl, by rw [Bool.not_not]⟩)
  · exact .inr (.inr ⟨h2, h1, by rw [h3, neg_neg]⟩)

theorem Fl.Opposite.trans {x y z : Fl L} (h : x.Opposite y) (h' : y.Opposite z) : x.Same z := by
  rcases h with ⟨h1, h2⟩ | ⟨s, rfl, rfl⟩ | ⟨h1, h2, h3⟩
  · rcases h' with ⟨_, k⟩ | ⟨t, rfl, rfl⟩ | ⟨k1, _, _⟩
    · exact .inl ⟨h1, k⟩
    · exact h2.elim
    · exact absurd h2 k1.not_isNaN
  · rcases h' with ⟨k, _⟩ | ⟨t, e, rfl⟩ | ⟨k, _, _⟩
    · exact k.elim
    · refine .inr (.inl ⟨s, rfl, ?_⟩)
      have : (!s) = t := by injection e
      rw [← this, Bool.not_not]
    · exact absurd k (inf_not_finite _)
  · rcases h' with ⟨k, _⟩ | ⟨t, rfl, rfl⟩ | ⟨_, k2, k3⟩
    · exact absurd k h2.not_isNaN
    · exact absurd h2 (inf_not_finite _)
    · exact .inr (.inr ⟨h1, k2, by rw [k3, h3, neg_neg]⟩)

namespace Fl.Same

theorem rfl' (x : Fl L) : x.Same x := (Opposite.neg x).trans (Opposite.neg x).symm

theorem opposite {x y : Fl L} (h : x.Same y) : x.Opposite (FloatOps.neg y) := by
  rcases h with ⟨h1, h2⟩ | ⟨s, rfl, rfl⟩ | ⟨h1, h2, h3⟩
  · obtain ⟨s, rfl⟩ := isNaN_iff.mp h2
    exact .inl ⟨h1, trivial⟩
  · exact .inr (.inl ⟨s, rfl, rfl⟩)
  · exact .inr (.inr ⟨h1, neg_finite.mpr h2, by rw [neg_toReal, h3]⟩)

theorem symm {x y : Fl L} (h : x.Same y) : y.Same x := by
  rcases h with ⟨h1, h2⟩ | ⟨s, rfl, rfl⟩ | ⟨h1, h2, h3⟩
  · exact .inl ⟨h2, h1⟩
  · exact .inr (.inl ⟨s, rfl, rfl⟩)
  · exact .inr (.inr ⟨h2, h1, h3.symm⟩)

variable {x x' y y' : Fl L}

theorem add (hx : x.Same x') (hy : y.Same y') : (x +. y).Same (x' +. y') :=
  (hx.opposite.add hy.opposite).trans ((Opposite.neg x').symm.add (Opposite.neg y').symm)

theorem sub (hx : x.Same x') (hy : y.Same y') : (x -. y).Same (x' -. y') :=
  (hx.opposite.sub hy.opposite).trans ((Opposite.neg x').symm.sub (Opposite.neg y').symm)

theorem mul_left (c : Fl L) (hx : x.Same x') : (c *. x).Same (c *. x') :=
  (hx.opposite.mul_left c).trans ((Opposite.neg x').symm.mul_left c)

theorem mul_right (c : Fl L) (hx : x.Same x') : (x *. c).Same (x' *. c) :=
  (hx.opposite.mul_right c).trans ((Opposite.neg x').symm.mul_right c)

theorem zero_iff : x.Same zero ↔ x.Finite ∧ x.toReal = 0 := by
  constructor
  · rintro (⟨_, h⟩ | ⟨s, _, h⟩ | ⟨h1, _, h3⟩)
    · exact absurd h (zero_finite (L := L)).not_isNaN
    · exact absurd (h ▸ zero_finite (L := L)) (inf_not_finite s)
    · exact ⟨h1, by rw [h3, zero_toReal]⟩
  · rintro ⟨h1, h2⟩
    exact .inr (.inr ⟨h1, zero_finite, by rw [h2, zero_toReal]⟩)

theorem zero_mul {c : Fl L} (hc : c.Finite) (hx : x.Same zero) : (c *. x).Same zero := by
  obtain ⟨h1, h2⟩ := zero_iff.mp hx
  have h0 : c.toReal * x.toReal = 0 := by rw [h2, mul_zero]
  obtain ⟨k1, k2⟩ := mul_val hc h1 (by rw [h0, ← zero_toReal (L := L)]; exact noOvf_toReal _)
  exact zero_iff.mpr ⟨k1, by rw [k2, h0, rnd_zero]⟩

theorem mul_zero {c : Fl L} (hc : c.Finite) (hx : x.Same zero) : (x *. c).Same zero := by
  rw [Opposite.mul_comm]; exact zero_mul hc hx

theorem zero_add (hx : x.Same zero) (hy : y.Same zero) : (x +. y).Same zero := by
  obtain ⟨h1, h2⟩ := zero_iff.mp hx
  obtain ⟨k1, k2⟩ := zero_iff.mp hy
  obtain ⟨j1, j2⟩ := add_zero_val h1 k1 k2
  exact zero_iff.mpr ⟨j1, by rw [j2, h2]⟩

theorem zero_sub (hx : x.Same zero) (hy : y.Same zero) : (x -. y).Same zero := by
  obtain ⟨h1, h2⟩ := zero_iff.mp hx
  obtain ⟨k1, k2⟩ := zero_iff.mp hy
  obtain ⟨j1, j2⟩ := sub_zero_val h1 k1 k2
  exact zero_iff.mpr ⟨j1, by rw [j2, h2]⟩

theorem lt_congr (hx : x.Same x') : lt x y = lt x' y := by
  rcases hx with ⟨h1, h2⟩ | ⟨s, rfl, rfl⟩ | ⟨h1, h2, h3⟩
  · rw [lt_nan_left h1, lt_nan_left h2]
  · rfl
  · rcases y.cases with ⟨s, rfl⟩ | ⟨s, rfl⟩ | hy
    · rw [lt_nan_right (x := x) (y := Fl.nan L s) trivial, lt_nan_right (x := x') (y := Fl.nan L s) trivial]
    · match x, x', h1, h2 with
      | FP.fin _ _ _, FP.fin _ _ _, _, _ => cases s <;> rfl
    · rw [Bool.eq_iff_iff, lt_iff h1 hy, lt_iff h2 hy, h3]

theorem sqrt (hx : x.Same x') : (FloatOps.sqrt x).Same (FloatOps.sqrt x') := by
  rcases hx with ⟨h1, h2⟩ | ⟨s, rfl, rfl⟩ | ⟨h1, h2, h3⟩
  · obtain ⟨s, rfl⟩ := isNaN_iff.mp h1
    obtain ⟨t, rfl⟩ := isNaN_iff.mp h2
    exact .inl ⟨trivial, trivial⟩
  · exact rfl' _
  · by_cases h0 : 0 ≤ x.toReal
    · have k1 := sqrt_val h1 h0
      have k2 := sqrt_val h2 (h3 ▸ h0)
      exact .inr (.inr ⟨k1.1, k2.1, by rw [k1.2, k2.2, h3]⟩)
    · have : x = x' := ext_of_ne h1 h2 h3 (by intro h; exact h0 h.ge)
      rw [this]; exact rfl' _

end Fl.Same

/-! ## Runs -/

/-- A run whose states and outputs satisfy given conditions exists if every step can be made. -/
theorem exists_run {σ T : Type} [Processor σ T] {b : Build} {s : σ} {x : ℕ → T} (P : ℕ → σ → Prop) (Q : ℕ → T → Prop)
    (h0 : P 0 s) (step : ∀ n t, P n t → ∃ t' y, Processor.process b t (x n) = .ok (t', y) ∧ P (n + 1) t' ∧ Q n y) :
    ∃ y, Responds b s x y ∧ ∀ n, Q n (y n) := by
  have next : ∀ (n : ℕ) (t : {t // P n t}), ∃ t' : {t // P (n + 1) t}, ∃ y, Processor.process b t.1 (x n) = .ok (t'.1, y) ∧
      Q n y := by
    intro n ⟨t, ht⟩
    obtain ⟨t', y, h1, h2, h3⟩ := step n t ht
    exact ⟨⟨t', h2⟩, y, h1, h3⟩
  choose nx ny hn1 hn2 using next
  let tt : (n : ℕ) → {t // P n t} := fun n => Nat.rec ⟨s, h0⟩ nx n
  exact ⟨fun n => ny n (tt n), ⟨fun n => (tt n).1, rfl, fun n => hn1 n (tt n)⟩, fun n => hn2 n (tt n)⟩

/-- `R t u`: `t` will answer like `u`. Silence keeps `s` answering like `s`. -/
theorem timeInvariant_of {σ : Type} [Processor σ (Fl L)] (p : σ → Fl L → σ × Fl L)
    (hp : ∀ (b : Build) (s : σ) (x : Fl L), Processor.process b s x = .ok (p s x)) (R : σ → σ → Prop) {s : σ} (h0 : R s s)
    (hz : ∀ t, R t s → R (p t zero).1 s ∧ (p t zero).2.Same zero)
    (step : ∀ t u x, R t u → R (p t x).1 (p u x).1 ∧ (p t x).2.Same (p u x).2) : TimeInvariant b s := by
  intro k x y ⟨st, hs0, hst⟩
  refine exists_run (fun n t => R t (st (n - k))) (fun n v => v.Same (delayed k y n)) (by rwa [Nat.zero_sub, hs0]) ?_
  intro n t ht
  refine ⟨_, _, hp b t _, ?_⟩
  unfold delayed
  by_cases hn : n < k
  · rw [show n - k = 0 by omega, hs0] at ht
    rw [if_pos hn, if_pos hn, show n + 1 - k = 0 by omega, hs0]
    exact hz t ht
  · rw [if_neg hn, if_neg hn, show n + 1 - k = n - k + 1 by omega]
    have e := hst (n - k)
    rw [hp] at e
    injection e with e
    have := step t _ (x (n - k)) ht
    rwa [e] at this

theorem TimeInvariant.congr {σ τ : Type} [Processor σ (Fl L)] [Processor τ (Fl L)] {s : σ} {t : τ} (h : TimeInvariant b t)
    (hs : ∀ x y, Responds b s x y ↔ Responds b t x y) : TimeInvariant b s := by
  intro k x y hy
  obtain ⟨y', h1, h2⟩ := h k x y ((hs x y).mp hy)
  exact ⟨y', (hs _ y').mpr h1, h2⟩

/-! ## Filters -/

theorem Biquad2.timeInvariant (s : Biquad2 (Fl L)) (f0 : s.b0.Finite) (f1 : s.b1.Finite) (f2 : s.b2.Finite)
    (f3 : s.a1.Finite) (f4 : s.a2.Finite) : TimeInvariant b s.clear := by
  refine timeInvariant_of Biquad2.process (fun _ _ _ => rfl) (fun t u => t.z1.Same u.z1 ∧ t.z2.Same u.z2 ∧
    t.b0 = u.b0 ∧ t.b1 = u.b1 ∧ t.b2 = u.b2 ∧ t.a1 = u.a1 ∧ t.a2 = u.a2)
    ⟨.rfl' _, .rfl' _, rfl, rfl, rfl, rfl, rfl⟩ ?_ ?_
  · intro t ⟨h1, h2, e0, e1, e2, e3, e4⟩
    have ho : (t.b0 *. zero +. t.z1).Same zero := by rw [e0]; exact (Same.zero_mul f0 (.rfl' _)).zero_add h1
    refine ⟨⟨?_, ?_, e0, e1, e2, e3, e4⟩, ho⟩
    · simp only [Biquad2.process]; rw [e1, e3]
      exact ((Same.zero_mul f1 (.rfl' _)).zero_add h2).zero_sub (ho.zero_mul f3)
    · simp only [Biquad2.process]; rw [e2, e4]
      exact (Same.zero_mul f2 (.rfl' _)).zero_sub (ho.zero_mul f4)
  · intro t u x ⟨h1, h2, e0, e1, e2, e3, e4⟩
    have ho : (t.b0 *. x +. t.z1).Same (u.b0 *. x +. u.z1) := by rw [e0]; exact (Same.rfl' _).add h1
    refine ⟨⟨?_, ?_, e0, e1, e2, e3, e4⟩, ho⟩
    · simp only [Biquad2.process]; rw [e1, e3]
      exact ((Same.rfl' _).add h2).sub (ho.mul_left _)
    · simp only [Biquad2.process]; rw [e2, e4]
      exact (Same.rfl' _).sub (ho.mul_left _)

/-- **C90**, basic filters and LeakyIntegrator with finite coefficients: after `clear` it does not matter when a signal
(which may contain non-finite samples) starts. -/
theorem C90_filters :
    (∀ s : OnePole (Fl L), s.b0.Finite → s.a1.Finite → TimeInvariant b s.clear) ∧
    (∀ s : OneZero (Fl L), s.b0.Finite → s.b1.Finite → TimeInvariant b s.clear) ∧
    (∀ s : TwoPole (Fl L), s.b0.Finite → s.a1.Finite → s.a2.Finite → TimeInvariant b s.clear) ∧
    (∀ s : TwoZero (Fl L), s.b0.Finite → s.b1.Finite → s.b2.Finite → TimeInvariant b s.clear) ∧
    (∀ s : Biquad1 (Fl L), s.b0.Finite → s.b1.Finite → s.b2.Finite → s.a1.Finite → s.a2.Finite → TimeInvariant b s.clear) ∧
    (∀ s : Biquad2 (Fl L), s.b0.Finite → s.b1.Finite → s.b2.Finite → s.a1.Finite → s.a2.Finite → TimeInvariant b s.clear) ∧
    (∀ s : LeakyIntegrator (Fl L), s.alpha.Finite → TimeInvariant b s.clear) := by
  have z : (zero : Fl L).Same zero := .rfl' _
  refine ⟨fun s f0 f1 => ?_, fun s f0 f1 => ?_, fun s f0 f1 f2 => ?_, fun s f0 f1 f2 => ?_, fun s f0 f1 f2 f3 f4 => ?_,
    Biquad2.timeInvariant, fun s f0 => ?_⟩
  · refine timeInvariant_of OnePole.process (fun _ _ _ => rfl) (fun t u => t.y_z1.Same u.y_z1 ∧ t.b0 = u.b0 ∧ t.a1 = u.a1)
      ⟨.rfl' _, rfl, rfl⟩ ?_ ?_
    · intro t ⟨h1, e0, e1⟩
      have : (t.process zero).2.Same zero := by
        simp only [OnePole.process]; rw [e0, e1]; exact (z.zero_mul f0).zero_sub (h1.zero_mul f1)
      exact ⟨⟨this, e0, e1⟩, this⟩
    · intro t u x ⟨h1, e0, e1⟩
      have : (t.process x).2.Same (u.process x).2 := by
        simp only [OnePole.process]; rw [e0, e1]; exact (Same.rfl' _).sub (h1.mul_left _)
      exact ⟨⟨this, e0, e1⟩, this⟩
  · refine timeInvariant_of OneZero.process (fun _ _ _ => rfl) (fun t u => t.x_z1.Same u.x_z1 ∧ t.b0 = u.b0 ∧ t.b1 = u.b1)
      ⟨.rfl' _, rfl, rfl⟩ ?_ ?_
    · intro t ⟨h1, e0, e1⟩
      refine ⟨⟨z, e0, e1⟩, ?_⟩
      simp only [OneZero.process]; rw [e0, e1]; exact (z.zero_mul f0).zero_add (h1.zero_mul f1)
    · intro t u x ⟨h1, e0, e1⟩
      refine ⟨⟨.rfl' x, e0, e1⟩, ?_⟩
      simp only [OneZero.process]; rw [e0, e1]; exact (Same.rfl' _).add (h1.mul_left _)
  · refine timeInvariant_of TwoPole.process (fun _ _ _ => rfl) (fun t u => t.y_z1.Same u.y_z1 ∧ t.y_z2.Same u.y_z2 ∧
      t.b0 = u.b0 ∧ t.a1 = u.a1 ∧ t.a2 = u.a2) ⟨.rfl' _, .rfl' _, rfl, rfl, rfl⟩ ?_ ?_
    · intro t ⟨h1, h2, e0, e1, e2⟩
      have : (t.process zero).2.Same zero := by
        simp only [TwoPole.process]; rw [e0, e1, e2]
        exact ((z.zero_mul f0).zero_sub (h1.zero_mul f1)).zero_sub (h2.zero_mul f2)
      exact ⟨⟨this, h1, e0, e1, e2⟩, this⟩
    · intro t u x ⟨h1, h2, e0, e1, e2⟩
      have : (t.process x).2.Same (u.process x).2 := by
        simp only [TwoPole.process]; rw [e0, e1, e2]
        exact ((Same.rfl' _).sub (h1.mul_left _)).sub (h2.mul_left _)
      exact ⟨⟨this, h1, e0, e1, e2⟩, this⟩
  · refine timeInvariant_of TwoZero.process (fun _ _ _ => rfl) (fun t u => t.x_z1.Same u.x_z1 ∧ t.x_z2.Same u.x_z2 ∧
      t.b0 = u.b0 ∧ t.b1 = u.b1 ∧ t.b2 = u.b2) ⟨.rfl' _, .rfl' _, rfl, rfl, rfl⟩ ?_ ?_
    · intro t ⟨h1, h2, e0, e1, e2⟩
      refine ⟨⟨z, h1, e0, e1, e2⟩, ?_⟩
      simp only [TwoZero.process]; rw [e0, e1, e2]
      exact ((z.zero_mul f0).zero_add (h1.zero_mul f1)).zero_add (h2.zero_mul f2)
    · intro t u x ⟨h1, h2, e0, e1, e2⟩
      refine ⟨⟨.rfl' x, h1, e0, e1, e2⟩, ?_⟩
      simp only [TwoZero.process]; rw [e0, e1, e2]
      exact ((Same.rfl' _).add (h1.mul_left _)).add (h2.mul_left _)
  · refine timeInvariant_of Biquad1.process (fun _ _ _ => rfl) (fun t u => t.x_z1.Same u.x_z1 ∧ t.x_z2.Same u.x_z2 ∧
      t.y_z1.Same u.y_z1 ∧ t.y_z2.Same u.y_z2 ∧ t.b0 = u.b0 ∧ t.b1 = u.b1 ∧ t.b2 = u.b2 ∧ t.a1 = u.a1 ∧ t.a2 = u.a2)
      ⟨.rfl' _, .rfl' _, .rfl' _, .rfl' _, rfl, rfl, rfl, rfl, rfl⟩ ?_ ?_
    · intro t ⟨h1, h2, h3, h4, e0, e1, e2, e3, e4⟩
      have : (t.process zero).2.Same zero := by
        simp only [Biquad1.process]; rw [e0, e1, e2, e3, e4]
        exact ((((z.zero_mul f0).zero_add (h1.zero_mul f1)).zero_add (h2.zero_mul f2)).zero_sub (h3.zero_mul f3)).zero_sub
          (h4.zero_mul f4)
      exact ⟨⟨z, h1, this, h3, e0, e1, e2, e3, e4⟩, this⟩
    · intro t u x ⟨h1, h2, h3, h4, e0, e1, e2, e3, e4⟩
      have : (t.process x).2.Same (u.process x).2 := by
        simp only [Biquad1.process]; rw [e0, e1, e2, e3, e4]
        exact ((((Same.rfl' _).add (h1.mul_left _)).add (h2.mul_left _)).sub (h3.mul_left _)).sub (h4.mul_left _)
      exact ⟨⟨.rfl' x, h1, this, h3, e0, e1, e2, e3, e4⟩, this⟩
  · refine timeInvariant_of LeakyIntegrator.process (fun _ _ _ => rfl) (fun t u => t.y_z1.Same u.y_z1 ∧ t.alpha = u.alpha)
      ⟨.rfl' _, rfl⟩ ?_ ?_
    · intro t ⟨h1, e0⟩
      have : (t.process zero).2.Same zero := by
        simp only [LeakyIntegrator.process]; rw [e0]; exact z.zero_add ((h1.zero_sub z).zero_mul f0)
      exact ⟨⟨this, e0⟩, this⟩
    · intro t u x ⟨h1, e0⟩
      have : (t.process x).2.Same (u.process x).2 := by
        simp only [LeakyIntegrator.process]; rw [e0]; exact (Same.rfl' _).add ((h1.sub (.rfl' _)).mul_left _)
      exact ⟨⟨this, e0⟩, this⟩

/-- The coefficients of the biquad inside an rbj filter are finite. -/
def Biquad2.FiniteCoeffs (s : Biquad2 (Fl L)) : Prop := s.b0.Finite ∧ s.b1.Finite ∧ s.b2.Finite ∧ s.a1.Finite ∧ s.a2.Finite

theorem Biquad2.FiniteCoeffs.inv {s : Biquad2 (Fl L)} (h : s.FiniteCoeffs) : TimeInvariant b s.clear :=
  s.timeInvariant h.1 h.2.1 h.2.2.1 h.2.2.2.1 h.2.2.2.2

/-- **C90**, rbj filters with finite coefficients, after `clear`. -/
theorem C90_rbj :
    (∀ s : LowPass (Fl L), s.biquad.FiniteCoeffs → TimeInvariant b s.clear) ∧
    (∀ s : HighPass (Fl L), s.biquad.FiniteCoeffs → TimeInvariant b s.clear) ∧
    (∀ s : BandPass1 (Fl L), s.biquad.FiniteCoeffs → TimeInvariant b s.clear) ∧
    (∀ s : BandPass2 (Fl L), s.biquad.FiniteCoeffs → TimeInvariant b s.clear) ∧
    (∀ s : BandStop (Fl L), s.biquad.FiniteCoeffs → TimeInvariant b s.clear) ∧
    (∀ s : AllPass (Fl L), s.biquad.FiniteCoeffs → TimeInvariant b s.clear) ∧
    (∀ s : Peak (Fl L), s.biquad.FiniteCoeffs → TimeInvariant b s.clear) ∧
    (∀ s : LowShelf (Fl L), s.biquad.FiniteCoeffs → TimeInvariant b s.clear) ∧
    (∀ s : HighShelf (Fl L), s.biquad.FiniteCoeffs → TimeInvariant b s.clear) :=
  ⟨fun _ h => h.inv.congr fun _ _ => LowPass.responds_iff _, fun _ h => h.inv.congr fun _ _ => HighPass.responds_iff _,
    fun _ h => h.inv.congr fun _ _ => BandPass1.responds_iff _, fun _ h => h.inv.congr fun _ _ => BandPass2.responds_iff _,
    fun _ h => h.inv.congr fun _ _ => BandStop.responds_iff _, fun _ h => h.inv.congr fun _ _ => AllPass.responds_iff _,
    fun _ h => h.inv.congr fun _ _ => Peak.responds_iff _, fun _ h => h.inv.congr fun _ _ => LowShelf.responds_iff _,
    fun _ h => h.inv.congr fun _ _ => HighShelf.responds_iff _⟩

/-- New filters have finite coefficients. -/
example : (Biquad2.new : Biquad2 (Fl L)).FiniteCoeffs ∧ (OnePole.new : OnePole (Fl L)).b0.Finite :=
  ⟨⟨one_finite, zero_finite, zero_finite, zero_finite, zero_finite⟩, one_finite⟩

/-! ## Detectors -/

theorem detect_same {a r e e' i : Fl L} (h : e.Same e') :
    (i +. (if lt e i then a else r) *. (e -. i)).Same (i +. (if lt e' i then a else r) *. (e' -. i)) := by
  rw [h.lt_congr]
  exact (Same.rfl' _).add ((h.sub (.rfl' _)).mul_left _)

theorem detect_zero {a r e i : Fl L} (ha : a.Finite) (hr : r.Finite) (h : e.Same zero) (hi : i.Same zero) :
    (i +. (if lt e i then a else r) *. (e -. i)).Same zero := by
  refine hi.zero_add ((h.zero_sub hi).zero_mul ?_)
  split <;> assumption

/-- **C90**, detectors with finite gains, after `clear`. -/
theorem C90_detectors :
    (∀ s : PeakEnvDetector (Fl L), s.attack_gain.Finite → s.release_gain.Finite → TimeInvariant b s.clear) ∧
    (∀ s : RmsEnvDetector (Fl L), s.attack_gain.Finite → s.release_gain.Finite → TimeInvariant b s.clear) := by
  have z : (zero : Fl L).Same zero := .rfl' _
  refine ⟨fun s f0 f1 => ?_, fun s f0 f1 => ?_⟩
  · refine timeInvariant_of PeakEnvDetector.process (fun _ _ _ => rfl) (fun t u => t.envelope.Same u.envelope ∧
      t.attack_gain = u.attack_gain ∧ t.release_gain = u.release_gain) ⟨.rfl' _, rfl, rfl⟩ ?_ ?_
    · intro t ⟨h1, e0, e1⟩
      have : (t.process zero).2.Same zero := by
        simp only [PeakEnvDetector.process]; rw [e0, e1]
        exact detect_zero f0 f1 h1 (Same.zero_iff.mpr ⟨abs_finite.mpr zero_finite, by simp⟩)
      exact ⟨⟨this, e0, e1⟩, this⟩
    · intro t u x ⟨h1, e0, e1⟩
      have : (t.process x).2.Same (u.process x).2 := by
        simp only [PeakEnvDetector.process]; rw [e0, e1]; exact detect_same h1
      exact ⟨⟨this, e0, e1⟩, this⟩
  · refine timeInvariant_of RmsEnvDetector.process (fun _ _ _ => rfl) (fun t u => t.envelope.Same u.envelope ∧
      t.attack_gain = u.attack_gain ∧ t.release_gain = u.release_gain) ⟨.rfl' _, rfl, rfl⟩ ?_ ?_
    · intro t ⟨h1, e0, e1⟩
      have : (t.process zero).1.envelope.Same zero := by
        simp only [RmsEnvDetector.process]; rw [e0, e1]
        exact detect_zero f0 f1 h1 (z.zero_mul zero_finite)
      refine ⟨⟨this, e0, e1⟩, ?_⟩
      have h2 := this.sqrt
      obtain ⟨k1, k2⟩ := sqrt_val (x := (zero : Fl L)) zero_finite (by simp)
      rw [zero_toReal, Real.sqrt_zero, rnd_zero] at k2
      rcases h2 with ⟨_, h⟩ | ⟨q, _, h⟩ | ⟨j1, _, j3⟩
      · exact absurd h k1.not_isNaN
      · exact absurd (h ▸ k1) (inf_not_finite q)
      · exact Same.zero_iff.mpr ⟨j1, j3.trans k2⟩
    · intro t u x ⟨h1, e0, e1⟩
      have : (t.process x).1.envelope.Same (u.process x).1.envelope := by
        simp only [RmsEnvDetector.process]; rw [e0, e1]; exact detect_same h1
      exact ⟨⟨this, e0, e1⟩, this.sqrt⟩

/-! ## Delay lines -/

section lines
variable {T : Type} [FloatOps T]

theorem histOf_clear (v : List T) (w : ℕ) :
    histOf (v.map fun _ => (zero : T)) w = List.replicate v.length zero := by
  rw [List.map_const', histOf_replicate]

theorem past_delayed (k : ℕ) (x : ℕ → T) (n e : ℕ) :
    past (delayed k x) (n + 1) e = if n < k then zero else past x (n - k + 1) e := by
  unfold past delayed
  split_ifs <;> first | rfl | omega | (congr 1; omega)

/-- **C90**, Delay, for every sample type: after `clear` in any reachable state, bit for bit. -/
theorem C90_delay [Target] {s : Delay T} (hs : Delay.Reachable b s) (k : ℕ) {x y : ℕ → T} (h : Responds b s.clear x y) :
    Responds b s.clear (delayed k x) (delayed k y) := by
  obtain ⟨hi, -⟩ := hs.inv
  have hi' : s.clear.Inv := ⟨by simpa [Delay.clear] using hi.hw, by simpa [Delay.clear] using hi.hr,
    by simpa [Delay.clear] using hi.cap⟩
  obtain ⟨e, he⟩ : ∃ e, s.clear.Eff e := by
    have h1 := hi'.hw
    have h2 := hi'.hr
    by_cases hc : s.clear.read_ptr ≤ s.clear.write_ptr
    · exact ⟨s.clear.write_ptr - s.clear.read_ptr, by omega, by rw [if_pos (by omega)]; omega⟩
    · exact ⟨s.clear.memory.length + s.clear.write_ptr - s.clear.read_ptr, by omega, by rw [if_neg (by omega)]; omega⟩
  have hr : ∀ x, Responds b s.clear x fun n => past x (n + 1) e := by
    intro x
    have := Delay.responds (b := b) hi' he x
    have e1 : s.clear.hist = List.replicate s.memory.length zero := histOf_clear _ _
    rwa [e1, delayedBy_replicate] at this
  obtain rfl := h.unique (hr x)
  convert hr (delayed k x) using 1
  funext n
  rw [past_delayed]
  rfl

variable {D : Type} [FloatOps D] [DelayTime D T]

/-- **C90**, LinearDelay, for every sample type: after `clear` in any reachable state without pending announcement the output
comes later, bit for bit; before it comes the interpolation of two zeros. -/
theorem C90_linearDelay [Target] {s : LinearDelay D T} (hs : LinearDelay.Reachable b s) (hd : s.do_next_out = true) (k : ℕ)
    {x y : ℕ → T} (h : Responds b s.clear x y) :
    ∃ y', Responds b s.clear (delayed k x) y' ∧ (∀ n, y' (n + k) = y n) ∧
      ∀ n < k, y' n = zero *. s.om_alpha +. zero *. s.alpha := by
  have hi := hs.winv
  have hi' : s.clear.WInv := ⟨by simpa [LinearDelay.clear] using hi.hw, by simpa [LinearDelay.clear] using hi.cap⟩
  have hrd : s.clear.read_ptr < s.clear.memory.length := by
    obtain ⟨st, h0, hst⟩ := h
    have h1 := hst 0
    rw [h0] at h1
    simp only [Processor.process, LinearDelay.process, Res.bind_ok] at h1
    obtain ⟨m, hm, w, hw, wp, hwp, ⟨s1, o⟩, ho, -⟩ := h1
    have hdc : s.clear.do_next_out = true := hd
    simp only [LinearDelay.nextOut, hdc, if_true, Res.bind_ok] at ho
    obtain ⟨m0, hm0, -⟩ := ho
    unfold idx at hm0
    unfold idxSet at hm
    split at hm0
    · rename_i z hz
      have h3 := (List.getElem?_eq_some_iff.mp hz).1
      split at hm
      · injection hm with hm
        rw [← hm, List.length_set] at h3
        exact h3
      · exact absurd hm (by simp)
    · exact absurd hm0 (by simp)
  obtain ⟨e, he⟩ := LinearDelay.eff_of_lt hi'.hw hrd
  have hr := fun x => LinearDelay.responds (b := b) hi' he hd x
  have e1 : s.clear.hist = List.replicate s.memory.length zero := histOf_clear _ _
  simp only [e1, delayedBy_replicate] at hr
  obtain rfl := h.unique (hr x)
  refine ⟨_, hr (delayed k x), fun n => ?_, fun n hn => ?_⟩
  · simp only [past_delayed, if_neg (show ¬ n + k < k by omega), Nat.add_sub_cancel]
  · simp only [past_delayed, if_pos hn]
    rfl

end lines

/-- **C90**, LinearDelay in floating point: with finite weights, after `clear` without pending announcement. -/
theorem C90_linearDelay_ieee [Target] {D : Type} [FloatOps D] [DelayTime D (Fl L)] {s : LinearDelay D (Fl L)}
    (hs : LinearDelay.Reachable b s) (hd : s.do_next_out = true) (h1 : s.alpha.Finite) (h2 : s.om_alpha.Finite) :
    TimeInvariant b s.clear := by
  intro k x y h
  obtain ⟨y', k1, k2, k3⟩ := C90_linearDelay hs hd k h
  refine ⟨y', k1, fun n => ?_⟩
  unfold delayed
  split
  · rename_i hn
    rw [k3 n hn]
    have z : (zero : Fl L).Same zero := .rfl' _
    exact (z.mul_zero h2).zero_add (z.mul_zero h1)
  · rename_i hn
    have := k2 (n - k)
    rw [Nat.sub_add_cancel (by omega)] at this
    rw [this]; exact .rfl' _

/-- `set_delay` with an integer gives such a state. -/
example [Target] {L32 : Libm binary32} {s : LinearDelay (Fl L32) (Fl L)} (hs : LinearDelay.Reachable b s)
    (hl : s.memory.length ≤ 2 ^ 24) (hd : s.do_next_out = true) :
    ∃ s', s.setDelay b (ofUsize 0) = .ok s' ∧ TimeInvariant b s'.clear := by
  obtain ⟨s', h1, -, h2, -, h3, -⟩ := setDelay_int (b := b) hs.winv hl (k := 0) (by have := hs.winv.hw; omega)
  exact ⟨s', h1, C90_linearDelay_ieee (.step (op := .setDelay (ofUsize 0)) (o := .unit) hs trivial (by
    simp only [LinearDelay.step, h1]; rfl)) ((LinearDelay.setDelay_frame h1).2.2.2.1.trans hd) h2 h3⟩

/-! ## Limits -/

theorem one_sign : FP.signBit (f := f) (one : Fl L) = false := FP.signBit_ofReal_pos one_pos
theorem zero_sign : FP.signBit (f := f) (zero : Fl L) = false := FP.signBit_ofReal_zero false

/-- **C90.** The sign of a zero can differ: a cleared inverting filter answers silence with `-0`. -/
theorem C90_sign_of_zero (L : Libm f) : ∃ s : OnePole (Fl L), s.b0.Finite ∧ s.a1.Finite ∧
    isSignNegative (zero : Fl L) = false ∧ isSignNegative (s.clear.process zero).2 = true := by
  refine ⟨{ y_z1 := zero, b0 := neg one, a1 := zero }, neg_finite.mpr one_finite, zero_finite, zero_sign, ?_⟩
  have m1 : (neg one *. zero : Fl L) = FP.ofReal f true 0 := by
    have := FP.mul_fin (f := f) (x := (neg one : Fl L)) (y := (zero : Fl L)) (neg_finite.mpr one_finite) zero_finite
    have e : FP.toReal (f := f) (zero : Fl L) = 0 := zero_toReal
    have e2 : FP.signBit (f := f) (neg one : Fl L) = true := by
      exact (FP.signBit_neg (f := f) (one : Fl L)).trans (by rw [one_sign]; rfl)
    rw [e, mul_zero, zero_sign, e2] at this
    exact this
  have m2 : (zero *. zero : Fl L) = FP.ofReal f false 0 := by
    have := FP.mul_fin (f := f) (x := (zero : Fl L)) (y := (zero : Fl L)) zero_finite zero_finite
    have e : FP.toReal (f := f) (zero : Fl L) = 0 := zero_toReal
    rw [e, mul_zero, zero_sign] at this
    exact this
  have s1 := FP.sub_fin (f := f) (FP.ofReal_zero true).1 (FP.ofReal_zero false).1
  rw [(FP.ofReal_zero true).2, (FP.ofReal_zero false).2, sub_zero, FP.signBit_ofReal_zero, FP.signBit_ofReal_zero] at s1
  have e3 : (neg one *. zero -. zero *. zero : Fl L) = FP.ofReal f true 0 := by rw [m1, m2]; exact s1
  show isSignNegative (neg one *. zero -. zero *. zero : Fl L) = true
  rw [e3]
  exact FP.signBit_ofReal_zero true

/-- **C90.** Finite coefficients are needed: an infinite one turns silence into NaN. -/
theorem C90_needs_finite (L : Libm f) (b : Build) : ∃ s : OnePole (Fl L), ¬ TimeInvariant b s.clear := by
  refine ⟨{ y_z1 := zero, b0 := inf L false, a1 := zero }, fun h => ?_⟩
  obtain ⟨y, hy⟩ := NeverPanics.responds (σ := OnePole (Fl L)) (fun _ _ _ => ⟨_, _, rfl⟩) b
    (OnePole.clear { y_z1 := zero, b0 := inf L false, a1 := zero }) fun _ => one
  obtain ⟨y', ⟨st, h0, hst⟩, hy'⟩ := h 1 _ y hy
  have h1 := hst 0
  rw [h0] at h1
  have h2 := (Prod.mk.inj (Except.ok.inj h1)).2
  have h3 : (y' 0).IsNaN := by
    rw [← h2]
    refine sub_nan_left ?_
    show (inf L false *. (delayed 1 (fun _ => one) 0 : Fl L)).IsNaN
    rw [Opposite.mul_comm]
    exact zero_mul_not_finite (inf_not_finite _)
  have h4 : (y' 0).Same zero := hy' 0
  exact (Same.zero_iff.mp h4).1.not_isNaN h3

end Rasp
