import Verif.Spec.Mirror
import Verif.Spec.Shape
import Verif.Props.TimeShift
import Verif.Props.Delay

/-!
# C114: high-pass filters are low-pass filters seen in the mirror
-/

namespace Rasp
open FloatOps Fl

/-! ## Exact arithmetic -/

section Exact

theorem mirror_mirror (x : ℕ → ℝ) : mirror (mirror x) = x := by
  funext n
  unfold mirror
  rw [← mul_assoc, ← mul_pow]; norm_num

theorem lag_one_mirror (x : ℕ → ℝ) (n : ℕ) : lag (mirror x) 1 n = -(-1) ^ n * lag x 1 n := by
  unfold lag mirror
  cases n with
  | zero => simp [real_zero]
  | succ n => simp [pow_succ]

theorem lag_two_mirror (x : ℕ → ℝ) (n : ℕ) : lag (mirror x) 2 n = (-1) ^ n * lag x 2 n := by
  unfold lag mirror
  rcases n with _ | _ | n
  · simp [real_zero]
  · simp [real_zero]
  · simp [pow_succ]

theorem solvesDiff_mirror {b0 b1 b2 a1 a2 : ℝ} {x y : ℕ → ℝ} :
    SolvesDiff b0 b1 b2 a1 a2 x y ↔ SolvesDiff b0 (-b1) b2 (-a1) a2 (mirror x) (mirror y) := by
  unfold SolvesDiff
  refine forall_congr' fun n => ?_
  rw [lag_one_mirror, lag_two_mirror, lag_one_mirror, lag_two_mirror]
  unfold mirror
  rcases neg_one_pow_eq_or ℝ n with h | h <;> rw [h] <;> constructor <;> intro e <;> linarith

variable {σ τ : Type} [Processor σ ℝ] [Processor τ ℝ] {s : σ} {t : τ}

theorem IsMirror.of_implements {b0 b1 b2 a1 a2 b1' a1' : ℝ} (hs : Implements s b0 b1 b2 a1 a2) (ht : Implements t b0 b1' b2 a1' a2)
    (h1 : b1' = -b1) (h2 : a1' = -a1) : IsMirror s t := by
  subst h1 h2
  intro b x y
  rw [hs, ht]
  exact solvesDiff_mirror

theorem IsMirror.symm (h : IsMirror s t) : IsMirror t s := by
  intro b x y
  rw [h, mirror_mirror, mirror_mirror]

theorem angle_mirror {sr : ℝ} (hsr : sr ≠ 0) (f : ℝ) : angle sr (sr / 2 - f) = Real.pi - angle sr f := by
  unfold angle
  field_simp

theorem alphaQ_mirror {sr : ℝ} (hsr : sr ≠ 0) (f q : ℝ) : alphaQ sr (sr / 2 - f) q = alphaQ sr f q := by
  unfold alphaQ
  rw [angle_mirror hsr, Real.sin_pi_sub]

theorem alphaS_mirror {sr : ℝ} (hsr : sr ≠ 0) (f A S : ℝ) : alphaS sr (sr / 2 - f) A S = alphaS sr f A S := by
  unfold alphaS
  rw [angle_mirror hsr, Real.sin_pi_sub]

theorem Implements.cast {b0 b1 b2 a1 a2 c0 c1 c2 d1 d2 : ℝ} (h : Implements s b0 b1 b2 a1 a2) (e0 : b0 = c0) (e1 : b1 = c1) (e2 : b2 = c2)
    (e3 : a1 = d1) (e4 : a2 = d2) : Implements s c0 c1 c2 d1 d2 := by
  subst e0 e1 e2 e3 e4; exact h

/-- **C114**, rbj filters: with `sr/2 - f` in place of `f`, HighPass is the mirror image of LowPass and HighShelf that of
LowShelf; the other five types are mirror images of themselves. For all parameters, valid or not. -/
theorem C114_rbj {sr : ℝ} (hsr : sr ≠ 0) (f q db S : ℝ) :
    (∀ (s : LowPass ℝ) (t : HighPass ℝ), IsMirror (s.setCoefficients sr f q) (t.setCoefficients sr (sr / 2 - f) q)) ∧
    (∀ s t : BandPass1 ℝ, IsMirror (s.setCoefficients sr f q) (t.setCoefficients sr (sr / 2 - f) q)) ∧
    (∀ s t : BandPass2 ℝ, IsMirror (s.setCoefficients sr f q) (t.setCoefficients sr (sr / 2 - f) q)) ∧
    (∀ s t : BandStop ℝ, IsMirror (s.setCoefficients sr f q) (t.setCoefficients sr (sr / 2 - f) q)) ∧
    (∀ s t : AllPass ℝ, IsMirror (s.setCoefficients sr f q) (t.setCoefficients sr (sr / 2 - f) q)) ∧
    (∀ s t : Peak ℝ, IsMirror (s.setCoefficients sr f db q) (t.setCoefficients sr (sr / 2 - f) db q)) ∧
    (∀ (s : LowShelf ℝ) (t : HighShelf ℝ), IsMirror (s.setCoefficients sr f db S) (t.setCoefficients sr (sr / 2 - f) db S)) := by
  have hc : Real.cos (angle sr (sr / 2 - f)) = -Real.cos (angle sr f) := by rw [angle_mirror hsr, Real.cos_pi_sub]
  refine ⟨fun s t => ?_, fun s t => ?_, fun s t => ?_, fun s t => ?_, fun s t => ?_, fun s t => ?_, fun s t => ?_⟩
  · refine IsMirror.of_implements (LowPass.implements s sr f q) ((HighPass.implements t sr (sr / 2 - f) q).cast ?_ rfl ?_ rfl ?_) ?_ ?_ <;>
      rw [alphaQ_mirror hsr] <;> try (rw [hc]; ring)
  · refine IsMirror.of_implements (BandPass1.implements s sr f q) ((BandPass1.implements t sr (sr / 2 - f) q).cast ?_ rfl ?_ rfl ?_) ?_ ?_ <;>
      rw [alphaQ_mirror hsr] <;> try first | (rw [hc]; ring) | ring
  · refine IsMirror.of_implements (BandPass2.implements s sr f q) ((BandPass2.implements t sr (sr / 2 - f) q).cast ?_ rfl ?_ rfl ?_) ?_ ?_ <;>
      rw [alphaQ_mirror hsr] <;> try first | (rw [hc]; ring) | ring
  · refine IsMirror.of_implements (BandStop.implements s sr f q) ((BandStop.implements t sr (sr / 2 - f) q).cast ?_ rfl ?_ rfl ?_) ?_ ?_ <;>
      rw [alphaQ_mirror hsr] <;> try (rw [hc]; ring)
  · refine IsMirror.of_implements (AllPass.implements s sr f q) ((AllPass.implements t sr (sr / 2 - f) q).cast ?_ rfl ?_ rfl ?_) ?_ ?_ <;>
      rw [alphaQ_mirror hsr] <;> try (rw [hc]; ring)
  · refine IsMirror.of_implements (Peak.implements s sr f db q) ((Peak.implements t sr (sr / 2 - f) db q).cast ?_ rfl ?_ rfl ?_) ?_ ?_ <;>
      rw [alphaQ_mirror hsr] <;> try (rw [hc]; ring)
  · refine IsMirror.of_implements (LowShelf.implements s sr f db S) ((HighShelf.implements t sr (sr / 2 - f) db S).cast ?_ rfl ?_ rfl ?_) ?_ ?_ <;>
      rw [alphaS_mirror hsr, hc]
    all_goals
      first
      | (rw [mul_neg, sub_neg_eq_add, ← sub_eq_add_neg])
      | (rw [← neg_div]; congr 1 <;> ring)
      | (congr 1 <;> ring)

/-- **C114**, what mirror images have in common: the gain of one at `w` is that of the other at `π - w`. -/
theorem C114_gain (h : IsMirror s t) {w g : ℝ} : HasGain s w g ↔ HasGain t (Real.pi - w) g := by
  have key : ∀ {σ τ : Type} [Processor σ ℝ] [Processor τ ℝ] {s : σ} {t : τ}, IsMirror s t → ∀ {w : ℝ}, HasGain s w g → HasGain t (Real.pi - w) g := by
    intro σ τ _ _ s t h w ⟨h0, θ, hθ⟩
    refine ⟨h0, -θ, fun A φ => ?_⟩
    have cosm : ∀ (n : ℕ) (ψ : ℝ), Real.cos ((Real.pi - w) * n + ψ) = (-1) ^ n * Real.cos (w * n + -ψ) := by
      intro n ψ
      have : (Real.pi - w) * n + ψ = n * Real.pi - (w * n + -ψ) := by ring
      rw [this, Real.cos_sub, Real.sin_nat_mul_pi, Real.cos_nat_mul_pi]
      ring
    obtain ⟨ht, hc⟩ := hθ A (-φ)
    refine ⟨fun b x => ?_, fun b y hy => ?_⟩
    · obtain ⟨y, hy⟩ := ht b (mirror x)
      exact ⟨mirror y, by rw [h, mirror_mirror] at hy; exact hy⟩
    · have e : (fun n : ℕ => A * Real.cos ((Real.pi - w) * n + φ)) = mirror (fun n => A * Real.cos (w * n + -φ)) := by
        funext n
        simp only [mirror]
        rw [cosm]; ring
      rw [e] at hy
      have := hc b (mirror y) (by rw [h, mirror_mirror]; exact hy)
      rw [tendsto_zero_iff_abs_tendsto_zero] at this ⊢
      refine this.congr fun n => ?_
      simp only [Function.comp, mirror]
      rw [add_assoc, add_assoc ((Real.pi - w) * (n : ℝ)), cosm, neg_add, neg_neg]
      have : y n - g * A * ((-1) ^ n * Real.cos (w * n + (-φ + θ))) = (-1) ^ n * ((-1) ^ n * y n - g * A * Real.cos (w * n + (-φ + θ))) := by
        have : ((-1 : ℝ) ^ n) * (-1) ^ n = 1 := by rw [← mul_pow]; norm_num
        linear_combination (-(y n)) * this
      rw [this, abs_mul, abs_neg_one_pow, one_mul]
  constructor
  · exact key h
  · intro hg
    have := key h.symm hg
    rwa [sub_sub_cancel] at this

end Exact

/-! ## Floating point -/

variable {f : Fmt} {L : Libm f}

namespace Fl

theorem Same.trans_opposite {x y z : Fl L} (h : x.Same y) (k : y.Opposite z) : x.Opposite z := by
  rcases h with ⟨h1, h2⟩ | ⟨s, rfl, rfl⟩ | ⟨h1, h2, h3⟩
  · rcases k with ⟨k1, k2⟩ | ⟨t, rfl, rfl⟩ | ⟨k1, k2, k3⟩
    · exact .inl ⟨h1, k2⟩
    · cases t <;> exact h2.elim
    · obtain ⟨u, rfl⟩ := isNaN_iff.mp h2; exact k1.elim
  · exact k
  · rcases k with ⟨k1, k2⟩ | ⟨t, rfl, rfl⟩ | ⟨k1, k2, k3⟩
    · obtain ⟨u, rfl⟩ := isNaN_iff.mp k1; exact h2.elim
    · exact h2.elim
    · exact .inr (.inr ⟨h1, k2, by rw [k3, h3]⟩)

theorem neg_mul_opposite (c x : Fl L) : (c *. x).Opposite (FloatOps.neg c *. x) := (Opposite.neg c).mul_right x

/-- Agreeing if `e`, opposite otherwise. -/
def Par (e : Bool) (x y : Fl L) : Prop := if e then x.Same y else x.Opposite y

namespace Par
variable {e : Bool} {x x' y y' : Fl L}

theorem add (hx : Par e x x') (hy : Par e y y') : Par e (x +. y) (x' +. y') := by
  cases e
  · exact Opposite.add hx hy
  · exact Same.add hx hy

theorem sub (hx : Par e x x') (hy : Par e y y') : Par e (x -. y) (x' -. y') := by
  cases e
  · exact Opposite.sub hx hy
  · exact Same.sub hx hy

theorem mul (c : Fl L) (hx : Par e x x') : Par e (c *. x) (c *. x') := by
  cases e
  · exact Opposite.mul_left c hx
  · exact Same.mul_left c hx

theorem negMul (c : Fl L) (hx : Par (!e) x x') : Par e (c *. x) (FloatOps.neg c *. x') := by
  cases e
  · exact (Same.mul_left c hx).trans_opposite (neg_mul_opposite c x')
  · exact (Opposite.mul_left c hx).trans (neg_mul_opposite c x')

theorem zero (e : Bool) : Par e (FloatOps.zero : Fl L) FloatOps.zero := by
  cases e
  · exact Opposite.zero
  · exact Same.rfl' _

end Par

theorem mirrored_iff {n : ℕ} {x y : Fl L} : Mirrored n x y ↔ Par (decide (Even n)) x y := by
  unfold Mirrored Par
  by_cases h : Even n <;> simp [h]

end Fl

/-- A relation kept by every step, changing with the parity of the time, relates whole streams. -/
theorem mirrorsTo_of {σ τ : Type} [Processor σ (Fl L)] [Processor τ (Fl L)] (p : σ → Fl L → σ × Fl L) (q : τ → Fl L → τ × Fl L)
    (hp : ∀ (b : Build) (s : σ) (x : Fl L), Processor.process b s x = .ok (p s x))
    (hq : ∀ (b : Build) (s : τ) (x : Fl L), Processor.process b s x = .ok (q s x))
    (R : Bool → σ → τ → Prop) {s : σ} {t : τ} (h0 : R true s t)
    (step : ∀ (e : Bool) (s : σ) (t : τ) (x x' : Fl L), R e s t → Par e x x' → R (!e) (p s x).1 (q t x').1 ∧ Par e (p s x).2 (q t x').2) :
    MirrorsTo s t := by
  intro b x x' y hx ⟨st, hs0, hst⟩
  let tt : ℕ → τ := fun n => Nat.rec t (fun n t => (q t (x' n)).1) n
  have hst' : ∀ n, st (n + 1) = (p (st n) (x n)).1 ∧ y n = (p (st n) (x n)).2 := by
    intro n
    have := hst n
    rw [hp] at this
    injection this with this
    rw [this]; exact ⟨rfl, rfl⟩
  have hpar : ∀ n : ℕ, decide (Even (n + 1)) = !decide (Even n) := by
    intro n
    by_cases h : Even n <;> simp [h, Nat.even_add_one]
  have inv : ∀ n, R (decide (Even n)) (st n) (tt n) := by
    intro n
    induction n with
    | zero => rw [hs0]; exact h0
    | succ n ih =>
      rw [(hst' n).1, hpar]
      exact (step _ _ _ _ _ ih (mirrored_iff.mp (hx n))).1
  refine ⟨fun n => (q (tt n) (x' n)).2, ⟨tt, rfl, fun n => by rw [hq]⟩, fun n => mirrored_iff.mpr ?_⟩
  rw [(hst' n).2]
  exact (step _ _ _ _ _ (inv n) (mirrored_iff.mp (hx n))).2

/-- **C114**, basic filters in floating point: changing the sign of `b1` and `a1` gives the mirror image, sample by sample without
any rounding difference, for any coefficients and samples, non-finite ones included. -/
theorem C114_filters (b0 b1 b2 a1 a2 : Fl L) :
    (∀ s t : OnePole (Fl L), MirrorsTo (s.setCoefficients b0 a1).clear (t.setCoefficients b0 (neg a1)).clear) ∧
    (∀ s t : OneZero (Fl L), MirrorsTo (s.setCoefficients b0 b1).clear (t.setCoefficients b0 (neg b1)).clear) ∧
    (∀ s t : TwoPole (Fl L), MirrorsTo (s.setCoefficients b0 a1 a2).clear (t.setCoefficients b0 (neg a1) a2).clear) ∧
    (∀ s t : TwoZero (Fl L), MirrorsTo (s.setCoefficients b0 b1 b2).clear (t.setCoefficients b0 (neg b1) b2).clear) ∧
    (∀ s t : Biquad1 (Fl L), MirrorsTo (s.setCoefficients b0 b1 b2 a1 a2).clear (t.setCoefficients b0 (neg b1) b2 (neg a1) a2).clear) ∧
    (∀ s t : Biquad2 (Fl L), MirrorsTo (s.setCoefficients b0 b1 b2 a1 a2).clear (t.setCoefficients b0 (neg b1) b2 (neg a1) a2).clear) := by
  refine ⟨fun s t => ?_, fun s t => ?_, fun s t => ?_, fun s t => ?_, fun s t => ?_, fun s t => ?_⟩
  · refine mirrorsTo_of OnePole.process OnePole.process (fun _ _ _ => rfl) (fun _ _ _ => rfl)
      (fun e s t => Par (!e) s.y_z1 t.y_z1 ∧ t.b0 = s.b0 ∧ t.a1 = neg s.a1) ⟨.zero _, rfl, rfl⟩ ?_
    intro e s t x x' ⟨h1, e0, e1⟩ hx
    have : Par e (s.process x).2 (t.process x').2 := by
      simp only [OnePole.process]; rw [e0, e1]; exact (hx.mul _).sub (h1.negMul _)
    exact ⟨⟨by rw [Bool.not_not]; exact this, e0, e1⟩, this⟩
  · refine mirrorsTo_of OneZero.process OneZero.process (fun _ _ _ => rfl) (fun _ _ _ => rfl)
      (fun e s t => Par (!e) s.x_z1 t.x_z1 ∧ t.b0 = s.b0 ∧ t.b1 = neg s.b1) ⟨.zero _, rfl, rfl⟩ ?_
    intro e s t x x' ⟨h1, e0, e1⟩ hx
    refine ⟨⟨by rw [Bool.not_not]; exact hx, e0, e1⟩, ?_⟩
    simp only [OneZero.process]; rw [e0, e1]; exact (hx.mul _).add (h1.negMul _)
  · refine mirrorsTo_of TwoPole.process TwoPole.process (fun _ _ _ => rfl) (fun _ _ _ => rfl)
      (fun e s t => Par (!e) s.y_z1 t.y_z1 ∧ Par e s.y_z2 t.y_z2 ∧ t.b0 = s.b0 ∧ t.a1 = neg s.a1 ∧ t.a2 = s.a2)
      ⟨.zero _, .zero _, rfl, rfl, rfl⟩ ?_
    intro e s t x x' ⟨h1, h2, e0, e1, e2⟩ hx
    have : Par e (s.process x).2 (t.process x').2 := by
      simp only [TwoPole.process]; rw [e0, e1, e2]; exact ((hx.mul _).sub (h1.negMul _)).sub (h2.mul _)
    exact ⟨⟨by rw [Bool.not_not]; exact this, h1, e0, e1, e2⟩, this⟩
  · refine mirrorsTo_of TwoZero.process TwoZero.process (fun _ _ _ => rfl) (fun _ _ _ => rfl)
      (fun e s t => Par (!e) s.x_z1 t.x_z1 ∧ Par e s.x_z2 t.x_z2 ∧ t.b0 = s.b0 ∧ t.b1 = neg s.b1 ∧ t.b2 = s.b2)
      ⟨.zero _, .zero _, rfl, rfl, rfl⟩ ?_
    intro e s t x x' ⟨h1, h2, e0, e1, e2⟩ hx
    refine ⟨⟨by rw [Bool.not_not]; exact hx, h1, e0, e1, e2⟩, ?_⟩
    simp only [TwoZero.process]; rw [e0, e1, e2]; exact ((hx.mul _).add (h1.negMul _)).add (h2.mul _)
  · refine mirrorsTo_of Biquad1.process Biquad1.process (fun _ _ _ => rfl) (fun _ _ _ => rfl)
      (fun e s t => Par (!e) s.x_z1 t.x_z1 ∧ Par e s.x_z2 t.x_z2 ∧ Par (!e) s.y_z1 t.y_z1 ∧ Par e s.y_z2 t.y_z2 ∧
        t.b0 = s.b0 ∧ t.b1 = neg s.b1 ∧ t.b2 = s.b2 ∧ t.a1 = neg s.a1 ∧ t.a2 = s.a2)
      ⟨.zero _, .zero _, .zero _, .zero _, rfl, rfl, rfl, rfl, rfl⟩ ?_
    intro e s t x x' ⟨h1, h2, h3, h4, e0, e1, e2, e3, e4⟩ hx
    have : Par e (s.process x).2 (t.process x').2 := by
      simp only [Biquad1.process]; rw [e0, e1, e2, e3, e4]
      exact ((((hx.mul _).add (h1.negMul _)).add (h2.mul _)).sub (h3.negMul _)).sub (h4.mul _)
    exact ⟨⟨by rw [Bool.not_not]; exact hx, h1, by rw [Bool.not_not]; exact this, h3, e0, e1, e2, e3, e4⟩, this⟩
  · refine mirrorsTo_of Biquad2.process Biquad2.process (fun _ _ _ => rfl) (fun _ _ _ => rfl)
      (fun e s t => Par e s.z1 t.z1 ∧ Par (!e) s.z2 t.z2 ∧
        t.b0 = s.b0 ∧ t.b1 = neg s.b1 ∧ t.b2 = s.b2 ∧ t.a1 = neg s.a1 ∧ t.a2 = s.a2)
      ⟨.zero _, .zero _, rfl, rfl, rfl, rfl, rfl⟩ ?_
    intro e s t x x' ⟨h1, h2, e0, e1, e2, e3, e4⟩ hx
    have ho : Par e (s.b0 *. x +. s.z1) (t.b0 *. x' +. t.z1) := by rw [e0]; exact (hx.mul _).add h1
    have hx' : Par (!(!e)) x x' := by rwa [Bool.not_not]
    have ho' : Par (!(!e)) (s.b0 *. x +. s.z1) (t.b0 *. x' +. t.z1) := by rwa [Bool.not_not]
    refine ⟨⟨?_, ?_, e0, e1, e2, e3, e4⟩, ho⟩
    · simp only [Biquad2.process]; rw [e1, e3]
      exact ((hx'.negMul _).add h2).sub (ho'.negMul _)
    · simp only [Biquad2.process]; rw [e2, e4]
      exact (hx'.mul _).sub (ho'.mul _)

/-- **C114**, Delay: an even delay keeps mirrored streams mirrored, an odd delay also turns them upside down. -/
theorem C114_delay [Target] {b : Build} {d m : ℕ} (hm : Allocatable (Fl L) m) :
    ∃ s : Delay (Fl L), Delay.new b d m = .ok s ∧ ∀ x x' : ℕ → Fl L, (∀ n, Fl.Mirrored n (x n) (x' n)) →
      ∃ y y', Responds b s x y ∧ Responds b s x' y' ∧ ∀ n, Fl.Mirrored (n + min d m) (y n) (y' n) := by
  obtain ⟨s, hs, hr⟩ := C07_new_delay_is_pure_delay (T := Fl L) (b := b) (d := d) hm
  refine ⟨s, hs, fun x x' hx => ⟨_, _, (hr x _).mpr rfl, (hr x' _).mpr rfl, fun n => ?_⟩⟩
  by_cases h : min d m ≤ n
  · simp only [if_pos h]
    have := hx (n - min d m)
    unfold Fl.Mirrored at this ⊢
    have e : Even (n + min d m) ↔ Even (n - min d m) := by
      rw [Nat.even_add, Nat.even_sub h]
    simp only [e]; exact this
  · simp only [if_neg h]
    rw [mirrored_iff]; exact Par.zero _

/-! ## Non-vacuity -/

/-- An alternating stream is the mirror image of a constant one. -/
example : mirror (fun _ => 1) 3 = -1 ∧ mirror (fun _ => 1) 4 = 1 := by
  constructor <;> norm_num [mirror]

example : Fl.Mirrored 0 (one : Fl L) one ∧ Fl.Mirrored 1 (one : Fl L) (neg one) :=
  ⟨mirrored_iff.mpr (by simpa [Par] using Same.rfl' _), mirrored_iff.mpr (by simpa [Par] using Opposite.neg _)⟩

/-- A high-pass filter at 21 kHz and 48 kHz mirrors the low-pass filter at 3 kHz. -/
example : IsMirror ((LowPass.new : LowPass ℝ).setCoefficients 48000 3000 2) ((HighPass.new : HighPass ℝ).setCoefficients 48000 21000 2) := by
  have := (C114_rbj (sr := 48000) (by norm_num) 3000 2 0 1).1 LowPass.new HighPass.new
  norm_num at this
  exact this

end Rasp
