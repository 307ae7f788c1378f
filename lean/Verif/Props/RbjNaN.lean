import Verif.Spec.RbjRange
import Verif.Lemmas.NotFinite
import Verif.Lemmas.Rbj

/-!
# C104: rbj parameters out of range, floating point
-/

namespace Rasp
open FloatOps Fl
variable {f : Fmt} {L : Libm f}

/-! ## The wrapped biquad -/

theorem Biquad2.total_fl (s : Biquad2 (Fl L)) : Total (T := Fl L) s := fun b x =>
  NeverPanics.responds (fun _ _ _ => ⟨_, _, rfl⟩) b s x

theorem Biquad2.nanFrom_of {s : Biquad2 (Fl L)} {k : ℕ} (P : ℕ → Biquad2 (Fl L) → Prop) (h0 : P 0 s)
    (hP : ∀ n s x, P n s → P (n + 1) (s.process x).1 ∧ (k ≤ n → (s.process x).2.IsNaN)) : NaNFrom k s := by
  refine ⟨s.total_fl, ?_⟩
  rintro b x y ⟨st, rfl, hst⟩ n hn
  have e : ∀ n, st (n + 1) = ((st n).process (x n)).1 ∧ y n = ((st n).process (x n)).2 := by
    intro n
    obtain ⟨h1, h2⟩ := Prod.mk.inj (Except.ok.inj (hst n))
    exact ⟨h1.symm, h2.symm⟩
  have key : ∀ n, P n (st n) := by
    intro n
    induction n with
    | zero => exact h0
    | succ n ih => rw [(e n).1]; exact (hP n _ _ ih).1
  rw [(e n).2]
  exact (hP n _ _ (key n)).2 hn

/-- With `a2` NaN the third output is NaN and all that follow. -/
theorem Biquad2.nan_a2 {s : Biquad2 (Fl L)} (h : s.a2.IsNaN) : NaNFrom 2 s := by
  refine nanFrom_of (fun n s => s.a2.IsNaN ∧ (1 ≤ n → s.z2.IsNaN) ∧ (2 ≤ n → s.z1.IsNaN)) ⟨h, by omega, by omega⟩ ?_
  intro n s x ⟨h1, h2, h3⟩
  refine ⟨⟨h1, fun _ => sub_nan_right (mul_nan_left h1), fun hn => sub_nan_left (add_nan_right (h2 (by omega)))⟩,
    fun hn => add_nan_right (h3 hn)⟩

/-- With `b0` NaN all outputs are. -/
theorem Biquad2.nan_b0 {s : Biquad2 (Fl L)} (h : s.b0.IsNaN) : NaNFrom 0 s :=
  nanFrom_of (fun _ s => s.b0.IsNaN) h fun _ _ _ h => ⟨h, fun _ => add_nan_left (mul_nan_left h)⟩

/-- With `b0` not finite no output is. -/
theorem Biquad2.neverFinite_b0 {s : Biquad2 (Fl L)} (h : ¬ s.b0.Finite) : NeverFinite s := by
  refine ⟨s.total_fl, ?_⟩
  rintro b x y ⟨st, rfl, hst⟩ n
  have e : ∀ n, st (n + 1) = ((st n).process (x n)).1 ∧ y n = ((st n).process (x n)).2 := by
    intro n
    obtain ⟨h1, h2⟩ := Prod.mk.inj (Except.ok.inj (hst n))
    exact ⟨h1.symm, h2.symm⟩
  have key : ∀ n, ¬ (st n).b0.Finite := by
    intro n
    induction n with
    | zero => exact h
    | succ n ih => rw [(e n).1]; exact ih
  rw [(e n).2]
  exact add_not_finite_left (mul_not_finite_left (key n))

/-- Two silent outputs: `b0`, `b1`, `a1` and the memory zero. -/
theorem Biquad2.silent_two {s : Biquad2 (Fl L)} (h0 : s.b0.Finite ∧ s.b0.toReal = 0) (h1 : s.b1.Finite ∧ s.b1.toReal = 0)
    (h2 : s.a1.Finite ∧ s.a1.toReal = 0) (h3 : s.z1.Finite ∧ s.z1.toReal = 0) (h4 : s.z2.Finite ∧ s.z2.toReal = 0) {b : Build}
    {x y : ℕ → Fl L} (hx : ∀ n, (x n).Finite) (hr : Responds b s x y) : ∀ n, n < 2 → (y n).Finite ∧ (y n).toReal = 0 := by
  obtain ⟨st, rfl, hst⟩ := hr
  have e : ∀ n, st (n + 1) = ((st n).process (x n)).1 ∧ y n = ((st n).process (x n)).2 := by
    intro n
    obtain ⟨h1, h2⟩ := Prod.mk.inj (Except.ok.inj (hst n))
    exact ⟨h1.symm, h2.symm⟩
  have m : ∀ {u v : Fl L}, (u.Finite ∧ u.toReal = 0) → v.Finite → (u *. v).Finite ∧ (u *. v).toReal = 0 := by
    intro u v hu hv
    have := mul_val hu.1 hv (by rw [hu.2, zero_mul]; exact noOvf_two (by norm_num))
    rwa [hu.2, zero_mul, rnd_zero] at this
  have p : ∀ {u v : Fl L}, (u.Finite ∧ u.toReal = 0) → (v.Finite ∧ v.toReal = 0) → (u +. v).Finite ∧ (u +. v).toReal = 0 := by
    intro u v hu hv
    have := add_zero_val hu.1 hv.1 hv.2
    rwa [hu.2] at this
  have d : ∀ {u v : Fl L}, (u.Finite ∧ u.toReal = 0) → (v.Finite ∧ v.toReal = 0) → (u -. v).Finite ∧ (u -. v).toReal = 0 := by
    intro u v hu hv
    have := sub_zero_val hu.1 hv.1 hv.2
    rwa [hu.2] at this
  have y0 := p (m h0 (hx 0)) h3
  intro n hn
  obtain rfl | rfl : n = 0 ∨ n = 1 := by omega
  · rw [(e 0).2]
    exact y0
  · rw [(e 1).2, (e 0).1]
    exact p (m h0 (hx 1)) (d (p (m h1 (hx 0)) h4) (m h2 y0.1))

/-- Numerator and denominator of `b0` not finite. -/
theorem rbjStore_b0 {s : Biquad2 (Fl L)} {b0 b1 b2 a0 a1 a2 : Fl L} (h : ¬ b0.Finite) (h0 : ¬ a0.Finite) :
    NaNFrom 0 (rbjStore s b0 b1 b2 a0 a1 a2) := Biquad2.nan_b0 (div_not_finite_both h h0)

theorem rbjStore_a2 {s : Biquad2 (Fl L)} {b0 b1 b2 a0 a1 a2 : Fl L} (h : ¬ a2.Finite) (h0 : ¬ a0.Finite) :
    NaNFrom 2 (rbjStore s b0 b1 b2 a0 a1 a2) := Biquad2.nan_a2 (div_not_finite_both h h0)

theorem rbjStore_a0 {s : Biquad2 (Fl L)} {b0 b1 b2 a0 a1 a2 : Fl L} (h0 : a0.IsNaN) :
    NaNFrom 0 (rbjStore s b0 b1 b2 a0 a1 a2) := Biquad2.nan_b0 (div_nan_right h0)

theorem NaNFrom.wrap {σ τ : Type} [Processor σ (Fl L)] [Processor τ (Fl L)] {s : σ} {t : τ} {k : ℕ}
    (h : ∀ {b : Build} {x y : ℕ → Fl L}, Responds b s x y ↔ Responds b t x y) (ht : NaNFrom k t) : NaNFrom k s :=
  ⟨fun b x => (ht.1 b x).imp fun _ => h.mpr, fun b x y hr => ht.2 b x y (h.mp hr)⟩

theorem NeverFinite.wrap {σ τ : Type} [Processor σ (Fl L)] [Processor τ (Fl L)] {s : σ} {t : τ}
    (h : ∀ {b : Build} {x y : ℕ → Fl L}, Responds b s x y ↔ Responds b t x y) (ht : NeverFinite t) : NeverFinite s :=
  ⟨fun b x => (ht.1 b x).imp fun _ => h.mpr, fun b x y hr => ht.2 b x y (h.mp hr)⟩

/-! ## `alpha` not finite -/

variable {sr fr q db S : Fl L}

/-- **C104**: a `q` so small, or zero, that the quotient `alpha` is not finite: the low pass, the high pass and the band stop filter give NaN from
the third output on, the others from the first. -/
theorem C104_alpha_not_finite (h : ¬ (FloatOps.sin (two *. pi *. fr /. sr) /. (two *. q)).Finite) :
    (∀ s : LowPass (Fl L), NaNFrom 2 (s.setCoefficients sr fr q)) ∧ (∀ s : HighPass (Fl L), NaNFrom 2 (s.setCoefficients sr fr q)) ∧
    (∀ s : BandStop (Fl L), NaNFrom 2 (s.setCoefficients sr fr q)) ∧ (∀ s : BandPass1 (Fl L), NaNFrom 0 (s.setCoefficients sr fr q)) ∧
    (∀ s : BandPass2 (Fl L), NaNFrom 0 (s.setCoefficients sr fr q)) ∧ (∀ s : AllPass (Fl L), NaNFrom 0 (s.setCoefficients sr fr q)) ∧
    (∀ s : Peak (Fl L), NaNFrom 0 (s.setCoefficients sr fr db q)) :=
  ⟨fun _ => .wrap (LowPass.responds_iff _) (rbjStore_a2 (sub_not_finite_of_right h) (add_not_finite_right h)),
    fun _ => .wrap (HighPass.responds_iff _) (rbjStore_a2 (sub_not_finite_of_right h) (add_not_finite_right h)),
    fun _ => .wrap (BandStop.responds_iff _) (rbjStore_a2 (sub_not_finite_of_right h) (add_not_finite_right h)),
    fun _ => .wrap (BandPass1.responds_iff _) (rbjStore_b0 (mul_not_finite_right h) (add_not_finite_right h)),
    fun _ => .wrap (BandPass2.responds_iff _) (rbjStore_b0 h (add_not_finite_right h)),
    fun _ => .wrap (AllPass.responds_iff _) (rbjStore_b0 (sub_not_finite_of_right h) (add_not_finite_right h)),
    fun _ => .wrap (Peak.responds_iff _)
      (rbjStore_b0 (add_not_finite_right (mul_not_finite_left h)) (add_not_finite_right (div_not_finite_left h)))⟩

/-- **C104**: `q = 0`, of either sign. -/
theorem C104_zero_q (hq : q.Finite) (h0 : q.toReal = 0) :
    (∀ s : LowPass (Fl L), NaNFrom 2 (s.setCoefficients sr fr q)) ∧ (∀ s : HighPass (Fl L), NaNFrom 2 (s.setCoefficients sr fr q)) ∧
    (∀ s : BandStop (Fl L), NaNFrom 2 (s.setCoefficients sr fr q)) ∧ (∀ s : BandPass1 (Fl L), NaNFrom 0 (s.setCoefficients sr fr q)) ∧
    (∀ s : BandPass2 (Fl L), NaNFrom 0 (s.setCoefficients sr fr q)) ∧ (∀ s : AllPass (Fl L), NaNFrom 0 (s.setCoefficients sr fr q)) ∧
    (∀ s : Peak (Fl L), NaNFrom 0 (s.setCoefficients sr fr db q)) := by
  obtain ⟨h1, h2⟩ := mul_zero_val (two_val (L := L)).1 hq h0
  exact C104_alpha_not_finite (div_zero_not_finite h1 h2)

/-- **C104**: with `q = 0` the first two outputs of a low pass filter look like silence. -/
theorem C104_zero_q_late (hq : q.Finite) (h0 : q.toReal = 0) (hs : (FloatOps.sin (two *. pi *. fr /. sr)).Finite)
    (hs0 : (FloatOps.sin (two *. pi *. fr /. sr)).toReal ≠ 0) (hc : Fl.In (-1) 1 (FloatOps.cos (two *. pi *. fr /. sr)))
    (s : LowPass (Fl L)) {b : Build} {x y : ℕ → Fl L} (hx : ∀ n, (x n).Finite) (hr : Responds b (s.setCoefficients sr fr q) x y) :
    ∀ n, n < 2 → (y n).Finite ∧ (y n).toReal = 0 := by
  obtain ⟨m1, m2⟩ := mul_zero_val (two_val (L := L)).1 hq h0
  obtain ⟨t, ht⟩ : ∃ t, one +. FloatOps.sin (two *. pi *. fr /. sr) /. (two *. q) = inf L t := by
    obtain ⟨t, ht⟩ := div_zero_inf hs hs0 m1 m2
    exact ⟨t, by rw [ht, add_inf one_finite]⟩
  obtain ⟨c1, c2, c3⟩ := hc
  obtain ⟨b1, b2⟩ := sub_val (one_finite (L := L)) c1 (noOvf_two (by rw [one_toReal, abs_le]; constructor <;> linarith))
  have b0 := (div_val b1 two_val.1 (by rw [two_val.2]; norm_num) (by
    refine noOvf_of_abs_le (y := one -. FloatOps.cos (two *. pi *. fr /. sr)) ?_
    rw [two_val.2, abs_div, abs_of_pos (show (0 : ℝ) < 2 by norm_num)]
    linarith [abs_nonneg (one -. FloatOps.cos (two *. pi *. fr /. sr)).toReal])).1
  have a1 := (mul_val (neg_finite.mpr (two_val (L := L)).1) c1 (noOvf_two (by
    rw [neg_toReal, two_val.2, abs_le]; constructor <;> linarith))).1
  rw [LowPass.responds_iff] at hr
  refine Biquad2.silent_two (s := (s.setCoefficients sr fr q).biquad) ?_ ?_ ?_ ⟨zero_finite, zero_toReal⟩ ⟨zero_finite, zero_toReal⟩ hx hr
  · have := div_inf_val b0 t
    rw [← ht] at this
    exact this
  · have := div_inf_val b1 t
    rw [← ht] at this
    exact this
  · have := div_inf_val a1 t
    rw [← ht] at this
    exact this

theorem nan_of_alpha (h : (FloatOps.sin (two *. pi *. fr /. sr) /. (two *. q)).IsNaN) :
    (∀ s : LowPass (Fl L), NaNFrom 0 (s.setCoefficients sr fr q)) ∧ (∀ s : HighPass (Fl L), NaNFrom 0 (s.setCoefficients sr fr q)) ∧
    (∀ s : BandStop (Fl L), NaNFrom 0 (s.setCoefficients sr fr q)) ∧ (∀ s : BandPass1 (Fl L), NaNFrom 0 (s.setCoefficients sr fr q)) ∧
    (∀ s : BandPass2 (Fl L), NaNFrom 0 (s.setCoefficients sr fr q)) ∧ (∀ s : AllPass (Fl L), NaNFrom 0 (s.setCoefficients sr fr q)) ∧
    (∀ s : Peak (Fl L), NaNFrom 0 (s.setCoefficients sr fr db q)) :=
  ⟨fun _ => .wrap (LowPass.responds_iff _) (rbjStore_a0 (add_nan_right h)), fun _ => .wrap (HighPass.responds_iff _) (rbjStore_a0 (add_nan_right h)),
    fun _ => .wrap (BandStop.responds_iff _) (rbjStore_a0 (add_nan_right h)), fun _ => .wrap (BandPass1.responds_iff _) (rbjStore_a0 (add_nan_right h)),
    fun _ => .wrap (BandPass2.responds_iff _) (rbjStore_a0 (add_nan_right h)), fun _ => .wrap (AllPass.responds_iff _) (rbjStore_a0 (add_nan_right h)),
    fun _ => .wrap (Peak.responds_iff _) (rbjStore_a0 (add_nan_right (div_nan_left h)))⟩

/-- **C104**: a `q` that is NaN. -/
theorem C104_nan_q (hq : q.IsNaN) :
    (∀ s : LowPass (Fl L), NaNFrom 0 (s.setCoefficients sr fr q)) ∧ (∀ s : HighPass (Fl L), NaNFrom 0 (s.setCoefficients sr fr q)) ∧
    (∀ s : BandStop (Fl L), NaNFrom 0 (s.setCoefficients sr fr q)) ∧ (∀ s : BandPass1 (Fl L), NaNFrom 0 (s.setCoefficients sr fr q)) ∧
    (∀ s : BandPass2 (Fl L), NaNFrom 0 (s.setCoefficients sr fr q)) ∧ (∀ s : AllPass (Fl L), NaNFrom 0 (s.setCoefficients sr fr q)) ∧
    (∀ s : Peak (Fl L), NaNFrom 0 (s.setCoefficients sr fr db q)) :=
  nan_of_alpha (div_nan_right (mul_nan_right hq))

/-! ## Shelves -/

/-- `alpha` of the shelves not finite. -/
theorem shelf_alpha (h : ¬ (FloatOps.sin (two *. pi *. fr /. sr) /. two *.
      FloatOps.sqrt ((powf (ofF64 (.lit 10)) (db /. ofF64 (.lit 40)) +. one /. powf (ofF64 (.lit 10)) (db /. ofF64 (.lit 40))) *.
        (one /. S -. one) +. two)).Finite) :
    (∀ s : LowShelf (Fl L), NaNFrom 0 (s.setCoefficients sr fr db S)) ∧ (∀ s : HighShelf (Fl L), NaNFrom 0 (s.setCoefficients sr fr db S)) :=
  ⟨fun _ => .wrap (LowShelf.responds_iff _)
      (rbjStore_b0 (mul_not_finite_right (add_not_finite_right (mul_not_finite_right h))) (add_not_finite_right (mul_not_finite_right h))),
    fun _ => .wrap (HighShelf.responds_iff _)
      (rbjStore_b0 (mul_not_finite_right (add_not_finite_right (mul_not_finite_right h))) (add_not_finite_right (mul_not_finite_right h)))⟩

/-- **C104**: a slope that is zero or NaN. -/
theorem C104_bad_slope (h : S.IsNaN ∨ (S.Finite ∧ S.toReal = 0)) :
    (∀ s : LowShelf (Fl L), NaNFrom 0 (s.setCoefficients sr fr db S)) ∧ (∀ s : HighShelf (Fl L), NaNFrom 0 (s.setCoefficients sr fr db S)) := by
  have h1 : ¬ (one /. S).Finite := by
    rcases h with h | ⟨h1, h2⟩
    · exact (div_nan_right h).not_finite
    · exact div_zero_not_finite h1 h2
  exact shelf_alpha (mul_not_finite_right (sqrt_not_finite (add_not_finite_left (mul_not_finite_right (sub_not_finite_left h1)))))

/-- **C104**: a gain so high that its factor is not finite, or so low that it is zero: the shelves give NaN only; with such a high gain no output of
`Peak` is finite, with such a low one they are NaN from the third on. -/
theorem C104_bad_gain :
    (¬ (powf (ofF64 (.lit 10)) (db /. ofF64 (.lit 40))).Finite →
      (∀ s : LowShelf (Fl L), NaNFrom 0 (s.setCoefficients sr fr db S)) ∧ (∀ s : HighShelf (Fl L), NaNFrom 0 (s.setCoefficients sr fr db S)) ∧
      (∀ s : Peak (Fl L), NeverFinite (s.setCoefficients sr fr db q))) ∧
    ((powf (ofF64 (.lit 10)) (db /. ofF64 (.lit 40))).Finite → (powf (ofF64 (.lit 10)) (db /. ofF64 (.lit 40))).toReal = 0 →
      (∀ s : LowShelf (Fl L), NaNFrom 0 (s.setCoefficients sr fr db S)) ∧ (∀ s : HighShelf (Fl L), NaNFrom 0 (s.setCoefficients sr fr db S)) ∧
      (∀ s : Peak (Fl L), NaNFrom 2 (s.setCoefficients sr fr db q))) := by
  constructor
  · intro h
    obtain ⟨h1, h2⟩ := shelf_alpha (sr := sr) (fr := fr) (S := S)
      (mul_not_finite_right (sqrt_not_finite (add_not_finite_left (mul_not_finite_left (add_not_finite_left h)))))
    exact ⟨h1, h2, fun s => .wrap (Peak.responds_iff _)
      (Biquad2.neverFinite_b0 (div_not_finite_left (add_not_finite_right (mul_not_finite_right h))))⟩
  · intro h h0
    obtain ⟨h1, h2⟩ := shelf_alpha (sr := sr) (fr := fr) (S := S)
      (mul_not_finite_right (sqrt_not_finite (add_not_finite_left (mul_not_finite_left (add_not_finite_right (div_zero_not_finite h h0))))))
    exact ⟨h1, h2, fun s => .wrap (Peak.responds_iff _)
      (rbjStore_a2 (sub_not_finite_of_right (div_zero_not_finite h h0)) (add_not_finite_right (div_zero_not_finite h h0)))⟩

theorem isRep_small (f : Fmt) (m : ℤ) (hm : |m| ≤ 3) (e : ℤ) (he : -2 ≤ e) : IsRep f (m * (2 : ℝ) ^ e) := by
  refine ⟨m, e, ?_, ?_, rfl⟩
  · calc |m| < 2 ^ 2 := by omega
      _ ≤ 2 ^ f.p := pow_le_pow_right₀ (by norm_num) f.hp
  · have := f.hemin; have := f.hp; omega

/-- **C104**: a negative slope, not below -1. -/
theorem C104_negative_slope (hS : S.Finite) (h0 : S.toReal < 0) (h1 : -1 ≤ S.toReal)
    (ha : (powf (ofF64 (.lit 10)) (db /. ofF64 (.lit 40))).Finite) (hp : 0 < (powf (ofF64 (.lit 10)) (db /. ofF64 (.lit 40))).toReal) :
    (∀ s : LowShelf (Fl L), NaNFrom 0 (s.setCoefficients sr fr db S)) ∧ (∀ s : HighShelf (Fl L), NaNFrom 0 (s.setCoefficients sr fr db S)) := by
  refine shelf_alpha (mul_nan_right (Below.sqrt_nan (c := -1) (by norm_num) ?_)).not_finite
  generalize powf (ofF64 (.lit 10)) (db /. ofF64 (.lit 40)) = a at *
  have r1 : IsRep f (-1) := by have := isRep_small f (-1) (by norm_num) 0 (by norm_num); norm_num at this; exact this
  have r2 : IsRep f (-2) := by have := isRep_small f (-1) (by norm_num) 1 (by norm_num); norm_num at this; exact this
  have r3 : IsRep f (3 / 2) := by have := isRep_small f 3 (by norm_num) (-1) (by norm_num); norm_num at this ⊢; exact this
  have r4 : IsRep f (-(3 / 2 * 2)) := by have := isRep_small f (-3) (by norm_num) 0 (by norm_num); norm_num at this ⊢; exact this
  refine Below.add (c := -(3 / 2 * 2)) ?_ two_val.1 r1 (by norm_num) (by rw [two_val.2]; norm_num)
  refine Above.mul_below (by norm_num) (by norm_num) r4 (above_add_inv ha hp r3 (by norm_num) ?_)
    (below_inv_sub hS h0.ne r1 (by norm_num) r2 (by norm_num) ?_ (by norm_num))
  · by_cases h : a.toReal ≤ 2 / 3
    · have : (3 / 2 : ℝ) ≤ 1 / a.toReal := by rw [le_div_iff₀ hp]; linarith
      linarith [le_rnd_of_le r3 this]
    · by_cases h' : a.toReal ≤ 1
      · have : (1 : ℝ) ≤ 1 / a.toReal := by rw [le_div_iff₀ hp]; linarith
        have r : IsRep f 1 := by simpa using r1.neg
        linarith [le_rnd_of_le r this]
      · have hz : (1 / 2 : ℝ) ≤ rnd f (1 / a.toReal) ∨ (3 / 2 ≤ a.toReal ∧ 0 ≤ rnd f (1 / a.toReal)) := by
          by_cases h3 : 3 / 2 ≤ a.toReal
          · have := rnd_mono (f := f) (show (0 : ℝ) ≤ 1 / a.toReal by positivity)
            rw [rnd_zero] at this
            exact .inr ⟨h3, this⟩
          · refine .inl (le_rnd_of_le (isRep_half f) ?_)
            rw [div_le_div_iff₀ (by norm_num) hp]
            linarith
        rcases hz with hz | hz <;> linarith
  · rw [div_le_iff_of_neg h0]; linarith

/-- **C104**: a slope of at least 2 with a gain factor `10^(db/40)` of at least 8 or at most 1/8. -/
theorem C104_steep_slope (hS : S.Finite) (h0 : 2 ≤ S.toReal)
    (ha : (powf (ofF64 (.lit 10)) (db /. ofF64 (.lit 40))).Finite)
    (hp : 8 ≤ (powf (ofF64 (.lit 10)) (db /. ofF64 (.lit 40))).toReal ∨
      (0 < (powf (ofF64 (.lit 10)) (db /. ofF64 (.lit 40))).toReal ∧ (powf (ofF64 (.lit 10)) (db /. ofF64 (.lit 40))).toReal ≤ 1 / 8)) :
    (∀ s : LowShelf (Fl L), NaNFrom 0 (s.setCoefficients sr fr db S)) ∧ (∀ s : HighShelf (Fl L), NaNFrom 0 (s.setCoefficients sr fr db S)) := by
  refine shelf_alpha (mul_nan_right (Below.sqrt_nan (c := -2) (by norm_num) ?_)).not_finite
  generalize powf (ofF64 (.lit 10)) (db /. ofF64 (.lit 40)) = a at *
  have r2 : IsRep f (-2) := by have := isRep_small f (-1) (by norm_num) 1 (by norm_num); norm_num at this; exact this
  have r3 : IsRep f 8 := by have := isRep_small f 1 (by norm_num) 3 (by norm_num); norm_num at this ⊢; exact this
  have r4 : IsRep f (-(8 * (1 / 2))) := by have := isRep_small f (-1) (by norm_num) 2 (by norm_num); norm_num at this ⊢; exact this
  have r5 : IsRep f (-(1 / 2)) := (isRep_half f).neg
  have hpos : 0 < a.toReal := by rcases hp with h | h <;> linarith
  refine Below.add (c := -(8 * (1 / 2))) ?_ two_val.1 r2 (by norm_num) (by rw [two_val.2]; norm_num)
  refine Above.mul_below (by norm_num) (by norm_num) r4 (above_add_inv ha hpos r3 (by norm_num) ?_) ?_
  · have hz : 0 ≤ rnd f (1 / a.toReal) := by
      have := rnd_mono (f := f) (show (0 : ℝ) ≤ 1 / a.toReal by positivity)
      rwa [rnd_zero] at this
    rcases hp with h | h
    · linarith
    · have : (8 : ℝ) ≤ 1 / a.toReal := by rw [le_div_iff₀ hpos]; linarith
      linarith [le_rnd_of_le r3 this]
  · have h1 : (1 : ℝ) / S.toReal ≤ 1 / 2 := one_div_le_one_div_of_le (by norm_num) h0
    have h2 : (0 : ℝ) ≤ 1 / S.toReal := by positivity
    obtain ⟨h3, h4⟩ := div_val (one_finite (L := L)) hS (by linarith) (by rw [one_toReal]; exact noOvf_two (by rw [abs_of_nonneg h2]; linarith))
    rw [one_toReal] at h4
    have h5 := rnd_mono (f := f) h1
    rw [rnd_of_isRep (isRep_half f)] at h5
    refine Below.sub (c := 1 / 2) (.inr (.inr ⟨h3, by rw [h4]; exact h5⟩)) one_finite r5 (by norm_num) (by rw [one_toReal]; norm_num)

/-! ## The angle -/

/-- **C104**: a sample rate that is zero or NaN, or a frequency that is infinite or NaN: every filter gives NaN only. -/
theorem C104_bad_angle (hL : SinInvalid L) (h : BadAngle sr fr) :
    (∀ s : LowPass (Fl L), NaNFrom 0 (s.setCoefficients sr fr q)) ∧ (∀ s : HighPass (Fl L), NaNFrom 0 (s.setCoefficients sr fr q)) ∧
    (∀ s : BandStop (Fl L), NaNFrom 0 (s.setCoefficients sr fr q)) ∧ (∀ s : BandPass1 (Fl L), NaNFrom 0 (s.setCoefficients sr fr q)) ∧
    (∀ s : BandPass2 (Fl L), NaNFrom 0 (s.setCoefficients sr fr q)) ∧ (∀ s : AllPass (Fl L), NaNFrom 0 (s.setCoefficients sr fr q)) ∧
    (∀ s : Peak (Fl L), NaNFrom 0 (s.setCoefficients sr fr db q)) ∧
    (∀ s : LowShelf (Fl L), NaNFrom 0 (s.setCoefficients sr fr db S)) ∧ (∀ s : HighShelf (Fl L), NaNFrom 0 (s.setCoefficients sr fr db S)) := by
  have hw : ¬ (two *. pi *. fr /. sr).Finite := by
    rcases h with h | ⟨h1, h2⟩ | h
    · exact (div_nan_right h).not_finite
    · exact div_zero_not_finite h1 h2
    · exact div_not_finite_left (mul_not_finite_right h)
  have hn := hL _ hw
  obtain ⟨g1, g2, g3, g4, g5, g6, g7⟩ := nan_of_alpha (sr := sr) (fr := fr) (q := q) (db := db) (div_nan_left hn)
  obtain ⟨g8, g9⟩ := shelf_alpha (sr := sr) (fr := fr) (db := db) (S := S) (mul_nan_left (div_nan_left hn)).not_finite
  exact ⟨g1, g2, g3, g4, g5, g6, g7, g8, g9⟩

/-! ## The hypotheses can be met -/

example (s : LowPass (Fl L)) : NaNFrom 2 (s.setCoefficients sr fr zero) := (C104_zero_q (db := zero) zero_finite zero_toReal).1 s

example (s : LowShelf (Fl L)) : NaNFrom 0 (s.setCoefficients sr fr db zero) := (C104_bad_slope (.inr ⟨zero_finite, zero_toReal⟩)).1 s

/-- A library with a rounded sine, and with 8 as its only power. Only used to show that the assumptions are satisfiable. -/
noncomputable def Libm.roundedSin (f : Fmt) : Libm f where
  exp x := x
  cos x := x
  sin
    | .nan _ => .nan false
    | .inf _ => .nan false
    | .fin s a h => FP.ofReal f false (Real.sin (FP.toReal (.fin s a h)))
  log10 x := x
  powf _ _ := FP.ofReal f false 8

theorem Libm.roundedSin_invalid (f : Fmt) : SinInvalid (Libm.roundedSin f) := by
  intro v hv
  rcases not_finite_cases hv with h | ⟨s, rfl⟩
  · obtain ⟨s, rfl⟩ := isNaN_iff.mp h
    exact trivial
  · exact trivial

/-- A sample rate of zero. -/
example (s : LowPass (Fl (Libm.roundedSin binary32))) (fr q) : NaNFrom 0 (s.setCoefficients zero fr q) :=
  (C104_bad_angle (db := zero) (S := zero) (Libm.roundedSin_invalid _) (.inr (.inl ⟨zero_finite, zero_toReal⟩))).1 s

theorem roundedSin_pow (db : Fl (Libm.roundedSin binary32)) :
    (powf (ofF64 (.lit 10)) (db /. ofF64 (.lit 40)) : Fl (Libm.roundedSin binary32)).Finite ∧
    (powf (ofF64 (.lit 10)) (db /. ofF64 (.lit 40)) : Fl (Libm.roundedSin binary32)).toReal = 8 := by
  refine FP.ofReal_exact (f := binary32) ?_ ?_
  · have := isRep_small binary32 1 (by norm_num) 3 (by norm_num)
    norm_num at this ⊢
    exact this
  · norm_num [Fmt.lim, binary32]

/-- Slope -1. -/
example (s : LowShelf (Fl (Libm.roundedSin binary32))) (sr fr db) : NaNFrom 0 (s.setCoefficients sr fr db (neg one)) := by
  obtain ⟨h1, h2⟩ := roundedSin_pow db
  refine (C104_negative_slope (neg_finite.mpr one_finite) ?_ ?_ h1 ?_).1 s
  · rw [neg_toReal, one_toReal]; norm_num
  · rw [neg_toReal, one_toReal]
  · rw [h2]; norm_num

/-- Slope 2. -/
example (s : HighShelf (Fl (Libm.roundedSin binary32))) (sr fr db) : NaNFrom 0 (s.setCoefficients sr fr db two) := by
  obtain ⟨h1, h2⟩ := roundedSin_pow db
  exact (C104_steep_slope two_val.1 two_val.2.ge h1 (.inl h2.ge)).2 s

/-- A library whose powers overflow. -/
example (s : Peak (Fl { Libm.roundedSin binary32 with powf := fun _ _ => .inf false })) (sr fr db q) :
    NeverFinite (s.setCoefficients sr fr db q) :=
  ((C104_bad_gain (S := zero)).1 id).2.2 s

end Rasp
