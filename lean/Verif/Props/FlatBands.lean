import Verif.Spec.FlatBands
import Verif.Lemmas.NotFinite
import Verif.Lemmas.Rbj
import Verif.Props.Util

/-!
# C164: bands set to 0 dB, in floating point
-/

namespace Rasp
open FloatOps Fl
variable {f : Fmt} {L : Libm f} {sr fr db q S : Fl L}

/-- Both finite, with the same value. -/
private abbrev Val (x y : Fl L) : Prop := x.Finite ∧ y.Finite ∧ x.toReal = y.toReal

private theorem val_mul {x x' y y' : Fl L} (hx : Val x x') (hy : Val y y') (h : (x *. y).Finite) : Val (x *. y) (x' *. y') := by
  by_cases ho : FP.NoOvf f (x.toReal * y.toReal)
  · have h1 := mul_val hx.1 hy.1 ho
    have h2 := mul_val hx.2.1 hy.2.1 (by rw [← hx.2.2, ← hy.2.2]; exact ho)
    exact ⟨h1.1, h2.1, by rw [h1.2, h2.2, hx.2.2, hy.2.2]⟩
  · rw [mul_ovf hx.1 hy.1 ho] at h
    exact h.elim

private theorem div_ovf {x y : Fl L} (hx : x.Finite) (hy : y.Finite) (h0 : y.toReal ≠ 0) (h : ¬ FP.NoOvf f (x.toReal / y.toReal)) :
    ¬ (x /. y).Finite := by
  obtain ⟨s, a, ha, rfl⟩ := FP.finite_cases hx
  obtain ⟨t, c, hc, rfl⟩ := FP.finite_cases hy
  have c0 : c ≠ 0 := by
    rintro rfl
    apply h0
    show (if t then -(0 : ℝ) else 0) = 0
    cases t <;> simp
  show ¬ FP.Finite (FP.div (f := f) _ _)
  simp only [FP.div, c0, if_false]
  change ¬ FP.NoOvf f (FP.toReal (f := f) (FP.fin s a ha) / FP.toReal (f := f) (FP.fin t c hc)) at h
  rw [FP.ofReal_of_ovf h]
  exact id

private theorem val_div {x x' y : Fl L} (hx : Val x x') (hy : y.Finite) (h0 : y.toReal ≠ 0) (h : (x /. y).Finite) : Val (x /. y) (x' /. y) := by
  by_cases ho : FP.NoOvf f (x.toReal / y.toReal)
  · have h1 := div_val hx.1 hy h0 ho
    have h2 := div_val hx.2.1 hy h0 (by rw [← hx.2.2]; exact ho)
    exact ⟨h1.1, h2.1, by rw [h1.2, h2.2, hx.2.2]⟩
  · exact (div_ovf hx.1 hy h0 ho h).elim

private theorem val_sub {x y : Fl L} (h : Val x y) : (x -. y).Finite ∧ (x -. y).toReal = 0 := by
  have := sub_val h.1 h.2.1 (by rw [h.2.2, sub_self]; exact noOvf_two (by norm_num))
  rwa [h.2.2, sub_self, rnd_zero] at this

/-! ## The biquad -/

/-- Numerator equal to the denominator. -/
private structure Even (c : Biquad2 (Fl L)) : Prop where
  b0 : c.b0 = one
  b1 : Val c.b1 c.a1
  b2 : Val c.b2 c.a2
  z1 : c.z1.Finite ∧ c.z1.toReal = 0
  z2 : c.z2.Finite ∧ c.z2.toReal = 0

private theorem Even.step {c : Biquad2 (Fl L)} (h : Even c) {x : Fl L} (hx : x.Finite) (h1 : (c.a1 *. x).Finite) (h2 : (c.a2 *. x).Finite) :
    Even (c.process x).1 ∧ Val (c.process x).2 x ∧ (c.process x).1.a1 = c.a1 ∧ (c.process x).1.a2 = c.a2 := by
  have m := one_mul_val hx
  have o := add_zero_val m.1 h.z1.1 h.z1.2
  have o' : Val (c.process x).2 x := by
    show Val (c.b0 *. x +. c.z1) x
    rw [h.b0]
    exact ⟨o.1, hx, o.2.trans m.2⟩
  have v1 := val_mul ⟨h.b1.2.1, h.b1.2.1, rfl⟩ ⟨hx, o'.1, o'.2.2.symm⟩ h1
  have v2 := val_mul ⟨h.b2.2.1, h.b2.2.1, rfl⟩ ⟨hx, o'.1, o'.2.2.symm⟩ h2
  have w1 := val_mul ⟨h.b1.2.1, h.b1.1, h.b1.2.2.symm⟩ ⟨hx, hx, rfl⟩ h1
  have w2 := val_mul ⟨h.b2.2.1, h.b2.1, h.b2.2.2.symm⟩ ⟨hx, hx, rfl⟩ h2
  have s1 := add_zero_val w1.2.1 h.z2.1 h.z2.2
  refine ⟨⟨h.b0, h.b1, h.b2, ?_, ?_⟩, o', rfl, rfl⟩
  · exact val_sub ⟨s1.1, v1.2.1, (s1.2.trans w1.2.2.symm).trans v1.2.2⟩
  · exact val_sub ⟨w2.2.1, v2.2.1, w2.2.2.symm.trans v2.2.2⟩

private theorem Even.copies {c : Biquad2 (Fl L)} (h : Even c) {x : ℕ → Fl L} (hx : c.Fits x) {b : Build} {y : ℕ → Fl L}
    (hr : Responds b c x y) (n : ℕ) : (y n).Same (x n) := by
  obtain ⟨st, rfl, hst⟩ := hr
  have e : ∀ n, st (n + 1) = ((st n).process (x n)).1 ∧ y n = ((st n).process (x n)).2 := by
    intro n
    obtain ⟨h1, h2⟩ := Prod.mk.inj (Except.ok.inj (hst n))
    exact ⟨h1.symm, h2.symm⟩
  have key : ∀ n, Even (st n) ∧ (st n).a1 = (st 0).a1 ∧ (st n).a2 = (st 0).a2 := by
    intro n
    induction n with
    | zero => exact ⟨h, rfl, rfl⟩
    | succ n ih =>
      obtain ⟨i1, i2, i3⟩ := ih
      obtain ⟨s1, _, s2, s3⟩ := i1.step (hx n).1 (by rw [i2]; exact (hx n).2.1) (by rw [i3]; exact (hx n).2.2)
      rw [(e n).1]
      exact ⟨s1, s2.trans i2, s3.trans i3⟩
  obtain ⟨i1, i2, i3⟩ := key n
  have := (i1.step (hx n).1 (by rw [i2]; exact (hx n).2.1) (by rw [i3]; exact (hx n).2.2)).2.1
  rw [(e n).2]
  exact .inr (.inr this)

/-! ## The stored coefficients -/

private theorem even_store {c : Biquad2 (Fl L)} {b0 b1 b2 a0 a1 a2 : Fl L} (h0 : a0.Finite → Val b0 a0) (h1 : a0.Finite → a1.Finite → Val b1 a1)
    (h2 : a0.Finite → a2.Finite → Val b2 a2) (hn : ¬ a0.Finite → ¬ b0.Finite) (hc : (rbjStore c b0 b1 b2 a0 a1 a2).CoeffsFinite) :
    Even (rbjStore c b0 b1 b2 a0 a1 a2) := by
  obtain ⟨c0, -, -, c1, c2⟩ := hc
  have c0' : (b0 /. a0).Finite := c0
  have c1' : (a1 /. a0).Finite := c1
  have c2' : (a2 /. a0).Finite := c2
  have ha : a0.Finite := by
    by_contra hn'
    exact (div_not_finite_both (hn hn') hn').not_finite c0'
  have ha0 : a0.toReal ≠ 0 := fun h => div_zero_not_finite ha h c0'
  have ha1 : a1.Finite := by
    by_contra hn'
    exact div_not_finite_left hn' c1'
  have ha2 : a2.Finite := by
    by_contra hn'
    exact div_not_finite_left hn' c2'
  have e1 := val_div ⟨ha1, (h1 ha ha1).1, (h1 ha ha1).2.2.symm⟩ ha ha0 c1'
  have e2 := val_div ⟨ha2, (h2 ha ha2).1, (h2 ha ha2).2.2.symm⟩ ha ha0 c2'
  have e0 := div_val (h0 ha).1 ha ha0 (by rw [(h0 ha).2.2, div_self ha0]; exact noOvf_two (by norm_num))
  have r : IsRep f 1 := by have := isRep_toReal (one : Fl L); rwa [one_toReal] at this
  rw [(h0 ha).2.2, div_self ha0, rnd_of_isRep r] at e0
  exact ⟨ext_of_ne e0.1 one_finite (e0.2.trans one_toReal.symm) (fun hz => one_ne_zero (e0.2.symm.trans hz)), ⟨e1.2.1, e1.1, e1.2.2.symm⟩, ⟨e2.2.1, e2.1, e2.2.2.symm⟩,
    ⟨zero_finite, zero_toReal⟩, ⟨zero_finite, zero_toReal⟩⟩

/-- The gain factor of 0 dB. -/
private theorem factor_one (hP : PowZero L) (hp : 7 ≤ f.p) (h : db.Finite) (h0 : db.toReal = 0) :
    powf (ofF64 (.lit 10)) (db /. ofF64 (.lit 40)) = one := by
  obtain ⟨c1, c2⟩ := int_const (L := L) hp (z := 40) (by norm_num)
  have c1' : (ofF64 (.lit 40) : Fl L).Finite := c1
  have c2' : (ofF64 (.lit 40) : Fl L).toReal = 40 := by have := c2; push_cast at this; exact this
  have z := zero_div_val h h0 c1' (by rw [c2']; norm_num)
  exact hP _ _ z.1 z.2

private theorem mul_one_val {x : Fl L} (hx : x.Finite) : Val (x *. one) x := by
  have h := mul_val hx one_finite (by rw [one_toReal, mul_one]; exact noOvf_toReal x)
  rw [one_toReal, mul_one, rnd_of_isRep (isRep_toReal x)] at h
  exact ⟨h.1, hx, h.2⟩

private theorem div_one_val {x : Fl L} (hx : x.Finite) : Val (x /. one) x := by
  have h := div_val hx one_finite (by rw [one_toReal]; norm_num) (by rw [one_toReal, div_one]; exact noOvf_toReal x)
  rw [one_toReal, div_one, rnd_of_isRep (isRep_toReal x)] at h
  exact ⟨h.1, hx, h.2⟩

private theorem add_ovf {x y : Fl L} (hx : x.Finite) (hy : y.Finite) (h : ¬ FP.NoOvf f (x.toReal + y.toReal)) : ¬ (x +. y).Finite := by
  show ¬ FP.Finite (FP.add (f := f) x y)
  rw [FP.add_fin hx hy]
  change ¬ FP.NoOvf f (FP.toReal (f := f) x + FP.toReal (f := f) y) at h
  rw [FP.ofReal_of_ovf h]
  exact id

private theorem val_add {x y y' : Fl L} (hx : x.Finite) (hy : Val y y') (h : (x +. y).Finite) : Val (x +. y) (x +. y') := by
  by_cases ho : FP.NoOvf f (x.toReal + y.toReal)
  · have h1 := add_val hx hy.1 ho
    have h2 := add_val hx hy.2.1 (by rw [← hy.2.2]; exact ho)
    exact ⟨h1.1, h2.1, by rw [h1.2, h2.2, hy.2.2]⟩
  · exact (add_ovf hx hy.1 ho h).elim

private theorem val_sub' {x y y' : Fl L} (hx : x.Finite) (hy : Val y y') (h : (x -. y).Finite) : Val (x -. y) (x -. y') := by
  by_cases ho : FP.NoOvf f (x.toReal - y.toReal)
  · have h1 := sub_val hx hy.1 ho
    have h2 := sub_val hx hy.2.1 (by rw [← hy.2.2]; exact ho)
    exact ⟨h1.1, h2.1, by rw [h1.2, h2.2, hy.2.2]⟩
  · exact (sub_ovf hx hy.1 ho h).elim

private theorem Val.symm {x y : Fl L} (h : Val x y) : Val y x := ⟨h.2.1, h.1, h.2.2.symm⟩
private theorem Val.trans {x y z : Fl L} (h : Val x y) (h' : Val y z) : Val x z := ⟨h.1, h'.2.1, h.2.2.trans h'.2.2⟩

private theorem peak_even (hP : PowZero L) (hp : 7 ≤ f.p) (h : db.Finite) (h0 : db.toReal = 0) (s : Peak (Fl L))
    (hc : (s.setCoefficients sr fr db q).biquad.CoeffsFinite) : Even (s.setCoefficients sr fr db q).biquad := by
  simp only [Peak.setCoefficients, factor_one hP hp h h0] at hc ⊢
  generalize sin (two *. pi *. fr /. sr) /. (two *. q) = α at hc ⊢
  generalize neg two *. cos (two *. pi *. fr /. sr) = c at hc ⊢
  have k : α.Finite → Val (α /. one) (α *. one) := fun h => (div_one_val h).trans (mul_one_val h).symm
  have fd : (one +. α /. one).Finite → α.Finite := by
    intro h1
    by_contra hn
    exact add_not_finite_right (div_not_finite_left hn) h1
  have fm : (one +. α *. one).Finite → α.Finite := by
    intro h1
    by_contra hn
    exact add_not_finite_right (mul_not_finite_left hn) h1
  refine even_store (fun h1 => (val_add one_finite (k (fd h1)) h1).symm) (fun _ h1 => ⟨h1, h1, rfl⟩)
    (fun h1 h2 => (val_sub' one_finite (k (fd h1)) h2).symm) (fun h1 h2 => h1 ?_) hc
  exact (val_add one_finite (k (fm h2)).symm h2).2.1

private theorem two_one : (one +. one : Fl L).Finite ∧ (one +. one : Fl L).toReal = 2 := by
  have := add_val (L := L) one_finite one_finite (by rw [one_toReal]; exact noOvf_two (by norm_num))
  rw [one_toReal, show (1 : ℝ) + 1 = 2 by norm_num, rnd_of_isRep (isRep_two f)] at this
  exact this

private theorem zero_one : (one -. one : Fl L).Finite ∧ (one -. one : Fl L).toReal = 0 := val_sub ⟨one_finite, one_finite, rfl⟩

private theorem zero_mul_val' {x y : Fl L} (hx : x.Finite ∧ x.toReal = 0) (hy : y.Finite) : (x *. y).Finite ∧ (x *. y).toReal = 0 := by
  have := mul_val hx.1 hy (by rw [hx.2, zero_mul]; exact noOvf_two (by norm_num))
  rwa [hx.2, zero_mul, rnd_zero] at this

/-- The terms with the factor `A - 1` vanish. -/
private theorem shelf_drop {c : Fl L} (hc : c.Finite) :
    (one +. one) +. (one -. one) *. c = (one +. one : Fl L) ∧ (one +. one) -. (one -. one) *. c = (one +. one : Fl L) := by
  have z := zero_mul_val' (L := L) zero_one hc
  have p := add_zero_val (L := L) two_one.1 z.1 z.2
  have m := sub_zero_val (L := L) two_one.1 z.1 z.2
  exact ⟨ext_of_ne p.1 two_one.1 p.2 (by rw [p.2, two_one.2]; norm_num), ext_of_ne m.1 two_one.1 m.2 (by rw [m.2, two_one.2]; norm_num)⟩

private theorem mul_val_of_eq {x y x' y' : Fl L} (hx : x.Finite) (hy : y.Finite) (hx' : x'.Finite) (hy' : y'.Finite)
    (e : x.toReal * y.toReal = x'.toReal * y'.toReal) (h : (x *. y).Finite) : Val (x *. y) (x' *. y') := by
  by_cases ho : FP.NoOvf f (x.toReal * y.toReal)
  · have h1 := mul_val hx hy ho
    have h2 := mul_val hx' hy' (by rw [← e]; exact ho)
    exact ⟨h1.1, h2.1, by rw [h1.2, h2.2, e]⟩
  · rw [mul_ovf hx hy ho] at h
    exact h.elim

private theorem one_mul_val' {x : Fl L} (h : x.Finite) : Val (one *. x) x := ⟨(one_mul_val h).1, h, (one_mul_val h).2⟩

private theorem minus_plus {v : Fl L} (h : v.Finite) : ((one -. one) -. v).Finite ∧ ((one -. one) -. v).toReal = -v.toReal ∧
    ((one -. one) +. v).Finite ∧ ((one -. one) +. v).toReal = v.toReal := by
  have r := isRep_toReal v
  have o := noOvf_toReal v
  have h1 := sub_val (L := L) zero_one.1 h (by rw [zero_one.2, zero_sub, ← neg_toReal]; exact noOvf_toReal _)
  have h2 := add_val (L := L) zero_one.1 h (by rw [zero_one.2, zero_add]; exact o)
  rw [zero_one.2, zero_sub, rnd_of_isRep r.neg] at h1
  rw [zero_one.2, zero_add, rnd_of_isRep r] at h2
  exact ⟨h1.1, h1.2, h2.1, h2.2⟩

private theorem low_even (hP : PowZero L) (hp : 7 ≤ f.p) (h : db.Finite) (h0 : db.toReal = 0) (s : LowShelf (Fl L))
    (hc : (s.setCoefficients sr fr db S).biquad.CoeffsFinite) : Even (s.setCoefficients sr fr db S).biquad := by
  simp only [LowShelf.setCoefficients, factor_one hP hp h h0] at hc ⊢
  generalize two *. sqrt one *. (sin (two *. pi *. fr /. sr) /. two *. sqrt ((one +. one /. one) *. (one /. S -. one) +. two)) = p at hc ⊢
  generalize cos (two *. pi *. fr /. sr) = c at hc ⊢
  have fc : ((one +. one) +. (one -. one) *. c +. p).Finite → c.Finite := by
    intro h1
    by_contra hn
    exact add_not_finite_left (add_not_finite_right (mul_not_finite_right hn)) h1
  have fc' : (one *. ((one +. one) -. (one -. one) *. c +. p)).Finite → c.Finite := by
    intro h1
    by_contra hn
    exact mul_not_finite_right (add_not_finite_left (sub_not_finite_of_right (mul_not_finite_right hn))) h1
  refine even_store (fun h1 => ?_) (fun h1 h2 => ?_) (fun h1 h2 => ?_) (fun h1 h2 => h1 ?_) hc
  · obtain ⟨d1, d2⟩ := shelf_drop (fc h1)
    rw [d1] at h1 ⊢
    rw [d2]
    exact one_mul_val' h1
  · have hv : ((one +. one) *. c).Finite := by
      by_contra hn
      exact mul_not_finite_right (add_not_finite_right hn) h2
    obtain ⟨m1, m2, m3, m4⟩ := minus_plus hv
    have t := mul_one_val (L := L) two_val.1
    refine (mul_val_of_eq (neg_finite.mpr two_val.1) m3 t.1 m1 ?_ h2).symm
    rw [m2, m4, t.2.2, neg_toReal]
    ring
  · obtain ⟨d1, d2⟩ := shelf_drop (fc h1)
    rw [d1] at h2 ⊢
    rw [d2]
    exact one_mul_val' h2
  · obtain ⟨d1, d2⟩ := shelf_drop (fc' h2)
    rw [d2] at h2
    rw [d1]
    by_contra hn
    exact mul_not_finite_right hn h2

private theorem high_even (hP : PowZero L) (hp : 7 ≤ f.p) (h : db.Finite) (h0 : db.toReal = 0) (s : HighShelf (Fl L))
    (hc : (s.setCoefficients sr fr db S).biquad.CoeffsFinite) : Even (s.setCoefficients sr fr db S).biquad := by
  simp only [HighShelf.setCoefficients, factor_one hP hp h h0] at hc ⊢
  generalize two *. sqrt one *. (sin (two *. pi *. fr /. sr) /. two *. sqrt ((one +. one /. one) *. (one /. S -. one) +. two)) = p at hc ⊢
  generalize cos (two *. pi *. fr /. sr) = c at hc ⊢
  have fc : ((one +. one) -. (one -. one) *. c +. p).Finite → c.Finite := by
    intro h1
    by_contra hn
    exact add_not_finite_left (sub_not_finite_of_right (mul_not_finite_right hn)) h1
  have fc' : (one *. ((one +. one) +. (one -. one) *. c +. p)).Finite → c.Finite := by
    intro h1
    by_contra hn
    exact mul_not_finite_right (add_not_finite_left (add_not_finite_right (mul_not_finite_right hn))) h1
  refine even_store (fun h1 => ?_) (fun h1 h2 => ?_) (fun h1 h2 => ?_) (fun h1 h2 => h1 ?_) hc
  · obtain ⟨d1, d2⟩ := shelf_drop (fc h1)
    rw [d2] at h1 ⊢
    rw [d1]
    exact one_mul_val' h1
  · have hv : ((one +. one) *. c).Finite := by
      by_contra hn
      exact mul_not_finite_right (sub_not_finite_of_right hn) h2
    obtain ⟨m1, m2, m3, m4⟩ := minus_plus hv
    have t := mul_one_val (L := L) (neg_finite.mpr two_val.1)
    refine (mul_val_of_eq two_val.1 m1 t.1 m3 ?_ h2).symm
    rw [m2, m4, t.2.2, neg_toReal]
    ring
  · obtain ⟨d1, d2⟩ := shelf_drop (fc h1)
    rw [d2] at h2 ⊢
    rw [d1]
    exact one_mul_val' h2
  · obtain ⟨d1, d2⟩ := shelf_drop (fc' h2)
    rw [d1] at h2
    rw [d2]
    by_contra hn
    exact mul_not_finite_right hn h2

/-! ## The filters -/

private theorem copies_of {σ : Type} [Processor σ (Fl L)] {s : σ} {c : Biquad2 (Fl L)} (hs : ∀ b x y, Responds b s x y ↔ Responds b c x y)
    (h : Even c) {x : ℕ → Fl L} (hx : c.Fits x) : Copies s x := by
  refine ⟨fun b => ?_, fun b y hr => h.copies hx ((hs b x y).mp hr)⟩
  obtain ⟨y, hy⟩ := NeverPanics.responds (σ := Biquad2 (Fl L)) (fun _ _ _ => ⟨_, _, rfl⟩) b c x
  exact ⟨y, (hs b x y).mpr hy⟩

section
variable (hP : PowZero L) (hp : 7 ≤ f.p) (hdb : db.Finite) (h0 : db.toReal = 0)
include hP hp hdb h0

/-- **C164**: with a gain of 0 dB, and any other settings that give finite coefficients, `Peak` passes on every sample as it is. -/
theorem C164_peak (s : Peak (Fl L)) (hc : (s.setCoefficients sr fr db q).biquad.CoeffsFinite) (x : ℕ → Fl L)
    (hx : (s.setCoefficients sr fr db q).biquad.Fits x) : Copies (s.setCoefficients sr fr db q) x :=
  copies_of (fun _ _ _ => Peak.responds_iff _) (peak_even hP hp hdb h0 s hc) hx

/-- **C164**: and so does `LowShelf`. -/
theorem C164_lowShelf (s : LowShelf (Fl L)) (hc : (s.setCoefficients sr fr db S).biquad.CoeffsFinite) (x : ℕ → Fl L)
    (hx : (s.setCoefficients sr fr db S).biquad.Fits x) : Copies (s.setCoefficients sr fr db S) x :=
  copies_of (fun _ _ _ => LowShelf.responds_iff _) (low_even hP hp hdb h0 s hc) hx

/-- **C164**: and so does `HighShelf`. -/
theorem C164_highShelf (s : HighShelf (Fl L)) (hc : (s.setCoefficients sr fr db S).biquad.CoeffsFinite) (x : ℕ → Fl L)
    (hx : (s.setCoefficients sr fr db S).biquad.Fits x) : Copies (s.setCoefficients sr fr db S) x :=
  copies_of (fun _ _ _ => HighShelf.responds_iff _) (high_even hP hp hdb h0 s hc) hx

end

/-- **C164**: a whole equalizer of bands at 0 dB. -/
theorem C164_equalizer (hP : PowZero L) (hp : 7 ≤ f.p) (ps : List (FlBand L)) (x : ℕ → Fl L) (hd : ∀ p ∈ ps, p.db.Finite ∧ p.db.toReal = 0)
    (hc : ∀ p ∈ ps, (p.biquad sr).CoeffsFinite) (hx : ∀ p ∈ ps, (p.biquad sr).Fits x) (hf : ∀ n, (x n).Finite) :
    (∀ b, ∃ z, FlEqualizer b sr ps x z) ∧ ∀ b z, FlEqualizer b sr ps x z → ∀ n, (z n).Same (x n) := by
  have one_band : ∀ p : FlBand L, p.db.Finite ∧ p.db.toReal = 0 → (p.biquad sr).CoeffsFinite → ∀ x, (p.biquad sr).Fits x →
      (∀ b, ∃ y, p.Answers b sr x y) ∧ ∀ b y, p.Answers b sr x y → ∀ n, (y n).Same (x n) := by
    intro p h0 h1 x h2
    cases p with
    | peak s fr db q => exact C164_peak hP hp h0.1 h0.2 s h1 x h2
    | low s fr db S => exact C164_lowShelf hP hp h0.1 h0.2 s h1 x h2
    | high s fr db S => exact C164_highShelf hP hp h0.1 h0.2 s h1 x h2
  have same_val : ∀ {u v : Fl L}, u.Same v → v.Finite → Val u v := by
    rintro u v (h | ⟨s, -, rfl⟩ | h) hv
    · exact (h.2.not_finite hv).elim
    · exact hv.elim
    · exact h
  have fits : ∀ {c : Biquad2 (Fl L)} {x y : ℕ → Fl L}, c.CoeffsFinite → c.Fits x → (∀ n, Val (y n) (x n)) → c.Fits y := by
    intro c x y h1 h2 h3 n
    exact ⟨(h3 n).1, (val_mul ⟨h1.2.2.2.1, h1.2.2.2.1, rfl⟩ (h3 n).symm (h2 n).2.1).2.1,
      (val_mul ⟨h1.2.2.2.2, h1.2.2.2.2, rfl⟩ (h3 n).symm (h2 n).2.2).2.1⟩
  induction ps generalizing x with
  | nil =>
    refine ⟨fun b => ⟨x, rfl⟩, ?_⟩
    rintro b z rfl n
    exact .inr (.inr ⟨hf n, hf n, rfl⟩)
  | cons p ps ih =>
    obtain ⟨t, c⟩ := one_band p (hd p (by simp)) (hc p (by simp)) x (hx p (by simp))
    have rest : ∀ {b y}, p.Answers b sr x y → (∀ b, ∃ z, FlEqualizer b sr ps y z) ∧ ∀ b z, FlEqualizer b sr ps y z → ∀ n, (z n).Same (y n) := by
      intro b y hy
      have hv : ∀ n, Val (y n) (x n) := fun n => same_val (c b y hy n) (hf n)
      exact ih y (fun p' h => hd p' (by simp [h])) (fun p' h => hc p' (by simp [h]))
        (fun p' h => fits (hc p' (by simp [h])) (hx p' (by simp [h])) hv) (fun n => (hv n).1)
    constructor
    · intro b
      obtain ⟨y, hy⟩ := t b
      obtain ⟨z, hz⟩ := (rest hy).1 b
      exact ⟨z, y, hy, hz⟩
    · rintro b z ⟨y, hy, hz⟩ n
      have v1 := same_val (c b y hy n) (hf n)
      have v2 := same_val ((rest hy).2 b z hz n) v1.1
      exact .inr (.inr (v2.trans v1))

end Rasp
