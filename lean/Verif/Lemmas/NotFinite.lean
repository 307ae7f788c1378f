import Verif.Lemmas.WindowsFl

/-! # Operations that leave the finite numbers -/

namespace Rasp
open FloatOps
namespace Fl
variable {f : Fmt} {L : Libm f}

theorem div_nan_right {x y : Fl L} (h : y.IsNaN) : (x /. y).IsNaN := by
  obtain ⟨s, rfl⟩ := isNaN_iff.mp h
  show FP.IsNaN (FP.div (f := f) x (FP.nan s))
  cases x <;> trivial

theorem mul_not_finite_left {x y : Fl L} (h : ¬ x.Finite) : ¬ (x *. y).Finite := by
  rcases not_finite_cases h with hn | ⟨s, rfl⟩
  · exact (mul_nan_left hn).not_finite
  · show ¬ FP.Finite (FP.mul (f := f) (FP.inf s) y)
    cases y with
    | nan => exact id
    | inf => exact id
    | fin t a ha =>
      simp only [FP.mul]
      split <;> exact id

theorem div_not_finite_left {x y : Fl L} (h : ¬ x.Finite) : ¬ (x /. y).Finite := by
  rcases not_finite_cases h with hn | ⟨s, rfl⟩
  · exact (div_nan_left hn).not_finite
  · show ¬ FP.Finite (FP.div (f := f) (FP.inf s) y)
    cases y <;> exact id

/-- A quotient of numbers that are both not finite is NaN. -/
theorem div_not_finite_both {x y : Fl L} (hx : ¬ x.Finite) (hy : ¬ y.Finite) : (x /. y).IsNaN := by
  rcases not_finite_cases hx with hn | ⟨s, rfl⟩
  · exact div_nan_left hn
  · rcases not_finite_cases hy with hn | ⟨t, rfl⟩
    · exact div_nan_right hn
    · exact trivial

/-- Nothing divided by zero is finite. -/
theorem div_zero_not_finite {x y : Fl L} (hy : y.Finite) (h0 : y.toReal = 0) : ¬ (x /. y).Finite := by
  obtain ⟨t, c, hc, rfl⟩ := FP.finite_cases hy
  have c0 : c = 0 := by
    have : (if t then -c else c) = 0 := h0
    cases t <;> simpa using this
  subst c0
  show ¬ FP.Finite (FP.div (f := f) x _)
  cases x with
  | nan => exact id
  | inf => exact id
  | fin s a ha =>
    simp only [FP.div, if_true]
    split <;> exact id

theorem sqrt_not_finite {x : Fl L} (h : ¬ x.Finite) : ¬ (FloatOps.sqrt x).Finite := by
  rcases not_finite_cases h with hn | ⟨s, rfl⟩
  · obtain ⟨s, rfl⟩ := isNaN_iff.mp hn
    exact id
  · show ¬ FP.Finite (FP.sqrt (f := f) (FP.inf s))
    cases s <;> exact id

theorem sub_not_finite_of_right {x y : Fl L} (h : ¬ y.Finite) : ¬ (x -. y).Finite :=
  add_not_finite_right (x := x) (y := FloatOps.neg y) (fun h' => h (neg_finite.mp h'))

/-- A finite number divided by an infinity is a zero. -/
theorem div_inf_val {x : Fl L} (hx : x.Finite) (s : Bool) : (x /. inf L s).Finite ∧ (x /. inf L s).toReal = 0 := by
  obtain ⟨t, a, ha, rfl⟩ := FP.finite_cases hx
  exact FP.ofReal_zero _

theorem div_zero_inf {x y : Fl L} (hx : x.Finite) (hx0 : x.toReal ≠ 0) (hy : y.Finite) (hy0 : y.toReal = 0) : ∃ s, x /. y = inf L s := by
  obtain ⟨s, a, ha, rfl⟩ := FP.finite_cases hx
  obtain ⟨t, c, hc, rfl⟩ := FP.finite_cases hy
  have a0 : a ≠ 0 := by
    rintro rfl
    apply hx0
    show (if s then -(0 : ℝ) else 0) = 0
    cases s <;> simp
  have c0 : c = 0 := by
    have : (if t then -c else c) = 0 := hy0
    cases t <;> simpa using this
  subst c0
  refine ⟨s != t, ?_⟩
  show FP.div (f := f) _ _ = FP.inf _
  simp only [FP.div, a0, if_true, if_false]

theorem add_inf {x : Fl L} (hx : x.Finite) (s : Bool) : x +. inf L s = inf L s := by
  obtain ⟨t, a, ha, rfl⟩ := FP.finite_cases hx
  rfl

theorem neg_not_finite {x : Fl L} (h : ¬ x.Finite) : ¬ (FloatOps.neg x).Finite := fun h' => h (neg_finite.mp h')

/-! ## Bounds that survive overflow -/

/-- At most `c`, minus infinity, or NaN. -/
def Below (c : ℝ) (x : Fl L) : Prop := x.IsNaN ∨ x = inf L true ∨ (x.Finite ∧ x.toReal ≤ c)

/-- At least `c`, infinity, or NaN. -/
def Above (c : ℝ) (x : Fl L) : Prop := x.IsNaN ∨ x = inf L false ∨ (x.Finite ∧ c ≤ x.toReal)

theorem below_ofReal {c v : ℝ} {s : Bool} (hc : IsRep f c) (h0 : c < 0) (h : v ≤ c) : Below (L := L) c (FP.ofReal f s v) := by
  by_cases ho : FP.NoOvf f v
  · obtain ⟨h1, h2⟩ := FP.ofReal_of_noOvf (s := s) ho
    refine .inr (.inr ⟨h1, ?_⟩)
    have := rnd_mono (f := f) h
    rw [rnd_of_isRep hc] at this
    exact le_of_eq_of_le h2 this
  · refine .inr (.inl ?_)
    rw [FP.ofReal_of_ovf ho, decide_eq_true (by linarith)]
    rfl

theorem above_ofReal {c v : ℝ} {s : Bool} (hc : IsRep f c) (h0 : 0 ≤ c) (h : c ≤ v) : Above (L := L) c (FP.ofReal f s v) := by
  by_cases ho : FP.NoOvf f v
  · obtain ⟨h1, h2⟩ := FP.ofReal_of_noOvf (s := s) ho
    refine .inr (.inr ⟨h1, ?_⟩)
    have := rnd_mono (f := f) h
    rw [rnd_of_isRep hc] at this
    exact le_of_le_of_eq this h2.symm
  · refine .inr (.inl ?_)
    rw [FP.ofReal_of_ovf ho, decide_eq_false (by linarith)]
    rfl

theorem Below.sqrt_nan {x : Fl L} {c : ℝ} (hc : c < 0) (h : Below c x) : (FloatOps.sqrt x).IsNaN := by
  rcases h with h | rfl | ⟨h1, h2⟩
  · obtain ⟨s, rfl⟩ := isNaN_iff.mp h
    exact trivial
  · exact trivial
  · obtain ⟨s, a, ha, rfl⟩ := FP.finite_cases h1
    have h3 : (if s then -a else a) ≤ c := h2
    show FP.IsNaN (FP.sqrt (f := f) (FP.fin s a ha))
    cases s
    · simp only [Bool.false_eq_true, if_false] at h3
      linarith [ha.1]
    · simp only [if_true] at h3
      have : a ≠ 0 := by linarith
      simp only [FP.sqrt, this, if_false, if_true]
      exact trivial

theorem Below.add {x y : Fl L} {c d : ℝ} (hx : Below c x) (hy : y.Finite) (hr : IsRep f d) (hd : d < 0) (h : c + y.toReal ≤ d) :
    Below d (x +. y) := by
  rcases hx with hx | rfl | ⟨h1, h2⟩
  · exact .inl (add_nan_left hx)
  · obtain ⟨t, b, hb, rfl⟩ := FP.finite_cases hy
    exact .inr (.inl rfl)
  · show Below (L := L) d (FP.add (f := f) x y)
    rw [FP.add_fin h1 hy]
    refine below_ofReal hr hd ?_
    have : x.toReal + y.toReal ≤ d := by linarith
    exact this

theorem Below.sub {x y : Fl L} {c d : ℝ} (hx : Below c x) (hy : y.Finite) (hr : IsRep f d) (hd : d < 0) (h : c - y.toReal ≤ d) :
    Below d (x -. y) :=
  Below.add (y := FloatOps.neg y) hx (neg_finite.mpr hy) hr hd (by rw [neg_toReal]; linarith)

theorem Above.mul_below {x y : Fl L} {m k : ℝ} (hm : 0 < m) (hk : 0 < k) (hr : IsRep f (-(m * k))) (hx : Above m x) (hy : Below (-k) y) :
    Below (-(m * k)) (x *. y) := by
  rcases hx with hx | rfl | ⟨x1, x2⟩
  · exact .inl (mul_nan_left hx)
  · rcases hy with hy | rfl | ⟨y1, y2⟩
    · exact .inl (mul_nan_right hy)
    · exact .inr (.inl rfl)
    · obtain ⟨t, b, hb, rfl⟩ := FP.finite_cases y1
      have h3 : (if t then -b else b) ≤ -k := y2
      refine .inr (.inl ?_)
      show FP.mul (f := f) (FP.inf false) (FP.fin t b hb) = FP.inf true
      cases t
      · simp only [Bool.false_eq_true, if_false] at h3
        linarith [hb.1]
      · simp only [if_true] at h3
        have : b ≠ 0 := by linarith
        simp [FP.mul, this]
  · rcases hy with hy | rfl | ⟨y1, y2⟩
    · exact .inl (mul_nan_right hy)
    · obtain ⟨t, b, hb, rfl⟩ := FP.finite_cases x1
      have h3 : m ≤ (if t then -b else b) := x2
      refine .inr (.inl ?_)
      show FP.mul (f := f) (FP.fin t b hb) (FP.inf true) = FP.inf true
      cases t
      · simp only [Bool.false_eq_true, if_false] at h3
        have : b ≠ 0 := by linarith
        simp [FP.mul, this]
      · simp only [if_true] at h3
        linarith [hb.1]
    · show Below (L := L) (-(m * k)) (FP.mul (f := f) x y)
      rw [FP.mul_fin x1 y1]
      refine below_ofReal hr (by nlinarith) ?_
      have : x.toReal * y.toReal ≤ -(m * k) := by nlinarith
      exact this

/-- `a + 1/a`. -/
theorem above_add_inv {a : Fl L} {m : ℝ} (ha : a.Finite) (h0 : 0 < a.toReal) (hr : IsRep f m) (hm : 0 ≤ m)
    (h : m ≤ a.toReal + rnd f (1 / a.toReal)) : Above m (a +. one /. a) := by
  have e : one /. a = FP.ofReal f (FP.signBit (f := f) (one : Fl L) != FP.signBit (f := f) a) (1 / a.toReal) := by
    show FP.div (f := f) (one : Fl L) a = _
    rw [FP.div_fin (one_finite (L := L)) ha h0.ne']
    have : FP.toReal (f := f) (one : Fl L) = 1 := one_toReal (L := L)
    rw [this]
    rfl
  by_cases ho : FP.NoOvf f (1 / a.toReal)
  · obtain ⟨h1, h2⟩ := div_val (one_finite (L := L)) ha h0.ne' (by rwa [one_toReal])
    rw [one_toReal] at h2
    show Above (L := L) m (FP.add (f := f) a (one /. a : Fl L))
    rw [FP.add_fin ha h1]
    refine above_ofReal hr hm ?_
    have : m ≤ a.toReal + (one /. a).toReal := by rw [h2]; exact h
    exact this
  · rw [FP.ofReal_of_ovf ho, decide_eq_false (not_lt.mpr (by positivity))] at e
    rw [e]
    obtain ⟨t, b, hb, rfl⟩ := FP.finite_cases ha
    exact .inr (.inl rfl)

/-- `1/s - 1`. -/
theorem below_inv_sub {s : Fl L} {c d : ℝ} (hs : s.Finite) (h0 : s.toReal ≠ 0) (hr : IsRep f c) (hc : c < 0) (hd : IsRep f d) (hdn : d < 0)
    (h : 1 / s.toReal ≤ c) (hcd : c - 1 ≤ d) : Below d (one /. s -. one) := by
  refine Below.sub (c := c) ?_ one_finite hd hdn (by rw [one_toReal]; exact hcd)
  show Below (L := L) c (FP.div (f := f) (one : Fl L) s)
  rw [FP.div_fin (one_finite (L := L)) hs h0]
  refine below_ofReal hr hc ?_
  have : FP.toReal (f := f) (one : Fl L) = 1 := one_toReal (L := L)
  rw [this]
  exact h

end Fl
end Rasp
