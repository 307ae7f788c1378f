import Verif.Spec.Undo
import Verif.Props.Filters

/-!
# C91: filters that undo each other (exact arithmetic)
-/

namespace Rasp

section
variable {σ τ : Type} [Processor σ ℝ] [Processor τ ℝ]

theorem SolvesDiff.swap {b0 b1 b2 a1 a2 : ℝ} (h0 : b0 ≠ 0) {x y : ℕ → ℝ} (h : SolvesDiff b0 b1 b2 a1 a2 x y) :
    SolvesDiff (1 / b0) (a1 / b0) (a2 / b0) (b1 / b0) (b2 / b0) y x := by
  intro n
  rw [h n]
  field_simp
  ring

/-- Swapping numerator and denominator, both divided by `b0`. -/
theorem Implements.undoes {s : σ} {t : τ} {b0 b1 b2 a1 a2 c0 c1 c2 d1 d2 : ℝ} (h0 : b0 ≠ 0) (hs : Implements s b0 b1 b2 a1 a2)
    (ht : Implements t c0 c1 c2 d1 d2) (e0 : c0 = 1 / b0) (e1 : c1 = a1 / b0) (e2 : c2 = a2 / b0) (e3 : d1 = b1 / b0)
    (e4 : d2 = b2 / b0) (b : Build) : Undoes b s t := by
  subst e0 e1 e2 e3 e4
  exact ⟨hs.from.total b, fun x y h => (ht b y x).2 (((hs b x y).1 h).swap h0)⟩

/-- A filter whose first coefficient is zero has lost something no later processor can restore in time. -/
theorem Implements.not_undoes {s : σ} {b1 b2 a1 a2 : ℝ} (hs : Implements s 0 b1 b2 a1 a2) (b : Build) (t : τ) : ¬ Undoes b s t := by
  intro h
  obtain ⟨y, hy⟩ := hs.from.total b (fun _ => 0)
  obtain ⟨z, hz⟩ := hs.from.total b (fun _ => 1)
  obtain ⟨u, hu0, hu⟩ := h.2 _ _ hy
  obtain ⟨v, hv0, hv⟩ := h.2 _ _ hz
  have e1 : y 0 = 0 := by have := (hs b _ _).1 hy 0; simpa [lag] using this
  have e2 : z 0 = 0 := by have := (hs b _ _).1 hz 0; simpa [lag] using this
  have p := hu 0
  have q := hv 0
  rw [hu0, e1] at p
  rw [hv0, e2, p] at q
  simp at q

end

/-- **C91**. A one-pole filter undoes a one-zero filter and the other way round, and the same for two poles and two
zeros: the coefficients are those of the other filter divided by its `b0`. -/
theorem C91_poles_and_zeros (b : Build) (b0 c1 c2 : ℝ) (h0 : b0 ≠ 0) :
    Undoes b (OneZero.new.setCoefficients b0 c1) (OnePole.new.setCoefficients (1 / b0) (c1 / b0)) ∧
    Undoes b (OnePole.new.setCoefficients b0 c1) (OneZero.new.setCoefficients (1 / b0) (c1 / b0)) ∧
    Undoes b (TwoZero.new.setCoefficients b0 c1 c2) (TwoPole.new.setCoefficients (1 / b0) (c1 / b0) (c2 / b0)) ∧
    Undoes b (TwoPole.new.setCoefficients b0 c1 c2) (TwoZero.new.setCoefficients (1 / b0) (c1 / b0) (c2 / b0)) := by
  have P1 := fun p q => (C30_new_solve_difference_equation p 0 0 q 0).1
  have Z1 := fun p q => (C30_new_solve_difference_equation p q 0 0 0).2.1
  have P2 := fun p q r => (C30_new_solve_difference_equation p 0 0 q r).2.2.1
  have Z2 := fun p q r => (C30_new_solve_difference_equation p q r 0 0).2.2.2.1
  refine ⟨(Z1 _ _).undoes h0 (P1 _ _) ?_ ?_ ?_ ?_ ?_ b, (P1 _ _).undoes h0 (Z1 _ _) ?_ ?_ ?_ ?_ ?_ b,
    (Z2 _ _ _).undoes h0 (P2 _ _ _) ?_ ?_ ?_ ?_ ?_ b, (P2 _ _ _).undoes h0 (Z2 _ _ _) ?_ ?_ ?_ ?_ ?_ b⟩ <;> simp

/-- **C91**. A biquad with numerator and denominator exchanged, both divided by `b0`, undoes a biquad, in either form. -/
theorem C91_biquads (b : Build) (b0 b1 b2 a1 a2 : ℝ) (h0 : b0 ≠ 0) :
    Undoes b (Biquad1.new.setCoefficients b0 b1 b2 a1 a2)
      (Biquad1.new.setCoefficients (1 / b0) (a1 / b0) (a2 / b0) (b1 / b0) (b2 / b0)) ∧
    Undoes b (Biquad2.new.setCoefficients b0 b1 b2 a1 a2)
      (Biquad2.new.setCoefficients (1 / b0) (a1 / b0) (a2 / b0) (b1 / b0) (b2 / b0)) ∧
    Undoes b (Biquad1.new.setCoefficients b0 b1 b2 a1 a2)
      (Biquad2.new.setCoefficients (1 / b0) (a1 / b0) (a2 / b0) (b1 / b0) (b2 / b0)) ∧
    Undoes b (Biquad2.new.setCoefficients b0 b1 b2 a1 a2)
      (Biquad1.new.setCoefficients (1 / b0) (a1 / b0) (a2 / b0) (b1 / b0) (b2 / b0)) := by
  have B := C30_new_solve_difference_equation b0 b1 b2 a1 a2
  have C := C30_new_solve_difference_equation (1 / b0) (a1 / b0) (a2 / b0) (b1 / b0) (b2 / b0)
  exact ⟨B.2.2.2.2.1.undoes h0 C.2.2.2.2.1 rfl rfl rfl rfl rfl b, B.2.2.2.2.2.undoes h0 C.2.2.2.2.2 rfl rfl rfl rfl rfl b,
    B.2.2.2.2.1.undoes h0 C.2.2.2.2.2 rfl rfl rfl rfl rfl b, B.2.2.2.2.2.undoes h0 C.2.2.2.2.1 rfl rfl rfl rfl rfl b⟩

/-- **C91**. With `b0 = 0` no processor of any type, in any state, undoes the filter. -/
theorem C91_needs_b0 (b : Build) (b1 b2 a1 a2 : ℝ) {τ : Type} [Processor τ ℝ] (t : τ) :
    ¬ Undoes b (OnePole.new.setCoefficients (0 : ℝ) a1) t ∧ ¬ Undoes b (OneZero.new.setCoefficients (0 : ℝ) b1) t ∧
    ¬ Undoes b (TwoPole.new.setCoefficients (0 : ℝ) a1 a2) t ∧ ¬ Undoes b (TwoZero.new.setCoefficients (0 : ℝ) b1 b2) t ∧
    ¬ Undoes b (Biquad1.new.setCoefficients (0 : ℝ) b1 b2 a1 a2) t ∧ ¬ Undoes b (Biquad2.new.setCoefficients (0 : ℝ) b1 b2 a1 a2) t := by
  obtain ⟨h1, h2, h3, h4, h5, h6⟩ := C30_new_solve_difference_equation 0 b1 b2 a1 a2
  exact ⟨h1.not_undoes b t, h2.not_undoes b t, h3.not_undoes b t, h4.not_undoes b t, h5.not_undoes b t, h6.not_undoes b t⟩

/-- The hypotheses are met, by a differencer whose undoing is a running sum: what goes in comes out, and in between
there is something else. -/
example (b : Build) : Undoes b (OneZero.new.setCoefficients (1 : ℝ) (-1)) (OnePole.new.setCoefficients (1 : ℝ) (-1)) ∧
    ∃ y, Responds b (OneZero.new.setCoefficients (1 : ℝ) (-1)) (fun n => (n : ℝ) + 1) y ∧ y 1 = 1 := by
  constructor
  · simpa using (C91_poles_and_zeros b 1 (-1) 0 one_ne_zero).1
  · refine ⟨fun _ => 1, ((C30_new_solve_difference_equation 1 (-1) 0 0 0).2.1 b _ _).2 fun n => ?_, rfl⟩
    rcases n with - | n
    · norm_num [lag]
    · simp [lag]

end Rasp
