import Verif.Lemmas.NotAbove
import Verif.Model.Filters
import Verif.Props.DbError
import Verif.Props.LinearClose
import Verif.Props.Feedback
import Verif.Props.Feedback
import Verif.Props.LinearClose

/-!
# C142: order in floating point
-/

namespace Rasp
open FloatOps
variable {f : Fmt} {L : Libm f} {b : Build}

section step
variable {σ : Type} [Processor σ (Fl L)]

/-- A relation of samples that one step keeps, together with a relation of states, is kept by whole streams. -/
def StepKeeps (r : Fl L → Fl L → Prop) (R : σ → σ → Prop) : Prop :=
  ∀ b s t x x' s' t' y y', R s t → Processor.process b s x = .ok (s', y) → Processor.process b t x' = .ok (t', y') →
    r x x' → r y y' ∧ R s' t'

theorem StepKeeps.streams {r : Fl L → Fl L → Prop} {R : σ → σ → Prop} (step : StepKeeps r R) {s t : σ} (h : R s t) {x x' y y' : ℕ → Fl L}
    (hy : Responds b s x y) (hy' : Responds b t x' y') (hx : ∀ n, r (x n) (x' n)) (n : ℕ) : r (y n) (y' n) := by
  obtain ⟨st, h0, hst⟩ := hy
  obtain ⟨st', h0', hst'⟩ := hy'
  have key : ∀ n, R (st n) (st' n) := by
    intro n
    induction n with
    | zero => rw [h0, h0']; exact h
    | succ n ih => exact (step b _ _ _ _ _ _ _ _ ih (hst n) (hst' n) (hx n)).2
  exact (step b _ _ _ _ _ _ _ _ (key n) (hst n) (hst' n) (hx n)).1

theorem StepKeeps.inOrder {R : σ → σ → Prop} (step : StepKeeps Fl.NotAbove R) (ht : NeverPanics (T := Fl L) σ) {s t : σ} (h : R s t) :
    InOrder s t :=
  ⟨fun b x => ht.responds b s x, fun b x => ht.responds b t x, fun _ _ _ _ _ hy hy' hx n => step.streams h hy hy' hx n⟩

theorem StepKeeps.dominates {R : σ → σ → Prop} (step : StepKeeps Fl.DominatedBy R) {s t : σ} (h : R s t) : Dominates t s :=
  fun _ _ _ _ _ hy hy' hx n => step.streams h hy hy' hx n

/-- A sequence of numbers each of which is dominated by the next one. -/
theorem rises_of_next {y : ℕ → Fl L} (key : ∀ n, (y n).DominatedBy (y (n + 1))) :
    (∀ n, (y n).NotAbove (y (n + 1))) ∧ ∃ N, (∀ n, N ≤ n → ¬ (y n).Finite) ∨ ∀ n, N ≤ n → (y n).Finite ∧ (y n).toReal = (y N).toReal := by
  refine ⟨fun n _ hf => (le_abs_self _).trans (key n hf).2, ?_⟩
  by_cases hall : ∀ n, (y n).Finite
  · obtain ⟨N, hN⟩ := freezes (y := y) fun n => (le_abs_self _).trans (key n (hall _)).2
    exact ⟨N, .inr fun n hn => ⟨hall n, hN n hn⟩⟩
  · push Not at hall
    obtain ⟨N, hN⟩ := hall
    refine ⟨N, .inl fun n hn => ?_⟩
    induction n, hn using Nat.le_induction with
    | base => exact hN
    | succ n hn ih => exact fun hf => ih (key n hf).1

/-- If the state after the first sample of a constant dominates the first state, the output rises and freezes. -/
theorem rises_of_dominates {s : σ}
    (h : ∀ b (c : Fl L) s' y, c.DominatedBy c → Processor.process b s c = .ok (s', y) → Dominates (L := L) s' s) :
    RisesAndFreezes (L := L) s := by
  intro b c y hc h0 hy
  have hc' : c.DominatedBy c := fun _ => ⟨hc, (_root_.abs_of_nonneg h0).le⟩
  obtain ⟨st, e0, hst⟩ := hy
  have h1 := hst 0
  rw [e0] at h1
  exact rises_of_next (h b c _ _ hc' h1 b (fun _ => c) (fun _ => c) y (fun n => y (n + 1)) ⟨st, e0, hst⟩
    ⟨fun n => st (n + 1), rfl, fun n => hst (n + 1)⟩ fun _ => hc')

end step

/-! ## Filters without negative weights

`b` coefficients at least 0 and `a` coefficients at most 0 (the code subtracts the feedback). -/

/-- No negative weights. -/
def OnePole.NonNeg (s : OnePole (Fl L)) : Prop :=
  0 ≤ s.b0.toReal ∧ s.a1.toReal ≤ 0

/-- The same coefficients, memories related by `r`. -/
def OnePole.Rel (r : Fl L → Fl L → Prop) (s t : OnePole (Fl L)) : Prop :=
  t.b0 = s.b0 ∧ t.a1 = s.a1 ∧ r s.y_z1 t.y_z1

/-- No negative weights. -/
def OneZero.NonNeg (s : OneZero (Fl L)) : Prop :=
  0 ≤ s.b0.toReal ∧ 0 ≤ s.b1.toReal

/-- The same coefficients, memories related by `r`. -/
def OneZero.Rel (r : Fl L → Fl L → Prop) (s t : OneZero (Fl L)) : Prop :=
  t.b0 = s.b0 ∧ t.b1 = s.b1 ∧ r s.x_z1 t.x_z1

/-- No negative weights. -/
def TwoPole.NonNeg (s : TwoPole (Fl L)) : Prop :=
  0 ≤ s.b0.toReal ∧ s.a1.toReal ≤ 0 ∧ s.a2.toReal ≤ 0

/-- The same coefficients, memories related by `r`. -/
def TwoPole.Rel (r : Fl L → Fl L → Prop) (s t : TwoPole (Fl L)) : Prop :=
  t.b0 = s.b0 ∧ t.a1 = s.a1 ∧ t.a2 = s.a2 ∧ r s.y_z1 t.y_z1 ∧ r s.y_z2 t.y_z2

/-- No negative weights. -/
def TwoZero.NonNeg (s : TwoZero (Fl L)) : Prop :=
  0 ≤ s.b0.toReal ∧ 0 ≤ s.b1.toReal ∧ 0 ≤ s.b2.toReal

/-- The same coefficients, memories related by `r`. -/
def TwoZero.Rel (r : Fl L → Fl L → Prop) (s t : TwoZero (Fl L)) : Prop :=
  t.b0 = s.b0 ∧ t.b1 = s.b1 ∧ t.b2 = s.b2 ∧ r s.x_z1 t.x_z1 ∧ r s.x_z2 t.x_z2

/-- No negative weights. -/
def Biquad1.NonNeg (s : Biquad1 (Fl L)) : Prop :=
  0 ≤ s.b0.toReal ∧ 0 ≤ s.b1.toReal ∧ 0 ≤ s.b2.toReal ∧ s.a1.toReal ≤ 0 ∧ s.a2.toReal ≤ 0

/-- The same coefficients, memories related by `r`. -/
def Biquad1.Rel (r : Fl L → Fl L → Prop) (s t : Biquad1 (Fl L)) : Prop :=
  t.b0 = s.b0 ∧ t.b1 = s.b1 ∧ t.b2 = s.b2 ∧ t.a1 = s.a1 ∧ t.a2 = s.a2 ∧ r s.x_z1 t.x_z1 ∧ r s.x_z2 t.x_z2 ∧ r s.y_z1 t.y_z1 ∧ r s.y_z2 t.y_z2

/-- No negative weights. -/
def Biquad2.NonNeg (s : Biquad2 (Fl L)) : Prop :=
  0 ≤ s.b0.toReal ∧ 0 ≤ s.b1.toReal ∧ 0 ≤ s.b2.toReal ∧ s.a1.toReal ≤ 0 ∧ s.a2.toReal ≤ 0

/-- The same coefficients, memories related by `r`. -/
def Biquad2.Rel (r : Fl L → Fl L → Prop) (s t : Biquad2 (Fl L)) : Prop :=
  t.b0 = s.b0 ∧ t.b1 = s.b1 ∧ t.b2 = s.b2 ∧ t.a1 = s.a1 ∧ t.a2 = s.a2 ∧ r s.z1 t.z1 ∧ r s.z2 t.z2

theorem OnePole.stepKeeps {r : Fl L → Fl L → Prop} (C : Fl.Cone r) :
    StepKeeps r (fun s t : OnePole (Fl L) => s.NonNeg ∧ s.Rel r t) := by
  rintro b ⟨⟩ ⟨⟩ x x' s' t' y y' ⟨⟨pb0, pa1⟩, eb0, ea1, my_z1⟩ hp hp' hx
  obtain ⟨rfl, rfl⟩ := Prod.mk.inj (Except.ok.inj hp)
  obtain ⟨rfl, rfl⟩ := Prod.mk.inj (Except.ok.inj hp')
  dsimp only at *
  subst eb0 ea1
  have key := C.sub_mul pa1 (C.mul pb0 hx) my_z1
  exact ⟨key, ⟨pb0, pa1⟩, rfl, rfl, key⟩

theorem OnePole.clear_self {s : OnePole (Fl L)} (h : s.NonNeg) : s.clear.NonNeg ∧ s.clear.Rel Fl.DominatedBy s.clear :=
  ⟨h, rfl, rfl, Fl.zero_dominated⟩

theorem OnePole.rises {s : OnePole (Fl L)} (h : s.NonNeg) : RisesAndFreezes s.clear := by
  refine rises_of_dominates fun b c s' y hc hp => (OnePole.stepKeeps Fl.cone_dominatedBy).dominates ⟨h, ?_⟩
  obtain ⟨-, -, -, my_z1⟩ := (OnePole.stepKeeps Fl.cone_dominatedBy b _ _ _ _ _ _ _ _ (clear_self h) hp hp hc).2
  obtain ⟨rfl, rfl⟩ := Prod.mk.inj (Except.ok.inj hp)
  exact ⟨rfl, rfl, my_z1.zero_of_self⟩

theorem OneZero.stepKeeps {r : Fl L → Fl L → Prop} (C : Fl.Cone r) :
    StepKeeps r (fun s t : OneZero (Fl L) => s.NonNeg ∧ s.Rel r t) := by
  rintro b ⟨⟩ ⟨⟩ x x' s' t' y y' ⟨⟨pb0, pb1⟩, eb0, eb1, mx_z1⟩ hp hp' hx
  obtain ⟨rfl, rfl⟩ := Prod.mk.inj (Except.ok.inj hp)
  obtain ⟨rfl, rfl⟩ := Prod.mk.inj (Except.ok.inj hp')
  dsimp only at *
  subst eb0 eb1
  have key := C.add (C.mul pb0 hx) (C.mul pb1 mx_z1)
  exact ⟨key, ⟨pb0, pb1⟩, rfl, rfl, hx⟩

theorem OneZero.clear_self {s : OneZero (Fl L)} (h : s.NonNeg) : s.clear.NonNeg ∧ s.clear.Rel Fl.DominatedBy s.clear :=
  ⟨h, rfl, rfl, Fl.zero_dominated⟩

theorem OneZero.rises {s : OneZero (Fl L)} (h : s.NonNeg) : RisesAndFreezes s.clear := by
  refine rises_of_dominates fun b c s' y hc hp => (OneZero.stepKeeps Fl.cone_dominatedBy).dominates ⟨h, ?_⟩
  obtain ⟨-, -, -, mx_z1⟩ := (OneZero.stepKeeps Fl.cone_dominatedBy b _ _ _ _ _ _ _ _ (clear_self h) hp hp hc).2
  obtain ⟨rfl, rfl⟩ := Prod.mk.inj (Except.ok.inj hp)
  exact ⟨rfl, rfl, mx_z1.zero_of_self⟩

theorem TwoPole.stepKeeps {r : Fl L → Fl L → Prop} (C : Fl.Cone r) :
    StepKeeps r (fun s t : TwoPole (Fl L) => s.NonNeg ∧ s.Rel r t) := by
  rintro b ⟨⟩ ⟨⟩ x x' s' t' y y' ⟨⟨pb0, pa1, pa2⟩, eb0, ea1, ea2, my_z1, my_z2⟩ hp hp' hx
  obtain ⟨rfl, rfl⟩ := Prod.mk.inj (Except.ok.inj hp)
  obtain ⟨rfl, rfl⟩ := Prod.mk.inj (Except.ok.inj hp')
  dsimp only at *
  subst eb0 ea1 ea2
  have key := C.sub_mul pa2 (C.sub_mul pa1 (C.mul pb0 hx) my_z1) my_z2
  exact ⟨key, ⟨pb0, pa1, pa2⟩, rfl, rfl, rfl, key, my_z1⟩

theorem TwoPole.clear_self {s : TwoPole (Fl L)} (h : s.NonNeg) : s.clear.NonNeg ∧ s.clear.Rel Fl.DominatedBy s.clear :=
  ⟨h, rfl, rfl, rfl, Fl.zero_dominated, Fl.zero_dominated⟩

theorem TwoPole.rises {s : TwoPole (Fl L)} (h : s.NonNeg) : RisesAndFreezes s.clear := by
  refine rises_of_dominates fun b c s' y hc hp => (TwoPole.stepKeeps Fl.cone_dominatedBy).dominates ⟨h, ?_⟩
  obtain ⟨-, -, -, -, my_z1, my_z2⟩ := (TwoPole.stepKeeps Fl.cone_dominatedBy b _ _ _ _ _ _ _ _ (clear_self h) hp hp hc).2
  obtain ⟨rfl, rfl⟩ := Prod.mk.inj (Except.ok.inj hp)
  exact ⟨rfl, rfl, rfl, my_z1.zero_of_self, my_z2.zero_of_self⟩

theorem TwoZero.stepKeeps {r : Fl L → Fl L → Prop} (C : Fl.Cone r) :
    StepKeeps r (fun s t : TwoZero (Fl L) => s.NonNeg ∧ s.Rel r t) := by
  rintro b ⟨⟩ ⟨⟩ x x' s' t' y y' ⟨⟨pb0, pb1, pb2⟩, eb0, eb1, eb2, mx_z1, mx_z2⟩ hp hp' hx
  obtain ⟨rfl, rfl⟩ := Prod.mk.inj (Except.ok.inj hp)
  obtain ⟨rfl, rfl⟩ := Prod.mk.inj (Except.ok.inj hp')
  dsimp only at *
  subst eb0 eb1 eb2
  have key := C.add (C.add (C.mul pb0 hx) (C.mul pb1 mx_z1)) (C.mul pb2 mx_z2)
  exact ⟨key, ⟨pb0, pb1, pb2⟩, rfl, rfl, rfl, hx, mx_z1⟩

theorem TwoZero.clear_self {s : TwoZero (Fl L)} (h : s.NonNeg) : s.clear.NonNeg ∧ s.clear.Rel Fl.DominatedBy s.clear :=
  ⟨h, rfl, rfl, rfl, Fl.zero_dominated, Fl.zero_dominated⟩

theorem TwoZero.rises {s : TwoZero (Fl L)} (h : s.NonNeg) : RisesAndFreezes s.clear := by
  refine rises_of_dominates fun b c s' y hc hp => (TwoZero.stepKeeps Fl.cone_dominatedBy).dominates ⟨h, ?_⟩
  obtain ⟨-, -, -, -, mx_z1, mx_z2⟩ := (TwoZero.stepKeeps Fl.cone_dominatedBy b _ _ _ _ _ _ _ _ (clear_self h) hp hp hc).2
  obtain ⟨rfl, rfl⟩ := Prod.mk.inj (Except.ok.inj hp)
  exact ⟨rfl, rfl, rfl, mx_z1.zero_of_self, mx_z2.zero_of_self⟩

theorem Biquad1.stepKeeps {r : Fl L → Fl L → Prop} (C : Fl.Cone r) :
    StepKeeps r (fun s t : Biquad1 (Fl L) => s.NonNeg ∧ s.Rel r t) := by
  rintro b ⟨⟩ ⟨⟩ x x' s' t' y y' ⟨⟨pb0, pb1, pb2, pa1, pa2⟩, eb0, eb1, eb2, ea1, ea2, mx_z1, mx_z2, my_z1, my_z2⟩ hp hp' hx
  obtain ⟨rfl, rfl⟩ := Prod.mk.inj (Except.ok.inj hp)
  obtain ⟨rfl, rfl⟩ := Prod.mk.inj (Except.ok.inj hp')
  dsimp only at *
  subst eb0 eb1 eb2 ea1 ea2
  have key := C.sub_mul pa2 (C.sub_mul pa1 (C.add (C.add (C.mul pb0 hx) (C.mul pb1 mx_z1)) (C.mul pb2 mx_z2)) my_z1) my_z2
  exact ⟨key, ⟨pb0, pb1, pb2, pa1, pa2⟩, rfl, rfl, rfl, rfl, rfl, hx, mx_z1, key, my_z1⟩

theorem Biquad1.clear_self {s : Biquad1 (Fl L)} (h : s.NonNeg) : s.clear.NonNeg ∧ s.clear.Rel Fl.DominatedBy s.clear :=
  ⟨h, rfl, rfl, rfl, rfl, rfl, Fl.zero_dominated, Fl.zero_dominated, Fl.zero_dominated, Fl.zero_dominated⟩

theorem Biquad1.rises {s : Biquad1 (Fl L)} (h : s.NonNeg) : RisesAndFreezes s.clear := by
  refine rises_of_dominates fun b c s' y hc hp => (Biquad1.stepKeeps Fl.cone_dominatedBy).dominates ⟨h, ?_⟩
  obtain ⟨-, -, -, -, -, -, mx_z1, mx_z2, my_z1, my_z2⟩ := (Biquad1.stepKeeps Fl.cone_dominatedBy b _ _ _ _ _ _ _ _ (clear_self h) hp hp hc).2
  obtain ⟨rfl, rfl⟩ := Prod.mk.inj (Except.ok.inj hp)
  exact ⟨rfl, rfl, rfl, rfl, rfl, mx_z1.zero_of_self, mx_z2.zero_of_self, my_z1.zero_of_self, my_z2.zero_of_self⟩

theorem Biquad2.stepKeeps {r : Fl L → Fl L → Prop} (C : Fl.Cone r) :
    StepKeeps r (fun s t : Biquad2 (Fl L) => s.NonNeg ∧ s.Rel r t) := by
  rintro b ⟨⟩ ⟨⟩ x x' s' t' y y' ⟨⟨pb0, pb1, pb2, pa1, pa2⟩, eb0, eb1, eb2, ea1, ea2, mz1, mz2⟩ hp hp' hx
  obtain ⟨rfl, rfl⟩ := Prod.mk.inj (Except.ok.inj hp)
  obtain ⟨rfl, rfl⟩ := Prod.mk.inj (Except.ok.inj hp')
  dsimp only at *
  subst eb0 eb1 eb2 ea1 ea2
  have key := C.add (C.mul pb0 hx) mz1
  exact ⟨key, ⟨pb0, pb1, pb2, pa1, pa2⟩, rfl, rfl, rfl, rfl, rfl, C.sub_mul pa1 (C.add (C.mul pb1 hx) mz2) key, C.sub_mul pa2 (C.mul pb2 hx) key⟩

theorem Biquad2.clear_self {s : Biquad2 (Fl L)} (h : s.NonNeg) : s.clear.NonNeg ∧ s.clear.Rel Fl.DominatedBy s.clear :=
  ⟨h, rfl, rfl, rfl, rfl, rfl, Fl.zero_dominated, Fl.zero_dominated⟩

theorem Biquad2.rises {s : Biquad2 (Fl L)} (h : s.NonNeg) : RisesAndFreezes s.clear := by
  refine rises_of_dominates fun b c s' y hc hp => (Biquad2.stepKeeps Fl.cone_dominatedBy).dominates ⟨h, ?_⟩
  obtain ⟨-, -, -, -, -, -, mz1, mz2⟩ := (Biquad2.stepKeeps Fl.cone_dominatedBy b _ _ _ _ _ _ _ _ (clear_self h) hp hp hc).2
  obtain ⟨rfl, rfl⟩ := Prod.mk.inj (Except.ok.inj hp)
  exact ⟨rfl, rfl, rfl, rfl, rfl, mz1.zero_of_self, mz2.zero_of_self⟩

/-- **C142.** Filters whose weights are not negative keep order, bit for bit and for ever: if one input is never above another, the
outputs are never above each other either, from the same state or from states whose memories are in order. Nothing is assumed about the
samples: the comparison is made wherever both are finite. -/
theorem C142_order :
    (∀ s t : OnePole (Fl L), s.NonNeg → s.Rel Fl.NotAbove t → InOrder s t) ∧
    (∀ s t : OneZero (Fl L), s.NonNeg → s.Rel Fl.NotAbove t → InOrder s t) ∧
    (∀ s t : TwoPole (Fl L), s.NonNeg → s.Rel Fl.NotAbove t → InOrder s t) ∧
    (∀ s t : TwoZero (Fl L), s.NonNeg → s.Rel Fl.NotAbove t → InOrder s t) ∧
    (∀ s t : Biquad1 (Fl L), s.NonNeg → s.Rel Fl.NotAbove t → InOrder s t) ∧
    (∀ s t : Biquad2 (Fl L), s.NonNeg → s.Rel Fl.NotAbove t → InOrder s t) :=
  ⟨fun _ _ h hr => (OnePole.stepKeeps Fl.cone_notAbove).inOrder (fun _ _ _ => ⟨_, _, rfl⟩) ⟨h, hr⟩,
   fun _ _ h hr => (OneZero.stepKeeps Fl.cone_notAbove).inOrder (fun _ _ _ => ⟨_, _, rfl⟩) ⟨h, hr⟩,
   fun _ _ h hr => (TwoPole.stepKeeps Fl.cone_notAbove).inOrder (fun _ _ _ => ⟨_, _, rfl⟩) ⟨h, hr⟩,
   fun _ _ h hr => (TwoZero.stepKeeps Fl.cone_notAbove).inOrder (fun _ _ _ => ⟨_, _, rfl⟩) ⟨h, hr⟩,
   fun _ _ h hr => (Biquad1.stepKeeps Fl.cone_notAbove).inOrder (fun _ _ _ => ⟨_, _, rfl⟩) ⟨h, hr⟩,
   fun _ _ h hr => (Biquad2.stepKeeps Fl.cone_notAbove).inOrder (fun _ _ _ => ⟨_, _, rfl⟩) ⟨h, hr⟩⟩

/-- **C142.** Of all inputs within given bounds the largest gives the largest outputs: after `clear`, an input dominated by another gives
outputs dominated by the other's. In particular for inputs in `[-c, c]` the outputs are bounded by those for the constant `c`, and
overflow only if these do. -/
theorem C142_largest_is_worst :
    (∀ s : OnePole (Fl L), s.NonNeg → Dominates s.clear s.clear) ∧
    (∀ s : OneZero (Fl L), s.NonNeg → Dominates s.clear s.clear) ∧
    (∀ s : TwoPole (Fl L), s.NonNeg → Dominates s.clear s.clear) ∧
    (∀ s : TwoZero (Fl L), s.NonNeg → Dominates s.clear s.clear) ∧
    (∀ s : Biquad1 (Fl L), s.NonNeg → Dominates s.clear s.clear) ∧
    (∀ s : Biquad2 (Fl L), s.NonNeg → Dominates s.clear s.clear) :=
  ⟨fun _ h => (OnePole.stepKeeps Fl.cone_dominatedBy).dominates (OnePole.clear_self h),
   fun _ h => (OneZero.stepKeeps Fl.cone_dominatedBy).dominates (OneZero.clear_self h),
   fun _ h => (TwoPole.stepKeeps Fl.cone_dominatedBy).dominates (TwoPole.clear_self h),
   fun _ h => (TwoZero.stepKeeps Fl.cone_dominatedBy).dominates (TwoZero.clear_self h),
   fun _ h => (Biquad1.stepKeeps Fl.cone_dominatedBy).dominates (Biquad1.clear_self h),
   fun _ h => (Biquad2.stepKeeps Fl.cone_dominatedBy).dominates (Biquad2.clear_self h)⟩

/-- **C142.** After `clear`, a constant input makes the output rise, sample by sample without ever falling, until it overflows or until it
does not change any more at all. -/
theorem C142_step :
    (∀ s : OnePole (Fl L), s.NonNeg → RisesAndFreezes s.clear) ∧
    (∀ s : OneZero (Fl L), s.NonNeg → RisesAndFreezes s.clear) ∧
    (∀ s : TwoPole (Fl L), s.NonNeg → RisesAndFreezes s.clear) ∧
    (∀ s : TwoZero (Fl L), s.NonNeg → RisesAndFreezes s.clear) ∧
    (∀ s : Biquad1 (Fl L), s.NonNeg → RisesAndFreezes s.clear) ∧
    (∀ s : Biquad2 (Fl L), s.NonNeg → RisesAndFreezes s.clear) :=
  ⟨fun _ h => OnePole.rises h, fun _ h => OneZero.rises h, fun _ h => TwoPole.rises h, fun _ h => TwoZero.rises h, fun _ h => Biquad1.rises h, fun _ h => Biquad2.rises h⟩

/-! ## Delay lines and loops -/

theorem Fl.toReal_of_not_finite {x : Fl L} (h : ¬ x.Finite) : x.toReal = 0 := by
  have h' : ¬ FP.Finite (f := f) x := h
  show FP.toReal (f := f) x = 0
  revert h'
  cases (x : FP f) <;> intro h' <;> first | rfl | exact absurd trivial h'

theorem Fl.Cone.delayedBy {r : Fl L → Fl L → Prop} {e n : ℕ} {h : List (Fl L)} (hh : ∀ v ∈ zero :: h, r v v) {x x' : ℕ → Fl L}
    (hx : ∀ k, k ≤ n → r (x k) (x' k)) : r (Rasp.delayedBy e h x n) (Rasp.delayedBy e h x' n) := by
  unfold Rasp.delayedBy
  split_ifs
  · exact hx _ (Nat.sub_le _ _)
  · refine hh _ ?_
    rw [List.getD_eq_getElem?_getD]
    cases hg : h[e - n - 1]? with
    | none => exact List.mem_cons_self
    | some v => exact List.mem_cons_of_mem _ (List.mem_of_getElem? hg)

/-- **C142.** A `LinearDelay` on fewer than 2^24 slots, in any reachable state without pending `next_out`, after `set_delay` with a finite
delay whose clipped value is not just above an integer: a larger input gives a larger output, and, if no stored sample is negative, an
input that dominates another gives an output that dominates. -/
theorem C142_linear [Target] {L32 : Libm binary32} (hp : 24 ≤ f.p) (hem : f.emin ≤ -149) {s : LinearDelay (Fl L32) (Fl L)}
    (hs : LinearDelay.Reachable b s) (hd : s.do_next_out = true) {h : List (Fl L)} (hst : s.Stores b h)
    (hl : h.length < 2 ^ 24) {d : Fl L32} (hdf : d.Finite) (hcl : ClearOf h.length (max 0 (min d.toReal (h.length - 1 : ℕ)))) :
    ∃ s', s.setDelay b d = .ok s' ∧ InOrder (L := L) s' s' ∧ ((∀ v ∈ h, v.Finite → 0 ≤ v.toReal) → Dominates (L := L) s' s') := by
  have hi := hs.winv
  have hw := hi.hw
  obtain rfl := hst.eq hi.stores
  rw [LinearDelay.hist_length] at hl hcl
  obtain ⟨s', h1⟩ := setDelay_total (b := b) hi d
  have hdel : s'.delay = clipDelay d (ofUsize (s.memory.length - 1)) := setDelay_delay (by omega) h1
  obtain ⟨m1, m2⟩ := ofUsize_fp (L32 := L32) (n := s.memory.length - 1) (by omega)
  rw [rnd_of_isRep (isRep32_nat (by omega))] at m2
  obtain ⟨c1, c2⟩ := clipDelay_fin hdf m1 (by rw [m2]; positivity)
  rw [← hdel] at c1 c2
  rw [m2] at c2
  obtain ⟨e, he, g1, g2, g3, -, g5, -⟩ := setDelay_near (b := b) hp hem hi hl h1 c1 (.inl (by rw [c2]; exact hcl))
  obtain ⟨hmem, hwp, -, hdn, -⟩ := LinearDelay.setDelay_frame h1
  have hi' : s'.WInv := ⟨by rw [hmem, hwp]; exact hi.hw, by rw [hmem]; exact hi.cap⟩
  have hhist : s'.hist = s.hist := by unfold LinearDelay.hist; rw [hmem, hwp]
  have hom : 0 ≤ s'.om_alpha.toReal := by
    by_cases ho : FP.NoOvf f ((one : Fl L).toReal - s'.alpha.toReal)
    · rw [g5, (Fl.sub_val Fl.one_finite g1 ho).2, Fl.one_toReal]
      exact rnd_nonneg (by linarith)
    · have hn : ¬ s'.om_alpha.Finite := by rw [g5]; exact Fl.sub_ovf Fl.one_finite g1 ho
      exact (Fl.toReal_of_not_finite hn).ge
  have main : ∀ {r : Fl L → Fl L → Prop}, Fl.Cone r → (∀ v ∈ zero :: s.hist, r v v) → ∀ b' x x' y y', Responds b' s' x y →
      Responds b' s' x' y' → (∀ n, r (x n) (x' n)) → ∀ n, r (y n) (y' n) := by
    intro r C hh b' x x' y y' hy hy' hx n
    rw [hy.unique (LinearDelay.responds (b := b') hi' he (hdn.trans hd) x), hy'.unique (LinearDelay.responds (b := b') hi' he (hdn.trans hd) x')]
    simp only [hhist]
    exact C.add (C.mul_right hom (Fl.Cone.delayedBy hh fun k _ => hx k)) (C.mul_right g2 (Fl.Cone.delayedBy hh fun k _ => hx k))
  have tot : Total (T := Fl L) s' := fun b' x => ⟨_, LinearDelay.responds (b := b') hi' he (hdn.trans hd) x⟩
  refine ⟨s', h1, ⟨tot, tot, main Fl.cone_notAbove fun v _ => .refl v⟩, fun hh => main Fl.cone_dominatedBy fun v hv => ?_⟩
  rcases List.mem_cons.mp hv with rfl | hv
  · exact Fl.zero_dominated
  · exact fun hf => ⟨hf, (_root_.abs_of_nonneg (hh v hv hf)).le⟩

/-- **C142.** The loop `x + g v` around a new `Delay` with `g` at least 0 keeps order; larger inputs give larger samples; and a constant
makes the samples in the loop rise until they overflow or freeze. -/
theorem C142_comb [Target] {d m : ℕ} (hm : Allocatable (Fl L) m) {g : Fl L} (hg : 0 ≤ g.toReal) :
    ∃ s : Delay (Fl L), Delay.new b d m = .ok s ∧
      (∀ x, ∃ u v r, FeedbackLoop b Delay.announce (fun x v => x +. g *. v) s x u v r) ∧
      ∀ x u v r, FeedbackLoop b Delay.announce (fun x v => x +. g *. v) s x u v r →
        (∀ x' u' v' r', FeedbackLoop b Delay.announce (fun x v => x +. g *. v) s x' u' v' r' →
          ((∀ n, (x n).NotAbove (x' n)) → ∀ n, (u n).NotAbove (u' n)) ∧
          ((∀ n, (x n).DominatedBy (x' n)) → ∀ n, (u n).DominatedBy (u' n))) ∧
        ∀ c, c.Finite → 0 ≤ c.toReal → (∀ n, x n = c) → (∀ n, (u n).NotAbove (u (n + 1))) ∧
          ∃ N, (∀ n, N ≤ n → ¬ (u n).Finite) ∨ ∀ n, N ≤ n → (u n).Finite ∧ (u n).toReal = (u N).toReal := by
  obtain ⟨s, hn, -⟩ := C92_delay (b := b) (d := d) hm (fun x v => x +. g *. v) (fun _ => (zero : Fl L))
  refine ⟨s, hn, ?_⟩
  have all : ∀ x, (∃ u v r, FeedbackLoop b Delay.announce (fun x v => x +. g *. v) s x u v r) ∧
      ∀ u v r, FeedbackLoop b Delay.announce (fun x v => x +. g *. v) s x u v r → ∀ n,
        u n = x n +. g *. lag u (if min d m = 0 then m + 1 else min d m) n := by
    intro x
    obtain ⟨s2, hn2, he, hl⟩ := C92_delay (b := b) (d := d) hm (fun x v => x +. g *. v) x
    obtain rfl : s2 = s := Except.ok.inj (hn2.symm.trans hn)
    exact ⟨he, fun u v r hu n => by rw [((hl u v r).mp hu n).2.1, ((hl u v r).mp hu n).1]⟩
  have he : 1 ≤ (if min d m = 0 then m + 1 else min d m) := by split_ifs <;> omega
  generalize (if min d m = 0 then m + 1 else min d m) = e at all he
  have rel : ∀ {r : Fl L → Fl L → Prop}, Fl.Cone r → r zero zero → ∀ {x x' u u' : ℕ → Fl L}, (∀ n, u n = x n +. g *. lag u e n) →
      (∀ n, u' n = x' n +. g *. lag u' e n) → (∀ n, r (x n) (x' n)) → ∀ n, r (u n) (u' n) := by
    intro r C h0 x x' u u' hu hu' hx n
    induction n using Nat.strong_induction_on with
    | _ n ih =>
      rw [hu, hu']
      refine C.add (hx n) (C.mul hg ?_)
      unfold lag
      split_ifs
      · exact ih _ (by omega)
      · exact h0
  refine ⟨fun x => (all x).1, fun x u v r hu => ⟨fun x' u' v' r' hu' => ⟨fun hx => ?_, fun hx => ?_⟩, fun c hc h0 hx => ?_⟩⟩
  · exact rel Fl.cone_notAbove (.refl _) ((all x).2 u v r hu) ((all x').2 u' v' r' hu') hx
  · exact rel Fl.cone_dominatedBy Fl.zero_dominated ((all x).2 u v r hu) ((all x').2 u' v' r' hu') hx
  · have hc' : ∀ n, (x n).DominatedBy (x n) := fun n _ => by rw [hx]; exact ⟨hc, (_root_.abs_of_nonneg h0).le⟩
    have eu := (all x).2 u v r hu
    have self := rel Fl.cone_dominatedBy Fl.zero_dominated eu eu hc'
    refine rises_of_next fun n => ?_
    induction n using Nat.strong_induction_on with
    | _ n ih =>
      rw [eu n, eu (n + 1), hx n, ← hx (n + 1)]
      refine Fl.cone_dominatedBy.add (hc' _) (Fl.cone_dominatedBy.mul hg ?_)
      unfold lag
      split_ifs with h1 h2 h2
      · rw [show n + 1 - e = n - e + 1 by omega]
        exact ih _ (by omega)
      · omega
      · exact (self _).zero_of_self
      · exact Fl.zero_dominated

/-! ## Decibels -/

/-- **C142.** With a library that keeps order, `to_db` and `to_sample` keep order in floating point, the floors included. (An infinite
sample is the exception: it goes to the floor, C64.) -/
theorem C142_decibels (hL : OrderedDb L) (hp : 7 ≤ f.p) (hp' : f.p ≤ 53) (he : -1074 ≤ f.emin) (b : Build)
    {s t : Fl L} (hs : s.Finite) (ht : t.Finite) (h : s.toReal ≤ t.toReal) :
    ((b.debug = true → isSignNegative s = false ∧ isSignNegative t = false) → ∃ d e : Fl L, toDb b s = .ok d ∧ toDb b t = .ok e ∧ d.NotAbove e) ∧
    (toSample s).NotAbove (toSample t) := by
  constructor
  · intro hsg
    have high : ∀ z : Fl L, (b.debug = true → isSignNegative z = false) → z.Finite → rnd f (rnd binary64 (1 / 1000000)) < z.toReal →
        toDb b z = .ok (ofF64 (.lit 20) *. log10 z) := by
      intro z h1 h2 h3
      obtain ⟨c1, c2⟩ := floor_const (L := L)
      unfold toDb
      rw [if_neg, if_pos]
      · rw [Bool.and_eq_true, Fl.isFinite_iff, Fl.lt_iff c1 h2, c2]
        exact ⟨h3, h2⟩
      · rw [Bool.and_eq_true]
        rintro ⟨g1, g2⟩
        rw [h1 g1] at g2; simp at g2
    have low : ∀ z : Fl L, (b.debug = true → isSignNegative z = false) → z.Finite → z.toReal ≤ rnd f (rnd binary64 (1 / 1000000)) →
        toDb b z = .ok (ofF64 (.lit (-120))) := by
      intro z h1 h2 h3
      obtain ⟨c1, c2⟩ := floor_const (L := L)
      unfold toDb
      rw [if_neg, if_neg]
      · rw [Bool.and_eq_true, Fl.isFinite_iff, Fl.lt_iff c1 h2, c2]
        exact fun g => absurd g.1 (not_lt.mpr h3)
      · rw [Bool.and_eq_true]
        rintro ⟨g1, g2⟩
        rw [h1 g1] at g2; simp at g2
    have c20 := int_const (L := L) hp (z := 20) (by norm_num)
    have c120 := int_const (L := L) hp (z := -120) (by norm_num)
    norm_num at c20 c120
    rcases le_or_gt t.toReal (rnd f (rnd binary64 (1 / 1000000))) with h1 | h1
    · exact ⟨_, _, low s (fun hb => (hsg hb).1) hs (h.trans h1), low t (fun hb => (hsg hb).2) ht h1, .refl _⟩
    rcases le_or_gt s.toReal (rnd f (rnd binary64 (1 / 1000000))) with h2 | h2
    · refine ⟨_, _, low s (fun hb => (hsg hb).1) hs h2, high t (fun hb => (hsg hb).2) ht h1, fun _ hf => ?_⟩
      obtain ⟨-, g1, -, g2⟩ := Fl.mul_fin hf
      rw [g2, c20.2, c120.2]
      have hr := Fl.isRep_toReal (ofF64 (.lit (-120)) : Fl L)
      rw [c120.2] at hr
      have h3 : 1 / 1000000 < t.toReal := by
        by_contra hc
        exact absurd (le_rnd_of_le (Fl.isRep_toReal t) (le_rnd_of_le ((Fl.isRep_toReal t).mono hp' he) (not_lt.mp hc))) (not_le.mpr h1)
      exact le_rnd_of_le hr (by linarith [hL.floor t ht h3 g1])
    · refine ⟨_, _, high s (fun hb => (hsg hb).1) hs h2, high t (fun hb => (hsg hb).2) ht h1, ?_⟩
      have h0 : 0 ≤ rnd f (rnd binary64 (1 / 1000000)) := rnd_nonneg (rnd_nonneg (by norm_num))
      exact (hL.log s t hs ht (h0.trans_lt h2) h).mul (by rw [c20.2]; norm_num)
  · have c10 := int_const (L := L) hp (z := 10) (by norm_num)
    have c20 := int_const (L := L) hp (z := 20) (by norm_num)
    have c120 := int_const (L := L) hp (z := -120) (by norm_num)
    norm_num at c10 c20 c120
    have high : ∀ z : Fl L, z.Finite → -120 < z.toReal → toSample z = powf (ofF64 (.lit 10)) (z /. ofF64 (.lit 20)) := by
      intro z h2 h3
      unfold toSample
      rw [if_pos]
      rw [Bool.and_eq_true, Fl.isFinite_iff, Fl.lt_iff c120.1 h2, c120.2]
      exact ⟨h3, h2⟩
    have hdiv : ∀ z : Fl L, z.Finite → (z /. ofF64 (.lit 20)).Finite ∧ (z /. ofF64 (.lit 20)).toReal = rnd f (z.toReal / 20) := by
      intro z hz
      have := Fl.div_val (x := z) (y := ofF64 (.lit 20)) hz c20.1 (by rw [c20.2]; norm_num) (by
        rw [c20.2]
        refine (Fl.dominated_of_abs (t := |z.toReal|) ?_ ?_).1
        · rw [abs_div]
          exact div_le_self (_root_.abs_nonneg _) (by norm_num)
        · unfold FP.NoOvf
          rw [rnd_of_isRep (Fl.isRep_toReal z).abs, _root_.abs_abs]
          exact Fl.abs_toReal_lt z)
      rwa [c20.2] at this
    rcases le_or_gt s.toReal (-120) with h1 | h1
    · rw [(C64_to_sample hp s).1 fun _ => h1]
      rcases le_or_gt t.toReal (-120) with h2 | h2
      · rw [(C64_to_sample hp t).1 fun _ => h2]
        exact .refl _
      · rw [high t ht h2]
        intro _ hf
        rw [Fl.zero_toReal]
        exact hL.pos _ _ c10.1 c10.2 hf
    · rw [high s hs h1, high t ht (h1.trans_le h)]
      refine hL.pow _ _ _ c10.1 c10.2 (hdiv s hs).1 (hdiv t ht).1 ?_
      rw [(hdiv s hs).2, (hdiv t ht).2]
      exact rnd_mono (by linarith)

/-! ## Examples -/

/-- The correctly rounded library meets the assumption. -/
theorem Libm.roundedDb_ordered (hp : 7 ≤ f.p) : OrderedDb (Libm.roundedDb f) := by
  have val : ∀ {v : ℝ}, (FP.ofReal f false v).Finite → (FP.ofReal f false v).toReal = rnd f v := by
    intro v hv
    by_cases ho : FP.NoOvf f v
    · exact (FP.ofReal_of_noOvf ho).2
    · rw [FP.ofReal_of_ovf ho] at hv
      exact hv.elim
  refine ⟨fun x y _ _ h0 h h1 h2 => ?_, fun x _ h h1 => ?_, fun t x y _ ht _ _ h h1 h2 => ?_, fun t x _ ht h1 => ?_⟩
  · refine (val h1).le.trans ((rnd_mono ?_).trans (val h2).ge)
    exact Real.logb_le_logb_of_le (by norm_num) h0 h
  · refine le_trans ?_ (val h1).ge
    have c6 := int_const (L := Libm.roundedDb f) hp (z := -6) (by norm_num)
    have hr := Fl.isRep_toReal (ofF64 (.lit ((-6 : ℤ) : ℚ)) : Fl (Libm.roundedDb f))
    rw [c6.2] at hr
    push_cast at hr
    refine le_rnd_of_le hr ?_
    show -6 ≤ Real.logb 10 x.toReal
    rw [Real.le_logb_iff_rpow_le (by norm_num) (lt_trans (by norm_num) h)]
    refine le_trans ?_ h.le
    rw [Real.rpow_neg (by norm_num)]
    norm_num
  · refine (val h1).le.trans ((rnd_mono ?_).trans (val h2).ge)
    have ht' : FP.toReal (f := f) t = 10 := ht
    rw [ht']
    exact Real.rpow_le_rpow_of_exponent_le (by norm_num) h
  · refine le_trans ?_ (val h1).ge
    have ht' : FP.toReal (f := f) t = 10 := ht
    rw [ht']
    exact rnd_nonneg (by positivity)

/-- The `f32` filter `y[n] = x[n]/2 + y[n-1]/2` meets the assumption, whatever it has stored. -/
example (L : Libm binary32) (z : Fl L) : ∃ s : OnePole (Fl L), s.NonNeg ∧ s.b0.toReal = 1 / 2 ∧ s.a1.toReal = -1 / 2 ∧ s.y_z1 = z ∧
    s.Rel Fl.NotAbove s ∧ s.clear.Rel Fl.DominatedBy s.clear := by
  obtain ⟨h, -, h2⟩ := Fl.exists_of_isRep L (v := 1 / 2) ⟨1, -1, by norm_num [binary32], by norm_num [binary32], by norm_num⟩
    (by have := FP.one_lt_lim binary32; norm_num [abs_of_pos]; linarith)
  obtain ⟨k, -, k2⟩ := Fl.exists_of_isRep L (v := -1 / 2) ⟨-1, -1, by norm_num [binary32], by norm_num [binary32], by norm_num⟩
    (by have := FP.one_lt_lim binary32; rw [abs_of_neg (by norm_num)]; linarith)
  have hn : OnePole.NonNeg (⟨z, h, k⟩ : OnePole (Fl L)) := ⟨by rw [h2]; norm_num, by rw [k2]; norm_num⟩
  exact ⟨⟨z, h, k⟩, hn, h2, k2, rfl, by simp [OnePole.Rel, Fl.NotAbove.refl], (OnePole.clear_self hn).2⟩

/-- A finite constant 1 and a comb with gain 1 (which overflows or freezes) meet the assumptions of `C142_comb`. -/
example [Target] (L : Libm binary32) : Allocatable (Fl L) 100 ∧ 0 ≤ (one : Fl L).toReal ∧ (one : Fl L).Finite := by
  refine ⟨?_, by simp, Fl.one_finite⟩
  unfold Allocatable
  have : size (Fl L) = 4 := rfl
  rw [this]; have := target; omega

end Rasp
