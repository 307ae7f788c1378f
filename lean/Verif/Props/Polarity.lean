import Verif.Spec.Polarity
import Verif.Lemmas.Stream
import Verif.Lemmas.Ring
import Verif.Lemmas.RbjReal
import Verif.Model.Analysis
import Verif.Model.LinearDelay

/-!
# C85: filters and delay lines commute with polarity inversion, also in floating point
-/

namespace Rasp
open FloatOps Fl
variable {f : Fmt} {L : Libm f}

namespace Fl.Opposite

theorem ofReal {sz sz' : Bool} {v w : ℝ} (h : w = -v) : Opposite (L := L) (FP.ofReal f sz v) (FP.ofReal f sz' w) := by
  subst h
  by_cases hv : FP.NoOvf f v
  · have h1 := FP.ofReal_of_noOvf (f := f) (s := sz) hv
    have h2 := FP.ofReal_of_noOvf (f := f) (s := sz') (x := -v) (by unfold FP.NoOvf at *; rwa [rnd_neg, _root_.abs_neg])
    refine .inr (.inr ⟨h1.1, h2.1, ?_⟩)
    have : (FP.ofReal f sz' (-v)).toReal = -(FP.ofReal f sz v).toReal := by rw [h1.2, h2.2, rnd_neg]
    exact this
  · have h0 : v ≠ 0 := by
      rintro rfl
      exact hv (by unfold FP.NoOvf; rw [rnd_zero, _root_.abs_zero]; exact FP.lim_pos f)
    have e1 : FP.ofReal f sz v = FP.inf (decide (v < 0)) := dif_neg hv
    have e2 : FP.ofReal f sz' (-v) = FP.inf (decide (-v < 0)) := dif_neg (by rwa [rnd_neg, _root_.abs_neg])
    refine .inr (.inl ⟨decide (v < 0), e1, ?_⟩)
    rw [e2]
    rcases lt_or_gt_of_ne h0 with h | h <;> simp [h, not_lt.mpr h.le, Fl.inf] <;> rfl

theorem zero : Opposite (zero : Fl L) zero := .inr (.inr ⟨zero_finite, zero_finite, by simp [zero_toReal]⟩)

theorem neg (x : Fl L) : Opposite x (FloatOps.neg x) := by
  rcases x.cases with ⟨s, rfl⟩ | ⟨s, rfl⟩ | h
  · exact .inl ⟨trivial, trivial⟩
  · exact .inr (.inl ⟨s, rfl, rfl⟩)
  · exact .inr (.inr ⟨h, neg_finite.mpr h, neg_toReal x⟩)

theorem fin_cases {x x' : Fl L} (h1 : x.Finite) (h2 : x'.Finite) (h3 : x'.toReal = -x.toReal) : ∃ s t a ha hb,
    x = (FP.fin s a ha : FP f) ∧ x' = (FP.fin t a hb : FP f) ∧ FP.toReal (FP.fin t a hb : FP f) = -FP.toReal (FP.fin s a ha : FP f) := by
  match x, x', h1, h2 with
  | FP.fin s a ha, FP.fin t b hb, _, _ =>
    have h3' : FP.toReal (FP.fin t b hb : FP f) = -FP.toReal (FP.fin s a ha : FP f) := h3
    have : a = b := by
      have e1 := FP.abs_toReal_fin (f := f) s a ha
      have e2 := FP.abs_toReal_fin (f := f) t b hb
      rw [h3', _root_.abs_neg, e1] at e2
      exact e2
    subst this
    exact ⟨s, t, a, ha, hb, rfl, rfl, h3'⟩

theorem add {x x' y y' : Fl L} (hx : x.Opposite x') (hy : y.Opposite y') : (x +. y).Opposite (x' +. y') := by
  rcases hx with ⟨h1, h2⟩ | hx
  · exact .inl ⟨add_nan_left h1, add_nan_left h2⟩
  rcases hy with ⟨h1, h2⟩ | hy
  · exact .inl ⟨add_nan_right h1, add_nan_right h2⟩
  rcases hx with ⟨s, rfl, rfl⟩ | ⟨h1, h2, h3⟩ <;> rcases hy with ⟨t, rfl, rfl⟩ | ⟨k1, k2, k3⟩
  · by_cases hst : s = t
    · subst hst
      exact .inr (.inl ⟨s, if_pos rfl, if_pos rfl⟩)
    · refine .inl ⟨?_, ?_⟩
      · have : (Fl.inf L s +. Fl.inf L t) = Fl.nan L false := if_neg hst
        rw [this]; trivial
      · have : (Fl.inf L (!s) +. Fl.inf L (!t)) = Fl.nan L false := if_neg (by simpa using hst)
        rw [this]; trivial
  · obtain ⟨_, _, _, _, _, rfl, rfl, _⟩ := fin_cases k1 k2 k3
    exact .inr (.inl ⟨s, rfl, rfl⟩)
  · obtain ⟨_, _, _, _, _, rfl, rfl, _⟩ := fin_cases h1 h2 h3
    exact .inr (.inl ⟨t, rfl, rfl⟩)
  · obtain ⟨s, s', a, ha, ha', rfl, rfl, e⟩ := fin_cases h1 h2 h3
    obtain ⟨t, t', c, hc, hc', rfl, rfl, e'⟩ := fin_cases k1 k2 k3
    exact Opposite.ofReal (by rw [e, e']; ring)

theorem neg_both {x x' : Fl L} (h : x.Opposite x') : (FloatOps.neg x).Opposite (FloatOps.neg x') := by
  rcases h with ⟨h1, h2⟩ | ⟨s, rfl, rfl⟩ | ⟨h1, h2, h3⟩
  · obtain ⟨s, rfl⟩ := isNaN_iff.mp h1
    obtain ⟨t, rfl⟩ := isNaN_iff.mp h2
    exact .inl ⟨trivial, trivial⟩
  · exact .inr (.inl ⟨!s, rfl, rfl⟩)
  · exact .inr (.inr ⟨neg_finite.mpr h1, neg_finite.mpr h2, by rw [neg_toReal, neg_toReal, h3]⟩)

theorem sub {x x' y y' : Fl L} (hx : x.Opposite x') (hy : y.Opposite y') : (x -. y).Opposite (x' -. y') := by
  have := hx.add hy.neg_both
  exact this

theorem mul_left (c : Fl L) {x x' : Fl L} (hx : x.Opposite x') : (c *. x).Opposite (c *. x') := by
  rcases hx with ⟨h1, h2⟩ | hx
  · exact .inl ⟨mul_nan_right h1, mul_nan_right h2⟩
  rcases c.cases with ⟨q, rfl⟩ | ⟨q, rfl⟩ | hc
  · exact .inl ⟨mul_nan_left trivial, mul_nan_left trivial⟩
  · rcases hx with ⟨s, rfl, rfl⟩ | ⟨h1, h2, h3⟩
    · refine .inr (.inl ⟨q != s, rfl, ?_⟩)
      have : (q != !s) = !(q != s) := by cases q <;> cases s <;> rfl
      rw [← this]; rfl
    · obtain ⟨s, s', a, ha, ha', rfl, rfl, e⟩ := fin_cases h1 h2 h3
      by_cases h0 : a = 0
      · have e1 : (Fl.inf L q *. (FP.fin s a ha : FP f) : Fl L) = Fl.nan L false := if_pos h0
        have e2 : (Fl.inf L q *. (FP.fin s' a ha' : FP f) : Fl L) = Fl.nan L false := if_pos h0
        rw [e1, e2]; exact .inl ⟨trivial, trivial⟩
      · have e1 : (Fl.inf L q *. (FP.fin s a ha : FP f) : Fl L) = Fl.inf L (q != s) := if_neg h0
        have e2 : (Fl.inf L q *. (FP.fin s' a ha' : FP f) : Fl L) = Fl.inf L (q != s') := if_neg h0
        have : s' = !s := by
          have : 0 ≤ a := ha.1
          cases s <;> cases s' <;> simp at e ⊢ <;> exact h0 (by linarith)
        rw [e1, e2, this]
        exact .inr (.inl ⟨_, rfl, by cases q <;> cases s <;> rfl⟩)
  · rcases hx with ⟨s, rfl, rfl⟩ | ⟨h1, h2, h3⟩
    · match c, hc with
      | FP.fin q a ha, _ =>
        by_cases h0 : a = 0
        · have e1 : ((FP.fin q a ha : FP f) *. Fl.inf L s : Fl L) = Fl.nan L false := if_pos h0
          have e2 : ((FP.fin q a ha : FP f) *. Fl.inf L (!s) : Fl L) = Fl.nan L false := if_pos h0
          rw [e1, e2]; exact .inl ⟨trivial, trivial⟩
        · have e1 : ((FP.fin q a ha : FP f) *. Fl.inf L s : Fl L) = Fl.inf L (q != s) := if_neg h0
          have e2 : ((FP.fin q a ha : FP f) *. Fl.inf L (!s) : Fl L) = Fl.inf L (q != !s) := if_neg h0
          rw [e1, e2]
          exact .inr (.inl ⟨_, rfl, by cases q <;> cases s <;> rfl⟩)
    · obtain ⟨s, s', a, ha, ha', rfl, rfl, e⟩ := fin_cases h1 h2 h3
      match c, hc with
      | FP.fin q c hc, _ => exact Opposite.ofReal (by rw [e]; ring)

theorem mul_comm (x y : Fl L) : x *. y = y *. x := by
  have : ∀ x y : FP f, FP.mul x y = FP.mul y x := by
    intro x y
    cases x <;> cases y <;> simp only [FP.mul, bne_comm, _root_.mul_comm]
  exact this x y

theorem mul_right (c : Fl L) {x x' : Fl L} (hx : x.Opposite x') : (x *. c).Opposite (x' *. c) := by
  rw [mul_comm x, mul_comm x']; exact hx.mul_left c

end Fl.Opposite

/-! ## Simulation -/

/-- A relation kept by every step relates whole streams. -/
theorem inverts_of {σ : Type} [Processor σ (Fl L)] (R : σ → σ → Prop) {s : σ} (h0 : R s s)
    (step : ∀ (b : Build) (s t s' : σ) (x x' y : Fl L), R s t → x.Opposite x' → Processor.process b s x = .ok (s', y) →
      ∃ t' y', Processor.process b t x' = .ok (t', y') ∧ R s' t' ∧ y.Opposite y') : Inverts s := by
  intro b x x' y hx ⟨st, hs0, hst⟩
  have next : ∀ (n : ℕ) (t : {t // R (st n) t}), ∃ t' : {t // R (st (n + 1)) t}, ∃ y', Processor.process b t.1 (x' n) = .ok (t'.1, y') ∧ (y n).Opposite y' := by
    intro n ⟨t, ht⟩
    obtain ⟨t', y', h1, h2, h3⟩ := step b _ t _ _ (x' n) _ ht (hx n) (hst n)
    exact ⟨⟨t', h2⟩, y', h1, h3⟩
  choose nx ny hn1 hn2 using next
  let tt : (n : ℕ) → {t // R (st n) t} := fun n => Nat.rec ⟨s, hs0 ▸ h0⟩ nx n
  exact ⟨fun n => ny n (tt n), ⟨fun n => (tt n).1, rfl, fun n => hn1 n (tt n)⟩, fun n => hn2 n (tt n)⟩

/-- The same for types whose `process` is a total function. -/
theorem inverts_of_total {σ : Type} [Processor σ (Fl L)] (p : σ → Fl L → σ × Fl L) (hp : ∀ (b : Build) (s : σ) (x : Fl L), Processor.process b s x = .ok (p s x))
    (R : σ → σ → Prop) {s : σ} (h0 : R s s)
    (step : ∀ (s t : σ) (x x' : Fl L), R s t → x.Opposite x' → R (p s x).1 (p t x').1 ∧ (p s x).2.Opposite (p t x').2) : Inverts s := by
  refine inverts_of R h0 fun b s t s' x x' y hR hx h => ?_
  rw [hp] at h
  injection h with h
  have := step s t x x' hR hx
  rw [h] at this
  exact ⟨_, _, by rw [hp], this.1, this.2⟩

/-! ## Filters -/

theorem Biquad2.inverts (s : Biquad2 (Fl L)) (h1 : s.z1.Opposite s.z1) (h2 : s.z2.Opposite s.z2) : Inverts s := by
  refine inverts_of_total Biquad2.process (fun _ _ _ => rfl) (fun s t => s.z1.Opposite t.z1 ∧ s.z2.Opposite t.z2 ∧
    s.b0 = t.b0 ∧ s.b1 = t.b1 ∧ s.b2 = t.b2 ∧ s.a1 = t.a1 ∧ s.a2 = t.a2) ⟨h1, h2, rfl, rfl, rfl, rfl, rfl⟩ ?_
  intro s t x x' ⟨h1, h2, e0, e1, e2, e3, e4⟩ hx
  have ho : (s.b0 *. x +. s.z1).Opposite (t.b0 *. x' +. t.z1) := by rw [e0]; exact (hx.mul_left _).add h1
  refine ⟨⟨?_, ?_, e0, e1, e2, e3, e4⟩, ho⟩
  · simp only [Biquad2.process]; rw [e1, e3]
    exact ((hx.mul_left _).add h2).sub (ho.mul_left _)
  · simp only [Biquad2.process]; rw [e2, e4]
    exact (hx.mul_left _).sub (ho.mul_left _)

theorem Inverts.congr {σ τ : Type} [Processor σ (Fl L)] [Processor τ (Fl L)] {s : σ} {t : τ} (h : Inverts t)
    (hs : ∀ b x y, Responds b s x y ↔ Responds b t x y) : Inverts s := by
  intro b x x' y hx hy
  obtain ⟨y', h1, h2⟩ := h b x x' y hx ((hs b x y).mp hy)
  exact ⟨y', (hs b x' y').mpr h1, h2⟩

open Fl.Opposite in
/-- **C85**, basic filters and LeakyIntegrator: after `clear`, with any coefficients whatever (non-finite ones included), for
any stream (non-finite samples included), a stream of opposite samples gets the opposite response. -/
theorem C85_filters :
    (∀ s : OnePole (Fl L), Inverts s.clear) ∧ (∀ s : OneZero (Fl L), Inverts s.clear) ∧ (∀ s : TwoPole (Fl L), Inverts s.clear) ∧
    (∀ s : TwoZero (Fl L), Inverts s.clear) ∧ (∀ s : Biquad1 (Fl L), Inverts s.clear) ∧ (∀ s : Biquad2 (Fl L), Inverts s.clear) ∧
    (∀ s : LeakyIntegrator (Fl L), Inverts s.clear) := by
  refine ⟨fun s => ?_, fun s => ?_, fun s => ?_, fun s => ?_, fun s => ?_, fun s => s.clear.inverts .zero .zero, fun s => ?_⟩
  · refine inverts_of_total OnePole.process (fun _ _ _ => rfl) (fun s t => s.y_z1.Opposite t.y_z1 ∧ s.b0 = t.b0 ∧ s.a1 = t.a1) ⟨.zero, rfl, rfl⟩ ?_
    intro s t x x' ⟨h1, e0, e1⟩ hx
    have : (s.process x).2.Opposite (t.process x').2 := by
      simp only [OnePole.process]; rw [e0, e1]; exact (hx.mul_left _).sub (h1.mul_left _)
    exact ⟨⟨this, e0, e1⟩, this⟩
  · refine inverts_of_total OneZero.process (fun _ _ _ => rfl) (fun s t => s.x_z1.Opposite t.x_z1 ∧ s.b0 = t.b0 ∧ s.b1 = t.b1) ⟨.zero, rfl, rfl⟩ ?_
    intro s t x x' ⟨h1, e0, e1⟩ hx
    refine ⟨⟨hx, e0, e1⟩, ?_⟩
    simp only [OneZero.process]; rw [e0, e1]; exact (hx.mul_left _).add (h1.mul_left _)
  · refine inverts_of_total TwoPole.process (fun _ _ _ => rfl) (fun s t => s.y_z1.Opposite t.y_z1 ∧ s.y_z2.Opposite t.y_z2 ∧ s.b0 = t.b0 ∧ s.a1 = t.a1 ∧ s.a2 = t.a2)
      ⟨.zero, .zero, rfl, rfl, rfl⟩ ?_
    intro s t x x' ⟨h1, h2, e0, e1, e2⟩ hx
    have : (s.process x).2.Opposite (t.process x').2 := by
      simp only [TwoPole.process]; rw [e0, e1, e2]; exact ((hx.mul_left _).sub (h1.mul_left _)).sub (h2.mul_left _)
    exact ⟨⟨this, h1, e0, e1, e2⟩, this⟩
  · refine inverts_of_total TwoZero.process (fun _ _ _ => rfl) (fun s t => s.x_z1.Opposite t.x_z1 ∧ s.x_z2.Opposite t.x_z2 ∧ s.b0 = t.b0 ∧ s.b1 = t.b1 ∧ s.b2 = t.b2)
      ⟨.zero, .zero, rfl, rfl, rfl⟩ ?_
    intro s t x x' ⟨h1, h2, e0, e1, e2⟩ hx
    refine ⟨⟨hx, h1, e0, e1, e2⟩, ?_⟩
    simp only [TwoZero.process]; rw [e0, e1, e2]; exact ((hx.mul_left _).add (h1.mul_left _)).add (h2.mul_left _)
  · refine inverts_of_total Biquad1.process (fun _ _ _ => rfl) (fun s t => s.x_z1.Opposite t.x_z1 ∧ s.x_z2.Opposite t.x_z2 ∧ s.y_z1.Opposite t.y_z1 ∧
      s.y_z2.Opposite t.y_z2 ∧ s.b0 = t.b0 ∧ s.b1 = t.b1 ∧ s.b2 = t.b2 ∧ s.a1 = t.a1 ∧ s.a2 = t.a2)
      ⟨.zero, .zero, .zero, .zero, rfl, rfl, rfl, rfl, rfl⟩ ?_
    intro s t x x' ⟨h1, h2, h3, h4, e0, e1, e2, e3, e4⟩ hx
    have : (s.process x).2.Opposite (t.process x').2 := by
      simp only [Biquad1.process]; rw [e0, e1, e2, e3, e4]
      exact ((((hx.mul_left _).add (h1.mul_left _)).add (h2.mul_left _)).sub (h3.mul_left _)).sub (h4.mul_left _)
    exact ⟨⟨hx, h1, this, h3, e0, e1, e2, e3, e4⟩, this⟩
  · refine inverts_of_total LeakyIntegrator.process (fun _ _ _ => rfl) (fun s t => s.y_z1.Opposite t.y_z1 ∧ s.alpha = t.alpha) ⟨.zero, rfl⟩ ?_
    intro s t x x' ⟨h1, e0⟩ hx
    have : (s.process x).2.Opposite (t.process x').2 := by
      simp only [LeakyIntegrator.process]; rw [e0]; exact hx.add ((h1.sub hx).mul_left _)
    exact ⟨⟨this, e0⟩, this⟩

/-- **C85**, rbj filters: after `clear`. -/
theorem C85_rbj :
    (∀ s : LowPass (Fl L), Inverts s.clear) ∧ (∀ s : HighPass (Fl L), Inverts s.clear) ∧ (∀ s : BandPass1 (Fl L), Inverts s.clear) ∧
    (∀ s : BandPass2 (Fl L), Inverts s.clear) ∧ (∀ s : BandStop (Fl L), Inverts s.clear) ∧ (∀ s : AllPass (Fl L), Inverts s.clear) ∧
    (∀ s : Peak (Fl L), Inverts s.clear) ∧ (∀ s : LowShelf (Fl L), Inverts s.clear) ∧ (∀ s : HighShelf (Fl L), Inverts s.clear) :=
  ⟨fun s => (s.biquad.clear.inverts .zero .zero).congr fun _ _ _ => LowPass.responds_iff _,
    fun s => (s.biquad.clear.inverts .zero .zero).congr fun _ _ _ => HighPass.responds_iff _,
    fun s => (s.biquad.clear.inverts .zero .zero).congr fun _ _ _ => BandPass1.responds_iff _,
    fun s => (s.biquad.clear.inverts .zero .zero).congr fun _ _ _ => BandPass2.responds_iff _,
    fun s => (s.biquad.clear.inverts .zero .zero).congr fun _ _ _ => BandStop.responds_iff _,
    fun s => (s.biquad.clear.inverts .zero .zero).congr fun _ _ _ => AllPass.responds_iff _,
    fun s => (s.biquad.clear.inverts .zero .zero).congr fun _ _ _ => Peak.responds_iff _,
    fun s => (s.biquad.clear.inverts .zero .zero).congr fun _ _ _ => LowShelf.responds_iff _,
    fun s => (s.biquad.clear.inverts .zero .zero).congr fun _ _ _ => HighShelf.responds_iff _⟩

/-! ## Delay lines -/

theorem idx_opposite {v w : List (Fl L)} (h : List.Forall₂ Opposite v w) {i : ℕ} {x : Fl L} (hx : idx v i = .ok x) :
    ∃ y, idx w i = .ok y ∧ x.Opposite y := by
  unfold idx at hx ⊢
  split at hx
  · rename_i z hz
    injection hx with hx
    subst hx
    obtain ⟨hi, rfl⟩ := List.getElem?_eq_some_iff.mp hz
    have hi' : i < w.length := h.length_eq ▸ hi
    rw [List.getElem?_eq_getElem hi']
    exact ⟨_, rfl, h.get hi hi'⟩
  · exact absurd hx (by simp)

theorem idxSet_opposite {v w v' : List (Fl L)} (h : List.Forall₂ Opposite v w) {i : ℕ} {x x' : Fl L} (hx : x.Opposite x') (hv : idxSet v i x = .ok v') :
    ∃ w', idxSet w i x' = .ok w' ∧ List.Forall₂ Opposite v' w' := by
  unfold idxSet at hv ⊢
  split at hv
  · rename_i hi
    injection hv with hv
    subst hv
    rw [if_pos (h.length_eq ▸ hi)]
    refine ⟨_, rfl, ?_⟩
    clear hi
    induction h generalizing i with
    | nil => exact .nil
    | cons h t ih =>
      cases i with
      | zero => exact .cons hx t
      | succ i => exact .cons h ih
  · exact absurd hv (by simp)

theorem forall₂_zero (v : List (Fl L)) : List.Forall₂ Opposite (v.map fun _ => (zero : Fl L)) (v.map fun _ => zero) := by
  induction v with
  | nil => exact .nil
  | cons _ _ ih => exact .cons .zero ih

/-- **C85**, Delay: after `clear`, whatever its pointers. -/
theorem C85_delay [Target] (s : Delay (Fl L)) : Inverts s.clear := by
  refine inverts_of (fun s t => List.Forall₂ Opposite s.memory t.memory ∧ s.read_ptr = t.read_ptr ∧ s.write_ptr = t.write_ptr)
    ⟨forall₂_zero _, rfl, rfl⟩ ?_
  intro b s t s' x x' y ⟨h1, h2, h3⟩ hx h
  simp only [Processor.process, Delay.process, Res.bind_ok] at h ⊢
  obtain ⟨m, hm, w, hw, wp, hwp, o, ho, r, hr, rp, hrp, h⟩ := h
  injection h with h
  obtain ⟨rfl, rfl⟩ := Prod.mk.inj h
  obtain ⟨m', hm', hmm⟩ := idxSet_opposite h1 hx hm
  obtain ⟨o', ho', hoo⟩ := idx_opposite hmm ho
  rw [← h3, ← h2]
  rw [hmm.length_eq] at hwp hrp
  exact ⟨_, o', ⟨m', hm', w, hw, wp, hwp, o', ho', r, hr, rp, hrp, rfl⟩, ⟨hmm, rfl, rfl⟩, hoo⟩

theorem nextOut_opposite [Target] {D : Type} [FloatOps D] [DelayTime D (Fl L)] {b : Build} {s t s' : LinearDelay D (Fl L)} {y : Fl L}
    (h1 : List.Forall₂ Opposite s.memory t.memory) (h2 : s.read_ptr = t.read_ptr) (h4 : s.alpha = t.alpha) (h5 : s.om_alpha = t.om_alpha)
    (h6 : s.do_next_out = true) (h7 : t.do_next_out = true) (h : s.nextOut b = .ok (s', y)) :
    ∃ y', t.nextOut b = .ok ({ t with next_out := y', do_next_out := false }, y') ∧ s' = { s with next_out := y, do_next_out := false } ∧ y.Opposite y' := by
  simp only [LinearDelay.nextOut, h6, h7, if_true, Res.bind_ok] at h ⊢
  obtain ⟨m0, hm0, l, hl, h⟩ := h
  obtain ⟨m0', hm0', hmm0⟩ := idx_opposite h1 hm0
  rw [h2] at hm0'
  rw [h1.length_eq] at hl
  rw [h2] at h
  split at h
  · rename_i hlt
    obtain ⟨r1, hr1, h⟩ := Res.bind_ok.mp h
    obtain ⟨m1, hm1, h⟩ := Res.bind_ok.mp h
    injection h with h
    obtain ⟨rfl, rfl⟩ := Prod.mk.inj h
    obtain ⟨m1', hm1', hmm1⟩ := idx_opposite h1 hm1
    refine ⟨m0' *. t.om_alpha +. m1' *. t.alpha, ⟨m0', hm0', l, hl, ?_⟩, by rw [h2], ?_⟩
    · rw [if_pos hlt]
      exact Res.bind_ok.mpr ⟨r1, hr1, Res.bind_ok.mpr ⟨m1', hm1', rfl⟩⟩
    · rw [h4, h5]; exact (hmm0.mul_right _).add (hmm1.mul_right _)
  · rename_i hlt
    obtain ⟨m1, hm1, h⟩ := Res.bind_ok.mp h
    injection h with h
    obtain ⟨rfl, rfl⟩ := Prod.mk.inj h
    obtain ⟨m1', hm1', hmm1⟩ := idx_opposite h1 hm1
    refine ⟨m0' *. t.om_alpha +. m1' *. t.alpha, ⟨m0', hm0', l, hl, ?_⟩, by rw [h2], ?_⟩
    · rw [if_neg hlt]
      exact Res.bind_ok.mpr ⟨m1', hm1', rfl⟩
    · rw [h4, h5]; exact (hmm0.mul_right _).add (hmm1.mul_right _)

/-- **C85**, LinearDelay: after `clear`, unless `next_out` was called since the last sample. -/
theorem C85_linearDelay [Target] {D : Type} [FloatOps D] [DelayTime D (Fl L)] (s : LinearDelay D (Fl L)) (hs : s.do_next_out = true) : Inverts s.clear := by
  refine inverts_of (fun s t => List.Forall₂ Opposite s.memory t.memory ∧ s.read_ptr = t.read_ptr ∧ s.write_ptr = t.write_ptr ∧
    s.alpha = t.alpha ∧ s.om_alpha = t.om_alpha ∧ s.do_next_out = true ∧ t.do_next_out = true) ⟨forall₂_zero _, rfl, rfl, rfl, rfl, hs, hs⟩ ?_
  intro b s t s' x x' y ⟨h1, h2, h3, h4, h5, h6, h7⟩ hx h
  simp only [Processor.process, LinearDelay.process, Res.bind_ok] at h ⊢
  obtain ⟨m, hm, w, hw, wp, hwp, ⟨s1, o⟩, ho, r, hr, rp, hrp, h⟩ := h
  injection h with h
  obtain ⟨rfl, rfl⟩ := Prod.mk.inj h
  obtain ⟨m', hm', hmm⟩ := idxSet_opposite h1 hx hm
  obtain ⟨o', ho', rfl, hoo⟩ := nextOut_opposite (s := { s with memory := m, write_ptr := wp }) (t := { t with memory := m', write_ptr := wp }) hmm h2 h4 h5 h6 h7 ho
  simp only at hr hrp
  rw [hmm.length_eq] at hwp hrp
  rw [h2] at hr
  rw [h3] at hm' hw
  exact ⟨_, o', ⟨m', hm', w, hw, wp, hwp, (_, o'), ho', r, hr, rp, hrp, rfl⟩, ⟨hmm, rfl, rfl, h4, h5, rfl, rfl⟩, hoo⟩

/-- A pending announcement breaks it: the next sample returned is the announced one, whatever comes in. -/
theorem C85_linearDelay_pending [Target] {D : Type} [FloatOps D] [DelayTime D (Fl L)] {b : Build} {s s' : LinearDelay D (Fl L)} {x y : Fl L}
    (hs : s.do_next_out = false) (h : Processor.process b s.clear x = .ok (s', y)) : y = s.next_out := by
  simp only [Processor.process, LinearDelay.process, LinearDelay.clear, LinearDelay.nextOut, hs, Bool.false_eq_true, if_false, Res.bind_ok] at h
  obtain ⟨_, _, _, _, _, _, ⟨_, o⟩, ho, _, _, _, _, h⟩ := h
  injection ho with ho
  injection h with h
  rw [← (Prod.mk.inj h).2, ← (Prod.mk.inj ho).2]

/-- The response of a filter to a sample and to its negation. -/
example (x : Fl L) : ∀ n : ℕ, Opposite (if n = 0 then x else zero) (if n = 0 then neg x else zero) := by
  intro n; split
  · exact .neg x
  · exact .zero

end Rasp
