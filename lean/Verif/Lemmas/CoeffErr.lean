import Verif.Props.Rounding

/-!
# Filters with slightly wrong coefficients, in floating point
-/

namespace Rasp
open FloatOps

/-- How far the poles are from the unit circle, in terms of the coefficients. -/
theorem StablePoles.margin {a1 a2 m : ℝ} {p q : ℂ} (h : StablePoles a1 a2 p q) (h1 : 4 * m ≤ (1 - a2) ^ 2)
    (h2 : 4 * m ≤ (1 + a2 + a1) * (1 + a2 - a1)) : m ≤ (1 - ‖p‖) * (1 - ‖q‖) := by
  have hp := h.hp
  have hq := h.hq
  have np := norm_nonneg p
  have nq := norm_nonneg q
  have e1 : ‖p + q‖ = |a1| := by rw [h.sum, norm_neg, Complex.norm_real, Real.norm_eq_abs]
  have e2 : ‖p * q‖ = |a2| := by rw [h.prod, Complex.norm_real, Real.norm_eq_abs]
  have e3 : ‖p - q‖ * ‖p - q‖ = |a1 ^ 2 - 4 * a2| := by
    rw [← norm_mul, ← Real.norm_eq_abs, ← Complex.norm_real]
    congr 1
    push_cast
    rw [← h.prod, show (a1 : ℂ) = -(p + q) by rw [h.sum]; ring]
    ring
  have par : ‖p + q‖ * ‖p + q‖ + ‖p - q‖ * ‖p - q‖ = 2 * (‖p‖ * ‖p‖ + ‖q‖ * ‖q‖) := by
    simp only [Complex.norm_mul_self_eq_normSq, Complex.normSq_apply, Complex.add_re, Complex.add_im, Complex.sub_re, Complex.sub_im]
    ring
  rw [e3, e1] at par
  rw [norm_mul] at e2
  have e4 : (‖p‖ * ‖q‖) ^ 2 = a2 ^ 2 := by rw [e2, sq_abs]
  have e5 := abs_mul_abs_self a1
  have key : 4 * m ≤ (1 - ‖p‖ * ‖p‖) * (1 - ‖q‖ * ‖q‖) := by
    rcases le_total 0 (a1 ^ 2 - 4 * a2) with hd | hd
    · rw [abs_of_nonneg hd] at par; nlinarith
    · rw [abs_of_nonpos hd] at par; nlinarith
  have h4 : (1 + ‖p‖) * (1 + ‖q‖) ≤ 4 := by nlinarith
  have h5 : 0 ≤ (1 - ‖p‖) * (1 - ‖q‖) := mul_nonneg (by linarith) (by linarith)
  have h6 : (1 - ‖p‖ * ‖p‖) * (1 - ‖q‖ * ‖q‖) = ((1 - ‖p‖) * (1 - ‖q‖)) * ((1 + ‖p‖) * (1 + ‖q‖)) := by ring
  have := mul_le_mul_of_nonneg_left h4 h5
  linarith

/-- `m` measures the distance of the poles from the unit circle. -/
structure PoleMargin (a1 a2 m : ℝ) : Prop where
  stable : StablePair a1 a2
  pos : 0 < m
  one : 4 * m ≤ (1 - a2) ^ 2
  two : 4 * m ≤ (1 + a2 + a1) * (1 + a2 - a1)

namespace PoleMargin
variable {a1 a2 m : ℝ}

theorem poles (h : PoleMargin a1 a2 m) : ∃ p q : ℂ, StablePoles a1 a2 p q ∧ m ≤ (1 - ‖p‖) * (1 - ‖q‖) := by
  obtain ⟨p, q, h1, h2, h3, h4⟩ := h.stable.roots
  have hs : StablePoles a1 a2 p q := ⟨h1, h2, h3, h4⟩
  exact ⟨p, q, hs, hs.margin h.one h.two⟩

theorem le_one (h : PoleMargin a1 a2 m) : m ≤ 1 := by
  have h1 := h.one
  have := h.stable.1
  rw [abs_lt] at this
  nlinarith

/-- Small changes of the coefficients at most halve the margin. -/
theorem perturb {c1 c2 E : ℝ} (h : PoleMargin a1 a2 m) (h1 : |c1 - a1| ≤ E) (h2 : |c2 - a2| ≤ E) (hE : 8 * E ≤ m) :
    PoleMargin c1 c2 (m / 2) := by
  obtain ⟨⟨hs2, hs1⟩, h0, ho, ht⟩ := h
  have hm1 := PoleMargin.le_one ⟨⟨hs2, hs1⟩, h0, ho, ht⟩
  rw [abs_lt] at hs2 hs1
  rw [abs_le] at h1 h2
  have A : 2 * m ≤ 1 - a2 := by nlinarith
  have F : m ≤ 1 + a2 + a1 := by nlinarith
  have G : m ≤ 1 + a2 - a1 := by nlinarith
  have A' : 15 / 16 * (1 - a2) ≤ 1 - c2 := by linarith
  have F' : 3 / 4 * (1 + a2 + a1) ≤ 1 + c2 + c1 := by linarith
  have G' : 3 / 4 * (1 + a2 - a1) ≤ 1 + c2 - c1 := by linarith
  refine ⟨⟨?_, ?_⟩, by linarith, ?_, ?_⟩
  · rw [abs_lt]; constructor <;> linarith
  · rw [abs_lt]; constructor <;> linarith
  · nlinarith
  · have := mul_le_mul F' G' (by linarith) (by linarith)
    nlinarith

end PoleMargin

variable {f : Fmt} {L : Libm f}

/-- Finite coefficients, each within `E` of the given ones, and nothing in memory. -/
structure CoeffsWithin (s : Biquad2 (Fl L)) (b0 b1 b2 a1 a2 E : ℝ) : Prop where
  b0 : s.b0.Finite ∧ |s.b0.toReal - b0| ≤ E
  b1 : s.b1.Finite ∧ |s.b1.toReal - b1| ≤ E
  b2 : s.b2.Finite ∧ |s.b2.toReal - b2| ≤ E
  a1 : s.a1.Finite ∧ |s.a1.toReal - a1| ≤ E
  a2 : s.a2.Finite ∧ |s.a2.toReal - a2| ≤ E
  z1 : s.z1.Finite ∧ s.z1.toReal = 0
  z2 : s.z2.Finite ∧ s.z2.toReal = 0

/-- Two exact recursions with coefficients that differ by at most `E`. -/
theorem SolvesDiff.close {b0 b1 b2 a1 a2 c0 c1 c2 d1 d2 m E S X : ℝ} (h : PoleMargin a1 a2 m) (hE : 8 * E ≤ m)
    (h0 : |c0 - b0| ≤ E) (h1 : |c1 - b1| ≤ E) (h2 : |c2 - b2| ≤ E) (k1 : |d1 - a1| ≤ E) (k2 : |d2 - a2| ≤ E)
    (hS : |b0| + |b1| + |b2| ≤ S) {x y z : ℕ → ℝ} (hx : ∀ n, |x n| ≤ X) (hy : SolvesDiff b0 b1 b2 a1 a2 x y)
    (hz : SolvesDiff c0 c1 c2 d1 d2 x z) (n : ℕ) : |z n - y n| ≤ (6 + 4 * S) * E * X / m ^ 2 := by
  have hX : 0 ≤ X := (abs_nonneg _).trans (hx 0)
  have hE0 : 0 ≤ E := (abs_nonneg _).trans h0
  have hm := h.pos
  have hm1 := h.le_one
  have hS0 : 0 ≤ S := le_trans (by positivity) hS
  have lagle : ∀ {v : ℕ → ℝ} {B : ℝ} (_ : 0 ≤ B) (_ : ∀ n, |v n| ≤ B) (k n : ℕ), |lag v k n| ≤ B := by
    intro v B hB hv k n
    unfold lag
    split_ifs
    · exact hv _
    · simpa using hB
  obtain ⟨p, q, hp, hpm⟩ := h.poles
  have hyb : ∀ n, |y n| ≤ S * X / m := by
    intro n
    have := recursion_error hp.sum hp.prod hp.hp hp.hq (e := y) (d := fun n => b0 * x n + b1 * lag x 1 n + b2 * lag x 2 n)
      (B := S * X) (n := n) (fun n => by rw [hy n]) (fun j _ => by
        have t1 := abs_add_le (b0 * x j + b1 * lag x 1 j) (b2 * lag x 2 j)
        have t2 := abs_add_le (b0 * x j) (b1 * lag x 1 j)
        rw [abs_mul] at t1
        rw [abs_mul, abs_mul] at t2
        have q0 := mul_le_mul_of_nonneg_left (hx j) (abs_nonneg b0)
        have q1 := mul_le_mul_of_nonneg_left (lagle hX hx 1 j) (abs_nonneg b1)
        have q2 := mul_le_mul_of_nonneg_left (lagle hX hx 2 j) (abs_nonneg b2)
        have := mul_le_mul_of_nonneg_right hS hX
        linarith)
    exact this.trans (div_le_div_of_nonneg_left (by positivity) hm hpm)
  obtain ⟨p', q', hp', hpm'⟩ := (h.perturb k1 k2 hE).poles
  have hYB : 0 ≤ S * X / m := by positivity
  have := recursion_error hp'.sum hp'.prod hp'.hp hp'.hq (e := fun n => z n - y n)
    (d := fun n => (c0 - b0) * x n + (c1 - b1) * lag x 1 n + (c2 - b2) * lag x 2 n - (d1 - a1) * lag y 1 n - (d2 - a2) * lag y 2 n)
    (B := (3 + 2 * S) * E * X / m) (n := n) (fun n => by
      rw [hz n, hy n]
      have l : ∀ k, lag (fun n => z n - y n) k n = lag z k n - lag y k n := by
        intro k; unfold lag; split_ifs <;> simp
      rw [l, l]; ring) (fun j _ => by
      have e0 := mul_le_mul h0 (hx j) (abs_nonneg _) hE0
      have e1 := mul_le_mul h1 (lagle hX hx 1 j) (abs_nonneg _) hE0
      have e2 := mul_le_mul h2 (lagle hX hx 2 j) (abs_nonneg _) hE0
      have e3 := mul_le_mul k1 (lagle hYB hyb 1 j) (abs_nonneg _) hE0
      have e4 := mul_le_mul k2 (lagle hYB hyb 2 j) (abs_nonneg _) hE0
      rw [← abs_mul] at e0 e1 e2 e3 e4
      have t1 := abs_sub ((c0 - b0) * x j + (c1 - b1) * lag x 1 j + (c2 - b2) * lag x 2 j - (d1 - a1) * lag y 1 j)
        ((d2 - a2) * lag y 2 j)
      have t2 := abs_sub ((c0 - b0) * x j + (c1 - b1) * lag x 1 j + (c2 - b2) * lag x 2 j) ((d1 - a1) * lag y 1 j)
      have t3 := abs_add_le ((c0 - b0) * x j + (c1 - b1) * lag x 1 j) ((c2 - b2) * lag x 2 j)
      have t4 := abs_add_le ((c0 - b0) * x j) ((c1 - b1) * lag x 1 j)
      have t5 : 3 * (E * X) ≤ 3 * (E * X / m) := by
        have : E * X ≤ E * X / m := by rw [le_div_iff₀ hm]; nlinarith [mul_nonneg hE0 hX]
        linarith
      have t6 : (3 + 2 * S) * E * X / m = 3 * (E * X / m) + 2 * (E * (S * X / m)) := by ring
      rw [t6]
      linarith)
  refine this.trans ((div_le_div_of_nonneg_left (by positivity) (by linarith) hpm').trans (le_of_eq ?_))
  field_simp
  ring

/-- A biquad with coefficients near those of a stable filter, in floating point, against that filter in exact
arithmetic. -/
theorem CoeffsWithin.tracks {s : Biquad2 (Fl L)} {b0 b1 b2 a1 a2 E m S X : ℝ} (hc : CoeffsWithin s b0 b1 b2 a1 a2 E)
    (h : PoleMargin a1 a2 m) (hE : 8 * E ≤ m) (hS : |b0| + |b1| + |b2| + |a1| + |a2| ≤ S) (hX : 0 ≤ X)
    (hprec : 64 * (2 + S) ≤ m * 2 ^ f.p) (hrange : 592 * (2 * (2 + S)) ^ 2 * (X + f.tiny) ≤ m ^ 2 * 2 ^ f.emax)
    {τ : Type} [Processor τ ℝ] {r : τ} (hr : Implements r b0 b1 b2 a1 a2) :
    Tracks s r X ((448 * (2 + S) ^ 2 * (f.u * X + f.tiny) + (6 + 4 * S) * E * X) / m ^ 2) := by
  have hm := h.pos
  have hm1 := h.le_one
  have hE0 : 0 ≤ E := (abs_nonneg _).trans hc.b0.2
  have hS0 : 0 ≤ S := le_trans (by positivity) hS
  have ht := f.tiny_pos
  have hu := f.u_pos
  obtain ⟨p, q, hp, hpm⟩ := (h.perturb hc.a1.2 hc.a2.2 hE).poles
  have near : ∀ {c b : ℝ}, |c - b| ≤ E → |c| ≤ |b| + E := fun {c b} hcb => by
    have := abs_add_le (c - b) b; rw [sub_add_cancel] at this; linarith
  have hsize : s.size ≤ S + 1 := by
    unfold Biquad2.size
    have := near hc.b0.2; have := near hc.b1.2; have := near hc.b2.2; have := near hc.a1.2; have := near hc.a2.2
    linarith
  have hsize0 : 0 ≤ s.size := by unfold Biquad2.size; positivity
  have hD : 0 < (1 - ‖p‖) * (1 - ‖q‖) := by linarith
  have hQ : errGain s.size p q ≤ 2 * (2 + S) / m := by
    unfold errGain
    rw [div_le_div_iff₀ hD hm]
    nlinarith
  have hQ0 : 0 ≤ errGain s.size p q := by unfold errGain; positivity
  have hQ2 : errGain s.size p q ^ 2 ≤ (2 * (2 + S)) ^ 2 / m ^ 2 := by
    rw [← div_pow]; exact pow_le_pow_left₀ hQ0 hQ 2
  have hfit : FitsFormat f (errGain s.size p q) X := by
    constructor
    · have : 2 * (2 + S) / m * 32 ≤ 2 ^ f.p := by
        rw [div_mul_eq_mul_div, div_le_iff₀ hm]; linarith
      linarith
    · have h1 : 592 * ((2 * (2 + S)) ^ 2 / m ^ 2) * (X + f.tiny) ≤ 2 ^ f.emax := by
        rw [show 592 * ((2 * (2 + S)) ^ 2 / m ^ 2) * (X + f.tiny) = 592 * (2 * (2 + S)) ^ 2 * (X + f.tiny) / m ^ 2 by ring,
          div_le_iff₀ (by positivity)]
        linarith
      refine le_trans (mul_le_mul_of_nonneg_right ?_ (by positivity)) h1
      linarith
  have hz1 : s.z1.Within X := ⟨hc.z1.1, by rw [hc.z1.2]; simpa using hX⟩
  have hz2 : s.z2.Within X := ⟨hc.z2.1, by rw [hc.z2.2]; simpa using hX⟩
  have ht := C73_biquad2 hc.b0.1 hc.b1.1 hc.b2.1 hc.a1.1 hc.a2.1 hz1 hz2 hp hfit
  refine ⟨ht.1, fun b x => hr.from.total b x, ?_⟩
  intro b x y z hx hy hz n
  obtain ⟨w, hw⟩ := ht.2.1 b (fun n => (x n).toReal)
  obtain ⟨hf, he⟩ := ht.2.2 b x y w hx hy hw n
  refine ⟨hf, ?_⟩
  have hw' := ((Biquad2.implementsFrom s.exact) b _ w).mp hw
  have hw2 : SolvesDiff s.b0.toReal s.b1.toReal s.b2.toReal s.a1.toReal s.a2.toReal (fun n => (x n).toReal) w := by
    intro n
    have := hw' n
    simp only [Biquad2.exact, hc.z1.2, hc.z2.2, ite_self, add_zero] at this
    exact this
  have hd := SolvesDiff.close (S := S) h hE hc.b0.2 hc.b1.2 hc.b2.2 hc.a1.2 hc.a2.2
    (by have := abs_nonneg a1; have := abs_nonneg a2; linarith) (fun n => (hx n).2) ((hr b _ _).mp hz) hw2 n
  have hb : errBound f (errGain s.size p q) X ≤ 448 * (2 + S) ^ 2 * (f.u * X + f.tiny) / m ^ 2 := by
    unfold errBound
    have := mul_le_mul_of_nonneg_right hQ2 (show 0 ≤ 112 * (f.u * X + f.tiny) by positivity)
    calc _ = errGain s.size p q ^ 2 * (112 * (f.u * X + f.tiny)) := by ring
      _ ≤ _ := this
      _ = _ := by ring
  have := abs_add_le ((y n).toReal - w n) (w n - z n)
  rw [sub_add_sub_cancel] at this
  rw [add_div]
  linarith

end Rasp
