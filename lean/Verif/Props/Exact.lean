import Verif.Spec.Exact
import Verif.Props.Filters
import Verif.Props.CombFloat
import Verif.Lemmas.WindowsFl

/-!
# C139: when the filters are exact in floating point
-/

namespace Rasp
open Finset FloatOps Fl
variable {f : Fmt} {L : Libm f} {b : Build} {q : ℤ} {M : ℝ}

/-! ## Multiples of a power of two -/

theorem Multiple.zero (q : ℤ) : Multiple q 0 := ⟨0, by simp⟩

theorem Multiple.add {x y : ℝ} (hx : Multiple q x) (hy : Multiple q y) : Multiple q (x + y) := by
  obtain ⟨m, rfl⟩ := hx
  obtain ⟨n, rfl⟩ := hy
  exact ⟨m + n, by push_cast; ring⟩

theorem Multiple.neg {x : ℝ} (hx : Multiple q x) : Multiple q (-x) := by
  obtain ⟨m, rfl⟩ := hx
  exact ⟨-m, by push_cast; ring⟩

theorem Multiple.sub {x y : ℝ} (hx : Multiple q x) (hy : Multiple q y) : Multiple q (x - y) := by
  rw [sub_eq_add_neg]; exact hx.add hy.neg

theorem Multiple.mul {p : ℤ} {x y : ℝ} (hx : Multiple p x) (hy : Multiple q y) : Multiple (p + q) (x * y) := by
  obtain ⟨m, rfl⟩ := hx
  obtain ⟨n, rfl⟩ := hy
  exact ⟨m * n, by rw [zpow_add₀ (by norm_num)]; push_cast; ring⟩

theorem Multiple.int_mul {x y : ℝ} (hx : Multiple 0 x) (hy : Multiple q y) : Multiple q (x * y) := by
  have := hx.mul hy
  rwa [zero_add] at this

theorem Multiple.sum {ι : Type} {s : Finset ι} {x : ι → ℝ} (h : ∀ i ∈ s, Multiple q (x i)) : Multiple q (∑ i ∈ s, x i) := by
  classical
  induction s using Finset.induction_on with
  | empty => exact Multiple.zero q
  | insert i s hi ih =>
    rw [sum_insert hi]
    exact (h i (mem_insert_self i s)).add (ih fun j hj => h j (mem_insert_of_mem hj))

theorem Multiple.lag {x : ℕ → ℝ} (h : ∀ n, Multiple q (x n)) (k n : ℕ) : Multiple q (lag x k n) := by
  unfold Rasp.lag
  split_ifs
  · exact h _
  · exact Multiple.zero q

theorem Fmt.Holds.isRep (h : f.Holds q M) {x : ℝ} (hx : Multiple q x) (hM : |x| ≤ M) : IsRep f x ∧ |x| < f.lim := by
  obtain ⟨m, rfl⟩ := hx
  refine ⟨⟨m, q, ?_, h.1, rfl⟩, hM.trans_lt h.2.2⟩
  have h1 := hM.trans_lt h.2.1
  have h2 : (0 : ℝ) < 2 ^ q := by positivity
  rw [abs_mul, abs_of_pos h2, zpow_add₀ (by norm_num), mul_comm ((2 : ℝ) ^ q)] at h1
  have h3 := lt_of_mul_lt_mul_right h1 h2.le
  rw [zpow_natCast] at h3
  exact_mod_cast h3

/-! ## One operation -/

theorem Fl.Exactly.add (h : f.Holds q M) {x y : Fl L} {r t : ℝ} (hx : x.Exactly r) (hy : y.Exactly t) (hm : Multiple q (r + t)) (hM : |r + t| ≤ M) :
    (x +. y).Exactly (r + t) := by
  obtain ⟨h1, h2⟩ := h.isRep hm hM
  have h3 := rnd_of_isRep h1
  obtain ⟨a, c⟩ := add_val hx.1 hy.1 (by unfold FP.NoOvf; rw [hx.2, hy.2, h3]; exact h2)
  exact ⟨a, by rw [c, hx.2, hy.2, h3]⟩

theorem Fl.Exactly.sub (h : f.Holds q M) {x y : Fl L} {r t : ℝ} (hx : x.Exactly r) (hy : y.Exactly t) (hm : Multiple q (r - t)) (hM : |r - t| ≤ M) :
    (x -. y).Exactly (r - t) := by
  obtain ⟨h1, h2⟩ := h.isRep hm hM
  have h3 := rnd_of_isRep h1
  obtain ⟨a, c⟩ := sub_val hx.1 hy.1 (by unfold FP.NoOvf; rw [hx.2, hy.2, h3]; exact h2)
  exact ⟨a, by rw [c, hx.2, hy.2, h3]⟩

theorem Fl.Exactly.mul (h : f.Holds q M) {x y : Fl L} {r t : ℝ} (hx : x.Exactly r) (hy : y.Exactly t) (hm : Multiple q (r * t)) (hM : |r * t| ≤ M) :
    (x *. y).Exactly (r * t) := by
  obtain ⟨h1, h2⟩ := h.isRep hm hM
  have h3 := rnd_of_isRep h1
  obtain ⟨a, c⟩ := mul_val hx.1 hy.1 (by unfold FP.NoOvf; rw [hx.2, hy.2, h3]; exact h2)
  exact ⟨a, by rw [c, hx.2, hy.2, h3]⟩

theorem Fl.Exactly.lag {x : ℕ → Fl L} {r : ℕ → ℝ} {k n : ℕ} (hk : 1 ≤ k) (h : ∀ j < n, (x j).Exactly (r j)) : (lag x k n).Exactly (lag r k n) := by
  unfold Rasp.lag
  split_ifs with hkn
  · exact h _ (by omega)
  · exact ⟨zero_finite, by rw [zero_toReal, real_zero]⟩

theorem lag_abs_le {r : ℕ → ℝ} {B : ℝ} (hB : 0 ≤ B) {k n : ℕ} (hk : 1 ≤ k) (h : ∀ j < n, |r j| ≤ B) : |lag r k n| ≤ B := by
  unfold lag
  split_ifs with hkn
  · exact h _ (by omega)
  · rw [real_zero, _root_.abs_zero]; exact hB

/-! ## The filters -/

namespace ExactCase
variable {qb qx : ℤ} {X Y : ℝ} {N : ℕ} {b0 b1 b2 a1 a2 : Fl L} {x : ℕ → Fl L} {z : ℕ → ℝ}

theorem mult (h : ExactCase L qb qx X Y N b0 b1 b2 a1 a2 x z) (n : ℕ) : Multiple (qb + qx) (z n) := by
  induction n using Nat.strong_induction_on with
  | _ n ih =>
    have hl : ∀ k, 1 ≤ k → Multiple (qb + qx) (lag z k n) := by
      intro k hk
      unfold lag
      split_ifs with hkn
      · exact ih _ (by omega)
      · exact Multiple.zero _
    rw [h.hz n]
    exact (((((h.hb0.2.mul (h.hx n).2).add (h.hb1.2.mul (Multiple.lag (fun n => (h.hx n).2) 1 n))).add
      (h.hb2.2.mul (Multiple.lag (fun n => (h.hx n).2) 2 n))).sub (h.ha1.2.int_mul (hl 1 le_rfl))).sub (h.ha2.2.int_mul (hl 2 (by norm_num))))

/-- The five products. -/
theorem products (h : ExactCase L qb qx X Y N b0 b1 b2 a1 a2 x z) {y : ℕ → Fl L} {n : ℕ} (hn : n ≤ N) (hy : ∀ j < n, (y j).Exactly (z j)) :
    ∃ P0 P1 P2 P3 P4 : ℝ, (b0 *. x n).Exactly P0 ∧ (b1 *. lag x 1 n).Exactly P1 ∧ (b2 *. lag x 2 n).Exactly P2 ∧ (a1 *. lag y 1 n).Exactly P3 ∧
      (a2 *. lag y 2 n).Exactly P4 ∧ (Multiple (qb + qx) P0 ∧ Multiple (qb + qx) P1 ∧ Multiple (qb + qx) P2 ∧ Multiple (qb + qx) P3 ∧ Multiple (qb + qx) P4) ∧
      |P0| + |P1| + |P2| + |P3| + |P4| ≤ (|b0.toReal| + |b1.toReal| + |b2.toReal|) * X + (|a1.toReal| + |a2.toReal|) * Y ∧
      z n = P0 + P1 + P2 - P3 - P4 ∧ (b1.toReal = 0 → P1 = 0) ∧ (b2.toReal = 0 → P2 = 0) ∧ (a1.toReal = 0 → P3 = 0) ∧ (a2.toReal = 0 → P4 = 0) := by
  have hX : 0 ≤ X := (abs_nonneg _).trans (h.hx 0).1.2
  have ex : ∀ j, (x j).Exactly (x j).toReal := fun j => ⟨(h.hx j).1.1, rfl⟩
  have m0 := (h.hx n).2
  have m1 := Multiple.lag (fun n => (h.hx n).2) 1 n
  have m2 := Multiple.lag (fun n => (h.hx n).2) 2 n
  have x0 : |(x n).toReal| ≤ X := (h.hx n).1.2
  have x1 : |lag (fun n => (x n).toReal) 1 n| ≤ X := lag_abs_le hX le_rfl fun j _ => (h.hx j).1.2
  have x2 : |lag (fun n => (x n).toReal) 2 n| ≤ X := lag_abs_le hX (by norm_num) fun j _ => (h.hx j).1.2
  have e1 : (lag x 1 n).Exactly (lag (fun n => (x n).toReal) 1 n) := Fl.Exactly.lag le_rfl fun j _ => ex j
  have e2 : (lag x 2 n).Exactly (lag (fun n => (x n).toReal) 2 n) := Fl.Exactly.lag (by norm_num) fun j _ => ex j
  have n1 : Multiple (qb + qx) (lag z 1 n) := Multiple.lag h.mult 1 n
  have n2 : Multiple (qb + qx) (lag z 2 n) := Multiple.lag h.mult 2 n
  have f1 : (lag y 1 n).Exactly (lag z 1 n) := Fl.Exactly.lag le_rfl hy
  have f2 : (lag y 2 n).Exactly (lag z 2 n) := Fl.Exactly.lag (by norm_num) hy
  have z1 : |lag z 1 n| ≤ Y := lag_abs_le h.hY le_rfl fun j hj => h.small j (by omega)
  have z2 : |lag z 2 n| ≤ Y := lag_abs_le h.hY (by norm_num) fun j hj => h.small j (by omega)
  have hb0 := abs_nonneg b0.toReal
  have hb1 := abs_nonneg b1.toReal
  have hb2 := abs_nonneg b2.toReal
  have ha1 := abs_nonneg a1.toReal
  have ha2 := abs_nonneg a2.toReal
  have hh := h.holds
  have hY := h.hY
  have p0 := abs_le.mp ((abs_mul b0.toReal (x n).toReal).le.trans (mul_le_mul_of_nonneg_left x0 hb0))
  have p1 := abs_le.mp ((abs_mul b1.toReal (lag (fun n => (x n).toReal) 1 n)).le.trans (mul_le_mul_of_nonneg_left x1 hb1))
  have p2 := abs_le.mp ((abs_mul b2.toReal (lag (fun n => (x n).toReal) 2 n)).le.trans (mul_le_mul_of_nonneg_left x2 hb2))
  have p3 := abs_le.mp ((abs_mul a1.toReal (lag z 1 n)).le.trans (mul_le_mul_of_nonneg_left z1 ha1))
  have p4 := abs_le.mp ((abs_mul a2.toReal (lag z 2 n)).le.trans (mul_le_mul_of_nonneg_left z2 ha2))
  have q0 := mul_nonneg hb0 hX
  have q1 := mul_nonneg hb1 hX
  have q2 := mul_nonneg hb2 hX
  have q3 := mul_nonneg ha1 hY
  have q4 := mul_nonneg ha2 hY
  have r0 := Fl.Exactly.mul hh ⟨h.hb0.1, rfl⟩ (ex n) (h.hb0.2.mul m0) (abs_le.mpr ⟨by linarith, by linarith⟩)
  have r1 := Fl.Exactly.mul hh ⟨h.hb1.1, rfl⟩ e1 (h.hb1.2.mul m1) (abs_le.mpr ⟨by linarith, by linarith⟩)
  have r2 := Fl.Exactly.mul hh ⟨h.hb2.1, rfl⟩ e2 (h.hb2.2.mul m2) (abs_le.mpr ⟨by linarith, by linarith⟩)
  have r3 := Fl.Exactly.mul hh ⟨h.ha1.1, rfl⟩ f1 (h.ha1.2.int_mul n1) (abs_le.mpr ⟨by linarith, by linarith⟩)
  have r4 := Fl.Exactly.mul hh ⟨h.ha2.1, rfl⟩ f2 (h.ha2.2.int_mul n2) (abs_le.mpr ⟨by linarith, by linarith⟩)
  exact ⟨_, _, _, _, _, r0, r1, r2, r3, r4, ⟨h.hb0.2.mul m0, h.hb1.2.mul m1, h.hb2.2.mul m2, h.ha1.2.int_mul n1, h.ha2.2.int_mul n2⟩,
    by linarith [abs_le.mpr p0, abs_le.mpr p1, abs_le.mpr p2, abs_le.mpr p3, abs_le.mpr p4],
    h.hz n, fun h => by rw [h, zero_mul], fun h => by rw [h, zero_mul], fun h => by rw [h, zero_mul], fun h => by rw [h, zero_mul]⟩

end ExactCase

theorem exactUpTo_of {σ : Type} [Processor σ (Fl L)] {s : σ} {x : ℕ → Fl L} {z : ℕ → ℝ} {N : ℕ}
    (ht : ∀ (b : Build) (s : σ) (x : Fl L), ∃ s' y, Processor.process b s x = .ok (s', y))
    (h : ∀ (b : Build) (y : ℕ → Fl L), Responds b s x y → ∀ n ≤ N, (∀ j < n, (y j).Exactly (z j)) → (y n).Exactly (z n)) : ExactUpTo s x z N := by
  refine fun b => ⟨?_, fun y hy n => ?_⟩
  · choose s' y hs using ht b
    let S : ℕ → σ := fun n => Nat.rec s (fun k t => s' t (x k)) n
    exact ⟨fun n => y (S n) (x n), S, rfl, fun n => hs _ _⟩
  · induction n using Nat.strong_induction_on with
    | _ n ih => exact fun hn => h b y hy n hn fun j hj => ih j hj (by omega)

section filters
variable {qb qx : ℤ} {X Y : ℝ} {N : ℕ} {x : ℕ → Fl L} {z : ℕ → ℝ}

/-- **C139**. `OnePole` is exact as long as the numbers fit. -/
theorem C139_onePole {s : OnePole (Fl L)} (h : ExactCase L qb qx X Y N s.b0 zero zero s.a1 zero x z) : ExactUpTo s.clear x z N := by
  refine exactUpTo_of (fun _ _ _ => ⟨_, _, rfl⟩) fun b y hy n hn ih => ?_
  rw [C30_onePole] at hy
  obtain ⟨P0, P1, P2, P3, P4, r0, r1, r2, r3, r4, ⟨k0, k1, k2, k3, k4⟩, hM, hz, z1, z2, z3, z4⟩ := h.products hn ih
  rw [hy n, hz, z1 zero_toReal, z2 zero_toReal, z4 zero_toReal, sub_zero, add_zero, add_zero]
  have := abs_sub P0 P3
  exact r0.sub h.holds r3 (k0.sub k3) (by linarith [abs_nonneg P1, abs_nonneg P2, abs_nonneg P4])

/-- **C139**. `OneZero` is exact as long as the numbers fit. -/
theorem C139_oneZero {s : OneZero (Fl L)} (h : ExactCase L qb qx X Y N s.b0 s.b1 zero zero zero x z) : ExactUpTo s.clear x z N := by
  refine exactUpTo_of (fun _ _ _ => ⟨_, _, rfl⟩) fun b y hy n hn ih => ?_
  rw [C30_oneZero] at hy
  obtain ⟨P0, P1, P2, P3, P4, r0, r1, r2, r3, r4, ⟨k0, k1, k2, k3, k4⟩, hM, hz, z1, z2, z3, z4⟩ := h.products hn ih
  rw [hy n, hz, z2 zero_toReal, z3 zero_toReal, z4 zero_toReal, sub_zero, sub_zero, add_zero]
  have := abs_add_le P0 P1
  exact r0.add h.holds r1 (k0.add k1) (by linarith [abs_nonneg P3, abs_nonneg P2, abs_nonneg P4])

/-- **C139**. `TwoPole` is exact as long as the numbers fit. -/
theorem C139_twoPole {s : TwoPole (Fl L)} (h : ExactCase L qb qx X Y N s.b0 zero zero s.a1 s.a2 x z) : ExactUpTo s.clear x z N := by
  refine exactUpTo_of (fun _ _ _ => ⟨_, _, rfl⟩) fun b y hy n hn ih => ?_
  rw [C30_twoPole] at hy
  obtain ⟨P0, P1, P2, P3, P4, r0, r1, r2, r3, r4, ⟨k0, k1, k2, k3, k4⟩, hM, hz, z1, z2, z3, z4⟩ := h.products hn ih
  rw [hy n, hz, z1 zero_toReal, z2 zero_toReal, add_zero, add_zero]
  have h1 := abs_sub P0 P3
  have h2 := abs_sub (P0 - P3) P4
  have := abs_nonneg P4
  exact (r0.sub h.holds r3 (k0.sub k3) (by linarith [abs_nonneg P1, abs_nonneg P2])).sub h.holds r4 ((k0.sub k3).sub k4)
    (by linarith [abs_nonneg P1, abs_nonneg P2])

/-- **C139**. `TwoZero` is exact as long as the numbers fit. -/
theorem C139_twoZero {s : TwoZero (Fl L)} (h : ExactCase L qb qx X Y N s.b0 s.b1 s.b2 zero zero x z) : ExactUpTo s.clear x z N := by
  refine exactUpTo_of (fun _ _ _ => ⟨_, _, rfl⟩) fun b y hy n hn ih => ?_
  rw [C30_twoZero] at hy
  obtain ⟨P0, P1, P2, P3, P4, r0, r1, r2, r3, r4, ⟨k0, k1, k2, k3, k4⟩, hM, hz, z1, z2, z3, z4⟩ := h.products hn ih
  rw [hy n, hz, z3 zero_toReal, z4 zero_toReal, sub_zero, sub_zero]
  have h1 := abs_add_le P0 P1
  have h2 := abs_add_le (P0 + P1) P2
  have := abs_nonneg P2
  exact (r0.add h.holds r1 (k0.add k1) (by linarith [abs_nonneg P3, abs_nonneg P4])).add h.holds r2 ((k0.add k1).add k2)
    (by linarith [abs_nonneg P3, abs_nonneg P4])

/-- **C139**. `Biquad1` is exact as long as the numbers fit. -/
theorem C139_biquad1 {s : Biquad1 (Fl L)} (h : ExactCase L qb qx X Y N s.b0 s.b1 s.b2 s.a1 s.a2 x z) : ExactUpTo s.clear x z N := by
  refine exactUpTo_of (fun _ _ _ => ⟨_, _, rfl⟩) fun b y hy n hn ih => ?_
  rw [C30_biquad1] at hy
  obtain ⟨P0, P1, P2, P3, P4, r0, r1, r2, r3, r4, ⟨k0, k1, k2, k3, k4⟩, hM, hz, -⟩ := h.products hn ih
  rw [hy n, hz]
  have h1 := abs_add_le P0 P1
  have h2 := abs_add_le (P0 + P1) P2
  have h3 := abs_sub (P0 + P1 + P2) P3
  have h4 := abs_sub (P0 + P1 + P2 - P3) P4
  have a2 := abs_nonneg P2
  have a3 := abs_nonneg P3
  have a4 := abs_nonneg P4
  exact (((r0.add h.holds r1 (k0.add k1) (by linarith)).add h.holds r2 ((k0.add k1).add k2) (by linarith)).sub h.holds r3 (((k0.add k1).add k2).sub k3)
    (by linarith)).sub h.holds r4 ((((k0.add k1).add k2).sub k3).sub k4) (by linarith)

/-- **C139**. `Biquad2`, whose states are partial sums, is exact as long as the numbers fit. -/
theorem C139_biquad2 {s : Biquad2 (Fl L)} (h : ExactCase L qb qx X Y N s.b0 s.b1 s.b2 s.a1 s.a2 x z) : ExactUpTo s.clear x z N := by
  intro b
  refine ⟨NeverPanics.responds (fun _ _ _ => ⟨_, _, rfl⟩) b _ x, fun y hy => ?_⟩
  rw [C30_biquad2] at hy
  obtain ⟨w1, w2, i1, i2, hw⟩ := hy
  have hX : 0 ≤ X := (abs_nonneg _).trans (h.hx 0).1.2
  have hY := h.hY
  have hh := h.holds
  set M := (|s.b0.toReal| + |s.b1.toReal| + |s.b2.toReal|) * X + (|s.a1.toReal| + |s.a2.toReal|) * Y with hM
  have q0 := mul_nonneg (abs_nonneg s.b0.toReal) hX
  have q1 := mul_nonneg (abs_nonneg s.b1.toReal) hX
  have q2 := mul_nonneg (abs_nonneg s.b2.toReal) hX
  have q3 := mul_nonneg (abs_nonneg s.a1.toReal) hY
  have q4 := mul_nonneg (abs_nonneg s.a2.toReal) hY
  have hM' : M = |s.b0.toReal| * X + |s.b1.toReal| * X + |s.b2.toReal| * X + |s.a1.toReal| * Y + |s.a2.toReal| * Y := by rw [hM]; ring
  have tb : ∀ c : Fl L, c.Finite ∧ Multiple qb c.toReal → |c.toReal| * X ≤ M → ∀ n,
      (c *. x n).Exactly (c.toReal * (x n).toReal) ∧ |c.toReal * (x n).toReal| ≤ |c.toReal| * X ∧ Multiple (qb + qx) (c.toReal * (x n).toReal) := by
    intro c hc hcM n
    have h1 : |c.toReal * (x n).toReal| ≤ |c.toReal| * X := (abs_mul _ _).le.trans (mul_le_mul_of_nonneg_left (h.hx n).1.2 (abs_nonneg _))
    have h2 := hc.2.mul (h.hx n).2
    exact ⟨Fl.Exactly.mul hh ⟨hc.1, rfl⟩ ⟨(h.hx n).1.1, rfl⟩ h2 (h1.trans hcM), h1, h2⟩
  have ta : ∀ c : Fl L, c.Finite ∧ Multiple 0 c.toReal → |c.toReal| * Y ≤ M → ∀ n < N, (y n).Exactly (z n) →
      (c *. y n).Exactly (c.toReal * z n) ∧ |c.toReal * z n| ≤ |c.toReal| * Y ∧ Multiple (qb + qx) (c.toReal * z n) := by
    intro c hc hcM n hn hy
    have h1 : |c.toReal * z n| ≤ |c.toReal| * Y := (abs_mul _ _).le.trans (mul_le_mul_of_nonneg_left (h.small n hn) (abs_nonneg _))
    have h2 := hc.2.int_mul (h.mult n)
    exact ⟨Fl.Exactly.mul hh ⟨hc.1, rfl⟩ hy h2 (h1.trans hcM), h1, h2⟩
  -- the states, and the outputs before
  have key : ∀ n ≤ N, (∀ j < n, (y j).Exactly (z j)) ∧
      ((w1 n).Exactly (z n - s.b0.toReal * (x n).toReal) ∧ |z n - s.b0.toReal * (x n).toReal| ≤ M - |s.b0.toReal| * X) ∧
      ∃ r, (w2 n).Exactly r ∧ |r| ≤ |s.b2.toReal| * X + |s.a2.toReal| * Y ∧ Multiple (qb + qx) r ∧
        ∀ m, m = n + 1 → m ≤ N → z m - s.b0.toReal * (x m).toReal = s.b1.toReal * (x n).toReal + r - s.a1.toReal * z n := by
    intro n
    induction n with
    | zero =>
      intro _
      refine ⟨by omega, ?_, 0, ?_, ?_, Multiple.zero _, ?_⟩
      · have e : z 0 - s.b0.toReal * (x 0).toReal = 0 := by
          rw [h.hz 0]; simp [lag, real_zero]
        rw [e, i1]
        exact ⟨⟨zero_finite, zero_toReal⟩, by rw [_root_.abs_zero]; linarith⟩
      · rw [i2]; exact ⟨zero_finite, zero_toReal⟩
      · rw [_root_.abs_zero]; linarith
      · rintro m rfl -
        rw [h.hz 1]; simp [lag, real_zero]; ring
    | succ n ih =>
      intro hn
      obtain ⟨j1, ⟨j2, j3⟩, r, j4, j5, j6, j7⟩ := ih (by omega)
      obtain ⟨b01, b02, b03⟩ := tb _ h.hb0 (by linarith) n
      obtain ⟨b11, b12, b13⟩ := tb _ h.hb1 (by linarith) n
      obtain ⟨b21, b22, b23⟩ := tb _ h.hb2 (by linarith) n
      have hyn : (y n).Exactly (z n) := by
        have e : s.b0.toReal * (x n).toReal + (z n - s.b0.toReal * (x n).toReal) = z n := by ring
        rw [(hw n).1]
        have := b01.add hh j2 (by rw [e]; exact h.mult n) ((abs_add_le _ _).trans (by linarith))
        rwa [e] at this
      obtain ⟨a11, a12, a13⟩ := ta _ h.ha1 (by linarith) n (by omega) hyn
      obtain ⟨a21, a22, a23⟩ := ta _ h.ha2 (by linarith) n (by omega) hyn
      have c1 := abs_add_le (s.b1.toReal * (x n).toReal) r
      have c2 := abs_sub (s.b1.toReal * (x n).toReal + r) (s.a1.toReal * z n)
      have c3 := abs_sub (s.b2.toReal * (x n).toReal) (s.a2.toReal * z n)
      refine ⟨fun j hj => ?_, ?_, s.b2.toReal * (x n).toReal - s.a2.toReal * z n, ?_, by linarith, b23.sub a23, ?_⟩
      · rcases Nat.lt_succ_iff_lt_or_eq.mp hj with hj | rfl
        · exact j1 j hj
        · exact hyn
      · rw [j7 (n + 1) rfl hn, (hw n).2.1]
        exact ⟨(b11.add hh j4 (b13.add j6) (by linarith)).sub hh a11 ((b13.add j6).sub a13) (by linarith), by linarith⟩
      · rw [(hw n).2.2]
        exact b21.sub hh a21 (b23.sub a23) (by linarith)
      · rintro m rfl -
        rw [h.hz (n + 1 + 1)]
        simp only [lag_succ_succ, lag_zero]
        ring
  intro n hn
  obtain ⟨-, ⟨j2, j3⟩, -⟩ := key n hn
  obtain ⟨b01, b02, b03⟩ := tb _ h.hb0 (by linarith) n
  have e : s.b0.toReal * (x n).toReal + (z n - s.b0.toReal * (x n).toReal) = z n := by ring
  rw [(hw n).1]
  have := b01.add hh j2 (by rw [e]; exact h.mult n) ((abs_add_le _ _).trans (by linarith))
  rwa [e] at this

end filters

/-! ## Sums, differences, moving sums -/

section sums
variable {X Y : ℝ} {N : ℕ} {x : ℕ → Fl L}

theorem multiple_one : Multiple 0 1 := ⟨1, by norm_num⟩

/-- **C139**. Running sums by `OnePole(1, -1)`: exact as long as they stay below `Y`. -/
theorem C139_running_sum (hx : ∀ n, (x n).Within X ∧ Multiple q (x n).toReal) (hY : 0 ≤ Y) (hs : ∀ n < N, |∑ k ∈ range (n + 1), (x k).toReal| ≤ Y)
    (hf : f.Holds q (X + Y)) : ExactUpTo (OnePole.new.setCoefficients one (neg one) : OnePole (Fl L)) x (fun n => ∑ k ∈ range (n + 1), (x k).toReal) N := by
  refine C139_onePole (s := OnePole.new.setCoefficients one (neg one)) (qb := 0) (qx := q) (X := X) (Y := Y)
    ⟨⟨one_finite, ?_⟩, ⟨zero_finite, ?_⟩, ⟨zero_finite, ?_⟩, ⟨neg_finite.mpr one_finite, ?_⟩, ⟨zero_finite, ?_⟩, hx, fun n => ?_, hY, hs, ?_⟩
  · rw [show (OnePole.new.setCoefficients one (neg one) : OnePole (Fl L)).b0 = one from rfl, one_toReal]; exact multiple_one
  · rw [zero_toReal]; exact Multiple.zero _
  · rw [zero_toReal]; exact Multiple.zero _
  · rw [show (OnePole.new.setCoefficients one (neg one) : OnePole (Fl L)).a1 = neg one from rfl, neg_toReal, one_toReal]; exact multiple_one.neg
  · rw [zero_toReal]; exact Multiple.zero _
  · simp only [OnePole.setCoefficients, one_toReal, zero_toReal, neg_toReal]
    cases n with
    | zero => simp [lag, real_zero]
    | succ n => rw [sum_range_succ]; simp only [lag_one_succ]; ring
  · simp only [OnePole.setCoefficients, one_toReal, zero_toReal, neg_toReal]
    simpa using hf

/-- **C139**. Differences by `OneZero(1, -1)`. -/
theorem C139_difference (hx : ∀ n, (x n).Within X ∧ Multiple q (x n).toReal) (hf : f.Holds q (2 * X)) (N : ℕ) :
    ExactUpTo (OneZero.new.setCoefficients one (neg one) : OneZero (Fl L)) x (fun n => (x n).toReal - lag (fun n => (x n).toReal) 1 n) N := by
  have hX : 0 ≤ X := (abs_nonneg _).trans (hx 0).1.2
  have hlag : ∀ n, |lag (fun n => (x n).toReal) 1 n| ≤ X := fun n => lag_abs_le hX le_rfl fun j _ => (hx j).1.2
  refine C139_oneZero (s := OneZero.new.setCoefficients one (neg one)) (qb := 0) (qx := q) (X := X) (Y := 2 * X)
    ⟨⟨one_finite, ?_⟩, ⟨neg_finite.mpr one_finite, ?_⟩, ⟨zero_finite, ?_⟩, ⟨zero_finite, ?_⟩, ⟨zero_finite, ?_⟩, hx, fun n => ?_, by linarith, fun n _ => ?_, ?_⟩
  · rw [show (OneZero.new.setCoefficients one (neg one) : OneZero (Fl L)).b0 = one from rfl, one_toReal]; exact multiple_one
  · rw [show (OneZero.new.setCoefficients one (neg one) : OneZero (Fl L)).b1 = neg one from rfl, neg_toReal, one_toReal]; exact multiple_one.neg
  · rw [zero_toReal]; exact Multiple.zero _
  · rw [zero_toReal]; exact Multiple.zero _
  · rw [zero_toReal]; exact Multiple.zero _
  · simp only [OneZero.setCoefficients, one_toReal, zero_toReal, neg_toReal]
    ring
  · have := abs_sub (x n).toReal (lag (fun n => (x n).toReal) 1 n)
    have := hlag n
    have := (hx n).1.2
    linarith
  · simp only [OneZero.setCoefficients, one_toReal, zero_toReal, neg_toReal]
    rw [zero_add, _root_.abs_neg, abs_one, _root_.abs_zero, show (1 + 1 + 0) * X + (0 + 0) * (2 * X) = 2 * X by ring]
    exact hf

/-- **C139**. Taking differences and adding them up again returns every sample, forever. -/
theorem C139_undo (hx : ∀ n, (x n).Within X ∧ Multiple q (x n).toReal) (hf : f.Holds q (3 * X)) :
    ∃ y w, Responds b (OneZero.new.setCoefficients one (neg one) : OneZero (Fl L)) x y ∧
      Responds b (OnePole.new.setCoefficients one (neg one) : OnePole (Fl L)) y w ∧ ∀ n, (w n).Exactly (x n).toReal := by
  have hX : 0 ≤ X := (abs_nonneg _).trans (hx 0).1.2
  have h1 := C139_difference hx ⟨hf.1, by linarith [hf.2.1], by linarith [hf.2.2]⟩
  obtain ⟨⟨y, hy⟩, -⟩ := h1 0 b
  have hy' : ∀ n, (y n).Exactly ((x n).toReal - lag (fun n => (x n).toReal) 1 n) := fun n => (h1 n b).2 y hy n le_rfl
  have hsum : ∀ n, ∑ k ∈ range (n + 1), (y k).toReal = (x n).toReal := by
    intro n
    induction n with
    | zero => rw [zero_add, sum_range_one, (hy' 0).2]; simp [lag, real_zero]
    | succ n ih => rw [sum_range_succ, ih, (hy' (n + 1)).2, lag_one_succ]; ring
  have hlag : ∀ n, |lag (fun n => (x n).toReal) 1 n| ≤ X := fun n => lag_abs_le hX le_rfl fun j _ => (hx j).1.2
  have h2 := fun N => C139_running_sum (x := y) (q := q) (X := 2 * X) (Y := X) (N := N)
    (fun n => ⟨⟨(hy' n).1, by
      rw [(hy' n).2]
      have := abs_sub (x n).toReal (lag (fun n => (x n).toReal) 1 n)
      have := hlag n
      have := (hx n).1.2
      linarith⟩, by rw [(hy' n).2]; exact (hx n).2.sub (Multiple.lag (fun n => (hx n).2) 1 n)⟩) hX
    (fun n _ => by rw [hsum n]; exact (hx n).1.2) ⟨hf.1, by linarith [hf.2.1], by linarith [hf.2.2]⟩
  obtain ⟨⟨w, hw⟩, -⟩ := h2 0 b
  refine ⟨y, w, hy, hw, fun n => ?_⟩
  have := (h2 n b).2 w hw n le_rfl
  beta_reduce at this
  rwa [hsum n] at this

/-- **C139**. Moving sums without drift: the input minus what a `Delay` of `d` samples returns, added up by `OnePole(1, -1)`, is forever exactly the
sum of the latest `d` samples. -/
theorem C139_moving_sum [Target] {d m : ℕ} (hm : Allocatable (Fl L) m) (hdm : d ≤ m) (hx : ∀ n, (x n).Within X ∧ Multiple q (x n).toReal)
    (hf : f.Holds q ((d + 2) * X)) : ∃ (s : Delay (Fl L)) (v w : ℕ → Fl L), Delay.new b d m = .ok s ∧ Responds b s x v ∧
      Responds b (OnePole.new.setCoefficients one (neg one) : OnePole (Fl L)) (fun n => x n -. v n) w ∧
      ∀ n, (w n).Exactly (∑ k ∈ range d, lag (fun n => (x n).toReal) k n) := by
  have hX : 0 ≤ X := (abs_nonneg _).trans (hx 0).1.2
  have hd0 : (0 : ℝ) ≤ d * X := mul_nonneg (Nat.cast_nonneg d) hX
  obtain ⟨s, hs, hr⟩ := C07_new_delay_is_pure_delay (b := b) (d := d) hm
  have hl : ∀ k n, |lag (fun n => (x n).toReal) k n| ≤ X := by
    intro k n
    unfold lag
    split_ifs
    · exact (hx _).1.2
    · rw [real_zero, _root_.abs_zero]; exact hX
  have hv : ∀ n, (lag x d n).Exactly (lag (fun n => (x n).toReal) d n) := by
    intro n
    unfold lag
    split_ifs
    · exact ⟨(hx _).1.1, rfl⟩
    · exact ⟨zero_finite, by rw [zero_toReal, real_zero]⟩
  have hw : ∀ n, (x n -. lag x d n).Exactly ((x n).toReal - lag (fun n => (x n).toReal) d n) := fun n =>
    Fl.Exactly.sub (M := (d + 2) * X) hf ⟨(hx n).1.1, rfl⟩ (hv n) ((hx n).2.sub (Multiple.lag (fun n => (hx n).2) d n)) (by
      have := abs_sub (x n).toReal (lag (fun n => (x n).toReal) d n)
      have := hl d n
      have := (hx n).1.2
      linarith)
  have hsum : ∀ n, ∑ k ∈ range (n + 1), (x k -. lag x d k).toReal = ∑ k ∈ range d, lag (fun n => (x n).toReal) k n := by
    intro n
    induction n with
    | zero =>
      rw [zero_add, sum_range_one, (hw 0).2]
      cases d with
      | zero => simp
      | succ d => rw [sum_range_succ', sum_eq_zero fun k _ => by rw [lag_succ_zero, real_zero]]; simp [real_zero]
    | succ n ih =>
      rw [sum_range_succ, ih, (hw (n + 1)).2]
      have h1 := sum_range_succ' (fun k => lag (fun n => (x n).toReal) k (n + 1)) d
      have h2 := sum_range_succ (fun k => lag (fun n => (x n).toReal) k (n + 1)) d
      simp only [lag_succ_succ, lag_zero] at h1 h2
      linarith
  have h2 := fun N => C139_running_sum (x := fun n => x n -. lag x d n) (q := q) (X := 2 * X) (Y := d * X) (N := N)
    (fun n => ⟨⟨(hw n).1, by
      rw [(hw n).2]
      have := abs_sub (x n).toReal (lag (fun n => (x n).toReal) d n)
      have := hl d n
      have := (hx n).1.2
      linarith⟩, by rw [(hw n).2]; exact (hx n).2.sub (Multiple.lag (fun n => (hx n).2) d n)⟩) hd0
    (fun n _ => by
      rw [hsum n]
      refine (abs_sum_le_sum_abs _ _).trans ((sum_le_sum fun k _ => hl k n).trans ?_)
      simp) ⟨hf.1, by linarith [hf.2.1], by linarith [hf.2.2]⟩
  obtain ⟨⟨w, hwr⟩, -⟩ := h2 0 b
  refine ⟨s, lag x d, w, hs, (hr _ _).mpr ?_, hwr, fun n => ?_⟩
  · rw [min_eq_left hdm]; rfl
  · have := (h2 n b).2 w hwr n le_rfl
    beta_reduce at this
    rwa [hsum n] at this

/-- **C139**. Without a common grid sums stop growing: after a 1, `OnePole(1, -1)` ignores all samples up to `u / 2`. -/
theorem C139_deaf (h0 : (x 0).Exactly 1) (hx : ∀ n, 1 ≤ n → (x n).Finite ∧ 0 ≤ (x n).toReal ∧ (x n).toReal ≤ f.u / 2) :
    ∃ y, Responds b (OnePole.new.setCoefficients one (neg one) : OnePole (Fl L)) x y ∧ ∀ n, (y n).Exactly 1 := by
  have hu := f.u_pos
  have hu4 := f.u_le
  have hlim := lim_ge f
  obtain ⟨y, hy⟩ := NeverPanics.responds (T := Fl L) (fun _ _ _ => ⟨_, _, rfl⟩) b (OnePole.new.setCoefficients one (neg one) : OnePole (Fl L)) x
  refine ⟨y, hy, fun n => ?_⟩
  have hy' := (C30_onePole b x y (OnePole.new.setCoefficients one (neg one))).mp hy
  simp only [OnePole.setCoefficients] at hy'
  have hmul : ∀ v : Fl L, v.Finite → (one *. v).Exactly v.toReal := by
    intro v hv
    have h1 : (one : Fl L).toReal * v.toReal = v.toReal := by rw [one_toReal, one_mul]
    have h2 := rnd_of_isRep (isRep_toReal v)
    obtain ⟨a, c⟩ := mul_val one_finite hv (by unfold FP.NoOvf; rw [h1, h2]; exact abs_toReal_lt v)
    exact ⟨a, by rw [c, h1, h2]⟩
  have hneg : ∀ v : Fl L, v.Finite → (neg one *. v).Exactly (-v.toReal) := by
    intro v hv
    have h1 : (neg one : Fl L).toReal * v.toReal = -v.toReal := by rw [neg_toReal, one_toReal]; ring
    have h2 : rnd f (-v.toReal) = -v.toReal := rnd_of_isRep (isRep_toReal v).neg
    obtain ⟨a, c⟩ := mul_val (neg_finite.mpr one_finite) hv (by unfold FP.NoOvf; rw [h1, h2, _root_.abs_neg]; exact abs_toReal_lt v)
    exact ⟨a, by rw [c, h1, h2]⟩
  induction n with
  | zero =>
    rw [hy' 0, lag_one_zero]
    obtain ⟨a1, a2⟩ := hmul _ h0.1
    obtain ⟨c1, c2⟩ := hneg zero zero_finite
    rw [zero_toReal] at c2
    rw [h0.2] at a2
    have e : (one *. x 0).toReal - (neg one *. zero : Fl L).toReal = 1 := by rw [a2, c2]; norm_num
    have h2 : rnd f 1 = 1 := rnd_of_isRep (isRep_one f)
    obtain ⟨g1, g2⟩ := sub_val a1 c1 (by unfold FP.NoOvf; rw [e, h2, abs_one]; linarith)
    exact ⟨g1, by rw [g2, e, h2]⟩
  | succ n ih =>
    rw [hy' (n + 1), lag_one_succ]
    obtain ⟨k1, k2, k3⟩ := hx (n + 1) (by omega)
    obtain ⟨a1, a2⟩ := hmul _ k1
    obtain ⟨c1, c2⟩ := hneg _ ih.1
    rw [ih.2] at c2
    have e : (one *. x (n + 1)).toReal - (neg one *. y n).toReal = 1 + (x (n + 1)).toReal := by rw [a2, c2]; ring
    have hu' : f.u = 2 ^ (-(f.p : ℤ)) := by unfold Fmt.u; rw [zpow_neg, zpow_natCast, one_div]
    have hz : (2 : ℝ) ^ (1 - (f.p : ℤ)) = 2 * f.u := by rw [hu', sub_eq_add_neg, zpow_add₀ (by norm_num), zpow_one]
    have hr : rnd f (1 + (x (n + 1)).toReal) = 1 := by
      have := rnd_eq_of (f := f) (x := 1 + (x (n + 1)).toReal) (m := 2 ^ (f.p - 1)) (e := 1 - f.p) (by have := f.hemin; omega) (by
        rw [show (1 - (f.p : ℤ) + f.p - 1) = 0 by ring, zpow_zero, abs_of_nonneg (by linarith)]; linarith) (by
        rw [show (1 - (f.p : ℤ) + f.p) = 1 by ring, zpow_one, abs_of_nonneg (by linarith)]; linarith) (by
        have e2 : ((2 ^ (f.p - 1) : ℤ) : ℝ) = 1 / (2 * f.u) := by
          push_cast
          rw [← hz, one_div, ← zpow_neg, ← zpow_natCast]
          congr 1
          have := f.hp
          push_cast [Nat.cast_sub (by omega : 1 ≤ f.p)]
          ring
        rw [e2, hz, ← sub_div, add_sub_cancel_left, abs_of_nonneg (by positivity), div_lt_div_iff₀ (by positivity) (by norm_num)]
        linarith)
      rw [this, hz]
      push_cast
      have h3 : (2 : ℝ) ^ (f.p - 1) * (2 * f.u) = 2 ^ (f.p - 1 + 1) * f.u := by rw [pow_succ]; ring
      rw [h3, show f.p - 1 + 1 = f.p by have := f.hp; omega, hu', zpow_neg, zpow_natCast]
      exact mul_inv_cancel₀ (by positivity)
    obtain ⟨g1, g2⟩ := sub_val a1 c1 (by unfold FP.NoOvf; rw [e, hr, abs_one]; linarith)
    exact ⟨g1, by rw [g2, e, hr]⟩

/-- The response of `1 / (1 + a z⁻¹ + z⁻²)` to an impulse. -/
def ring12 (a : ℤ) : ℕ → ℤ
  | 0 => 1
  | 1 => -a
  | n + 2 => -a * ring12 a (n + 1) - ring12 a n

theorem ring12_periodic {a : ℤ} (ha : a = -1 ∨ a = 0 ∨ a = 1) (n : ℕ) : ring12 a (n + 12) = ring12 a n := by
  suffices h : ring12 a (n + 12) = ring12 a n ∧ ring12 a (n + 1 + 12) = ring12 a (n + 1) from h.1
  induction n with
  | zero => rcases ha with rfl | rfl | rfl <;> decide +kernel
  | succ n ih =>
    refine ⟨ih.2, ?_⟩
    show -a * ring12 a (n + 1 + 12) - ring12 a (n + 12) = -a * ring12 a (n + 1) - ring12 a n
    rw [ih.1, ih.2]

theorem ring12_le {a : ℤ} (ha : a = -1 ∨ a = 0 ∨ a = 1) (n : ℕ) : |ring12 a n| ≤ 1 := by
  induction n using Nat.strong_induction_on with
  | _ n ih =>
    by_cases hn : 12 ≤ n
    · have := ring12_periodic ha (n - 12)
      rw [Nat.sub_add_cancel hn] at this
      rw [this]
      exact ih _ (by omega)
    · have : n < 12 := by omega
      have h12 : ∀ n < 12, |ring12 a n| ≤ 1 := by rcases ha with rfl | rfl | rfl <;> decide +kernel
      exact h12 n this

/-- **C139**. Oscillators that never drift: an impulse `A` makes `TwoPole(1, a, 1)` with `a` one of -1, 0, 1 repeat itself exactly every 12 samples,
forever. -/
theorem C139_oscillator {a : ℤ} (ha : a = -1 ∨ a = 0 ∨ a = 1) {s : TwoPole (Fl L)} (h0 : s.b0.Exactly 1) (h1 : s.a1.Exactly a) (h2 : s.a2.Exactly 1)
    {A : ℝ} (hA : Multiple q A) (hf : f.Holds q (3 * |A|)) (hx0 : (x 0).Exactly A) (hx : ∀ n, 1 ≤ n → (x n).Exactly 0) :
    ∃ y, Responds b s.clear x y ∧ (y 0).Exactly A ∧ (y 1).Exactly (-a * A) ∧ ∀ n, (y n).Finite ∧ |(y n).toReal| ≤ |A| ∧ (y (n + 12)).toReal = (y n).toReal := by
  have hAn := abs_nonneg A
  have ha1 : |(a : ℝ)| ≤ 1 := by rcases ha with rfl | rfl | rfl <;> norm_num
  have hle : ∀ n, |(ring12 a n : ℝ) * A| ≤ |A| := by
    intro n
    have : |(ring12 a n : ℝ)| ≤ 1 := by exact_mod_cast ring12_le ha n
    rw [abs_mul]
    nlinarith
  have h : ∀ N, ExactUpTo s.clear x (fun n => ring12 a n * A) N := by
    intro N
    refine C139_twoPole (qb := 0) (qx := q) (X := |A|) (Y := |A|)
      ⟨⟨h0.1, ?_⟩, ⟨zero_finite, ?_⟩, ⟨zero_finite, ?_⟩, ⟨h1.1, ?_⟩, ⟨h2.1, ?_⟩, fun n => ?_, fun n => ?_, hAn, fun n _ => hle n, ?_⟩
    · rw [h0.2]; exact multiple_one
    · rw [zero_toReal]; exact Multiple.zero _
    · rw [zero_toReal]; exact Multiple.zero _
    · rw [h1.2]; exact ⟨a, by norm_num⟩
    · rw [h2.2]; exact multiple_one
    · rcases Nat.eq_zero_or_pos n with rfl | hn
      · exact ⟨⟨hx0.1, by rw [hx0.2]⟩, by rw [hx0.2]; exact hA⟩
      · exact ⟨⟨(hx n hn).1, by rw [(hx n hn).2, _root_.abs_zero]; exact hAn⟩, by rw [(hx n hn).2]; exact Multiple.zero _⟩
    · rw [h0.2, h1.2, h2.2, zero_toReal]
      match n with
      | 0 => simp [lag, real_zero, ring12, hx0.2]
      | 1 => simp [lag, real_zero, ring12, (hx 1 le_rfl).2]
      | n + 2 => simp [ring12, (hx (n + 2) (by omega)).2]; ring
    · rw [h0.2, h1.2, h2.2, zero_toReal, abs_one, _root_.abs_zero]
      have h3 : (1 + 0 + 0) * |A| + (|(a : ℝ)| + 1) * |A| ≤ 3 * |A| := by
        nlinarith
      rw [zero_add]
      exact ⟨hf.1, lt_of_le_of_lt h3 hf.2.1, lt_of_le_of_lt h3 hf.2.2⟩
  obtain ⟨⟨y, hy⟩, -⟩ := h 0 b
  have hy' : ∀ n, (y n).Exactly (ring12 a n * A) := fun n => (h n b).2 y hy n le_rfl
  refine ⟨y, hy, by simpa [ring12] using hy' 0, by simpa [ring12] using hy' 1, fun n => ⟨(hy' n).1, by rw [(hy' n).2]; exact hle n, ?_⟩⟩
  rw [(hy' (n + 12)).2, (hy' n).2, ring12_periodic ha]

end sums

/-- Binary32 has all the sums of 500 samples of 16 bits, and the differences of two. -/
theorem binary32_holds : binary32.Holds (-15) ((500 + 2) * 1) := by
  refine ⟨by show (-149 : ℤ) ≤ -15; norm_num, ?_, ?_⟩
  · show _ < (2 : ℝ) ^ ((-15 : ℤ) + (24 : ℕ))
    norm_num
  · refine lt_of_lt_of_le ?_ (show (2 : ℝ) ^ (127 : ℤ) ≤ binary32.lim by unfold Fmt.lim; exact (zpow_lt_zpow_right₀ (by norm_num) (by show (127 : ℤ) < _; decide)).le)
    norm_num

/-- The hypotheses of `C139_moving_sum`, `C139_undo`, `C139_running_sum` (for 500 rounds) are met by samples of 16 bits, among them by the constant -3/4. -/
example (L : Libm binary32) [Target] : Allocatable (Fl L) 500 ∧ binary32.Holds (-15) (((500 : ℕ) + 2) * 1) ∧ binary32.Holds (-15) (3 * 1) ∧
    ∃ p : Fl L, p ≠ zero ∧ p.Within 1 ∧ Multiple (-15) p.toReal ∧ ∀ n < 500, |∑ _k ∈ range (n + 1), p.toReal| ≤ 500 := by
  have h := binary32_holds
  have hl := h.2.2
  obtain ⟨p, h1, h2⟩ := Fl.exists_of_isRep L (f := binary32) (v := -(3 / 4)) ⟨-3, -2, by show |(-3 : ℤ)| < 2 ^ 24; norm_num, by show (-149 : ℤ) ≤ -2; norm_num, by norm_num⟩
    (by rw [_root_.abs_neg, abs_of_pos (by norm_num)]; linarith)
  refine ⟨?_, by simpa using h, ⟨h.1, by linarith [h.2.1], by linarith [h.2.2]⟩, p, ?_, ⟨h1, by rw [h2]; norm_num⟩, ?_, fun n hn => ?_⟩
  · unfold Allocatable
    have : size (Fl L) = 4 := rfl
    rw [this]
    have := target
    omega
  · rintro rfl
    rw [zero_toReal] at h2
    norm_num at h2
  · rw [h2]
    exact ⟨-24576, by norm_num⟩
  · rw [h2, sum_const, card_range, nsmul_eq_mul, abs_mul, _root_.abs_neg, abs_of_pos (by norm_num : (0 : ℝ) < 3 / 4), abs_of_nonneg (Nat.cast_nonneg _)]
    have : ((n + 1 : ℕ) : ℝ) ≤ 500 := by exact_mod_cast hn
    linarith

/-- The hypotheses of `C139_oscillator` are met with an impulse 1 and all of the coefficients 1, in which case the response starts 1, -1, and so is not
constant. -/
example (L : Libm binary32) (b : Build) : ∃ y, Responds b (TwoPole.new.setCoefficients one one one : TwoPole (Fl L)) (fun n => if n = 0 then one else zero) y ∧
    (y 0).Exactly 1 ∧ (y 1).Exactly (-1) ∧ ∀ n, (y (n + 12)).toReal = (y n).toReal := by
  have h := binary32_holds
  have h1 : (one : Fl L).Exactly 1 := ⟨one_finite, one_toReal⟩
  obtain ⟨y, hy, y0, y1, hn⟩ := C139_oscillator (L := L) (b := b) (a := 1) (q := -15) (A := 1) (x := fun n => if n = 0 then one else zero) (by simp)
    (s := TwoPole.new.setCoefficients one one one) h1 (by rw [Int.cast_one]; exact h1) h1 ⟨2 ^ 15, by norm_num⟩
    (by rw [abs_one]; exact ⟨h.1, by linarith [h.2.1], by linarith [h.2.2]⟩) h1
    (fun n hn => by simp only [if_neg (show n ≠ 0 by omega)]; exact ⟨zero_finite, zero_toReal⟩)
  exact ⟨y, hy, y0, by simpa using y1, fun n => (hn n).2.2⟩

/-- The hypotheses of `C139_deaf` are met by a 1 followed by `2⁻²⁶` forever, the exact sum of which grows without bound. -/
example (L : Libm binary32) : ∃ x : ℕ → Fl L, (x 0).Exactly 1 ∧ ∀ n, 1 ≤ n → (x n).Finite ∧ 0 < (x n).toReal ∧ (x n).toReal ≤ binary32.u / 2 := by
  have hl := binary32_holds.2.2
  obtain ⟨p, h1, h2⟩ := Fl.exists_of_isRep L (f := binary32) (v := 1 / 2 ^ 26) ⟨1, -26, by show |(1 : ℤ)| < 2 ^ 24; norm_num, by show (-149 : ℤ) ≤ -26; norm_num, by norm_num⟩
    (by rw [abs_of_pos (by norm_num)]; refine lt_trans ?_ hl; norm_num)
  have hu : binary32.u = 1 / 2 ^ 24 := rfl
  refine ⟨fun n => if n = 0 then one else p, ⟨one_finite, one_toReal⟩, fun n hn => ?_⟩
  simp only [if_neg (show n ≠ 0 by omega)]
  exact ⟨h1, by rw [h2]; norm_num, by rw [h2, hu]; norm_num⟩

end Rasp
