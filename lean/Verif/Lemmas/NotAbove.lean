import Verif.Spec.Order
import Verif.Lemmas.NotFinite
import Verif.Lemmas.Fade

/-!
# Rounded arithmetic keeps order
-/

namespace Rasp
open FloatOps
namespace Fl
variable {f : Fmt} {L : Libm f}

/-- A finite sum is the rounded sum of finite numbers. -/
theorem add_fin {x y : Fl L} (h : (x +. y).Finite) : x.Finite ∧ y.Finite ∧ FP.NoOvf f (x.toReal + y.toReal) ∧ (x +. y).toReal = rnd f (x.toReal + y.toReal) := by
  have hx : x.Finite := by by_contra hc; exact add_not_finite_left hc h
  have hy : y.Finite := by by_contra hc; exact add_not_finite_right hc h
  have ho : FP.NoOvf f (x.toReal + y.toReal) := by
    by_contra hc
    have hc' : ¬ FP.NoOvf f (FP.toReal (f := f) x + FP.toReal (f := f) y) := hc
    have h' : FP.Finite (FP.add (f := f) x y) := h
    rw [FP.add_fin hx hy, FP.ofReal_of_ovf hc'] at h'
    exact h'
  exact ⟨hx, hy, ho, (add_val hx hy ho).2⟩

theorem sub_fin {x y : Fl L} (h : (x -. y).Finite) : x.Finite ∧ y.Finite ∧ FP.NoOvf f (x.toReal - y.toReal) ∧ (x -. y).toReal = rnd f (x.toReal - y.toReal) := by
  have hx : x.Finite := by by_contra hc; exact sub_not_finite_left hc h
  have hy : y.Finite := by by_contra hc; exact sub_not_finite_of_right hc h
  have ho : FP.NoOvf f (x.toReal - y.toReal) := by by_contra hc; exact sub_ovf hx hy hc h
  exact ⟨hx, hy, ho, (sub_val hx hy ho).2⟩

theorem mul_fin {x y : Fl L} (h : (x *. y).Finite) : x.Finite ∧ y.Finite ∧ FP.NoOvf f (x.toReal * y.toReal) ∧ (x *. y).toReal = rnd f (x.toReal * y.toReal) := by
  have hx : x.Finite := by by_contra hc; exact mul_not_finite_left hc h
  have hy : y.Finite := by by_contra hc; exact mul_not_finite_right hc h
  have ho : FP.NoOvf f (x.toReal * y.toReal) := by
    by_contra hc
    rw [mul_ovf hx hy hc] at h
    exact h
  exact ⟨hx, hy, ho, (mul_val hx hy ho).2⟩

theorem NotAbove.refl (x : Fl L) : x.NotAbove x := fun _ _ => le_rfl

theorem NotAbove.add {x x' y y' : Fl L} (h1 : x.NotAbove x') (h2 : y.NotAbove y') : (x +. y).NotAbove (x' +. y') := by
  intro h h'
  obtain ⟨a, c, -, e⟩ := add_fin h
  obtain ⟨a', c', -, e'⟩ := add_fin h'
  rw [e, e']
  exact rnd_mono (add_le_add (h1 a a') (h2 c c'))

theorem NotAbove.sub {x x' y y' : Fl L} (h1 : x.NotAbove x') (h2 : y'.NotAbove y) : (x -. y).NotAbove (x' -. y') := by
  intro h h'
  obtain ⟨a, c, -, e⟩ := sub_fin h
  obtain ⟨a', c', -, e'⟩ := sub_fin h'
  rw [e, e']
  exact rnd_mono (sub_le_sub (h1 a a') (h2 c' c))

theorem NotAbove.mul {c x x' : Fl L} (hc : 0 ≤ c.toReal) (h1 : x.NotAbove x') : (c *. x).NotAbove (c *. x') := by
  intro h h'
  obtain ⟨-, a, -, e⟩ := mul_fin h
  obtain ⟨-, a', -, e'⟩ := mul_fin h'
  rw [e, e']
  exact rnd_mono (mul_le_mul_of_nonneg_left (h1 a a') hc)

theorem NotAbove.mul_right {c x x' : Fl L} (hc : 0 ≤ c.toReal) (h1 : x.NotAbove x') : (x *. c).NotAbove (x' *. c) := by
  intro h h'
  obtain ⟨a, -, -, e⟩ := mul_fin h
  obtain ⟨a', -, -, e'⟩ := mul_fin h'
  rw [e, e']
  exact rnd_mono (mul_le_mul_of_nonneg_right (h1 a a') hc)

theorem NotAbove.mul_neg {c x x' : Fl L} (hc : c.toReal ≤ 0) (h1 : x.NotAbove x') : (c *. x').NotAbove (c *. x) := by
  intro h h'
  obtain ⟨-, a, -, e⟩ := mul_fin h
  obtain ⟨-, a', -, e'⟩ := mul_fin h'
  rw [e, e']
  exact rnd_mono (mul_le_mul_of_nonpos_left (h1 a' a) hc)

theorem DominatedBy.nonneg {y z : Fl L} (h : y.DominatedBy z) (hz : z.Finite) : 0 ≤ z.toReal := (_root_.abs_nonneg _).trans (h hz).2

theorem zero_dominated : (zero : Fl L).DominatedBy zero := fun h => ⟨h, by simp⟩

theorem DominatedBy.zero_of_self {z : Fl L} (h : z.DominatedBy z) : (zero : Fl L).DominatedBy z :=
  fun hz => ⟨zero_finite, by rw [zero_toReal, _root_.abs_zero]; exact h.nonneg hz⟩

theorem dominated_of_abs {r t : ℝ} (h : |r| ≤ t) (ho : FP.NoOvf f t) : FP.NoOvf f r ∧ |rnd f r| ≤ rnd f t := by
  have h1 : |rnd f r| ≤ rnd f t := by
    obtain ⟨h2, h3⟩ := abs_le.mp h
    rw [abs_le, ← rnd_neg]
    exact ⟨rnd_mono h2, rnd_mono h3⟩
  refine ⟨?_, h1⟩
  unfold FP.NoOvf at ho ⊢
  exact lt_of_le_of_lt (h1.trans (le_abs_self _)) ho

theorem DominatedBy.add {y z y' z' : Fl L} (h1 : y.DominatedBy z) (h2 : y'.DominatedBy z') : (y +. y').DominatedBy (z +. z') := by
  intro h
  obtain ⟨a, c, o, e⟩ := add_fin h
  obtain ⟨p1, p2⟩ := h1 a
  obtain ⟨q1, q2⟩ := h2 c
  obtain ⟨o', hb⟩ := dominated_of_abs ((abs_add_le _ _).trans (add_le_add p2 q2)) o
  obtain ⟨r1, r2⟩ := add_val p1 q1 o'
  rw [r2, e]
  exact ⟨r1, hb⟩

/-- Subtracting a non-positive number is adding. -/
theorem DominatedBy.sub_mul {y z y' z' c : Fl L} (hc : c.toReal ≤ 0) (h1 : y.DominatedBy z) (h2 : y'.DominatedBy z') :
    (y -. c *. y').DominatedBy (z -. c *. z') := by
  intro h
  obtain ⟨a, m, o, e⟩ := sub_fin h
  obtain ⟨cf, d, o2, e2⟩ := mul_fin m
  obtain ⟨p1, p2⟩ := h1 a
  obtain ⟨q1, q2⟩ := h2 d
  have hm : |c.toReal * y'.toReal| ≤ - (c.toReal * z'.toReal) := by
    rw [abs_mul, abs_of_nonpos hc, ← neg_mul]
    exact mul_le_mul_of_nonneg_left q2 (by linarith)
  have o2' : FP.NoOvf f (-(c.toReal * z'.toReal)) := by
    unfold FP.NoOvf at o2 ⊢
    rwa [rnd_neg, _root_.abs_neg]
  obtain ⟨o3, hb⟩ := dominated_of_abs hm o2'
  obtain ⟨r1, r2⟩ := mul_val cf q1 o3
  rw [rnd_neg, ← e2] at hb
  obtain ⟨o', hb'⟩ := dominated_of_abs (r := y.toReal - (c *. y').toReal) (t := z.toReal - (c *. z').toReal)
    ((abs_sub _ _).trans (by rw [r2]; linarith)) o
  obtain ⟨t1, t2⟩ := sub_val p1 r1 o'
  rw [t2, e]
  exact ⟨t1, hb'⟩

theorem DominatedBy.mul {y z c : Fl L} (hc : 0 ≤ c.toReal) (h1 : y.DominatedBy z) : (c *. y).DominatedBy (c *. z) := by
  intro h
  obtain ⟨cf, d, o, e⟩ := mul_fin h
  obtain ⟨q1, q2⟩ := h1 d
  obtain ⟨o', hb⟩ := dominated_of_abs (r := c.toReal * y.toReal)
    (by rw [abs_mul, abs_of_nonneg hc]; exact mul_le_mul_of_nonneg_left q2 hc) o
  obtain ⟨r1, r2⟩ := mul_val cf q1 o'
  rw [r2, e]
  exact ⟨r1, hb⟩

theorem DominatedBy.mul_right {y z c : Fl L} (hc : 0 ≤ c.toReal) (h1 : y.DominatedBy z) : (y *. c).DominatedBy (z *. c) := by
  intro h
  obtain ⟨d, cf, o, e⟩ := mul_fin h
  obtain ⟨q1, q2⟩ := h1 d
  obtain ⟨o', hb⟩ := dominated_of_abs (r := y.toReal * c.toReal)
    (by rw [abs_mul, abs_of_nonneg hc]; exact mul_le_mul_of_nonneg_right q2 hc) o
  obtain ⟨r1, r2⟩ := mul_val q1 cf o'
  rw [r2, e]
  exact ⟨r1, hb⟩

theorem NotAbove.sub_mul {x x' y y' c : Fl L} (hc : c.toReal ≤ 0) (h1 : x.NotAbove x') (h2 : y.NotAbove y') :
    (x -. c *. y).NotAbove (x' -. c *. y') := h1.sub (h2.mul_neg hc)

/-- Relations kept by rounded sums with non-negative weights. -/
structure Cone (r : Fl L → Fl L → Prop) : Prop where
  add : ∀ {x x' y y'}, r x x' → r y y' → r (x +. y) (x' +. y')
  mul : ∀ {x x' c : Fl L}, 0 ≤ c.toReal → r x x' → r (c *. x) (c *. x')
  mul_right : ∀ {x x' c : Fl L}, 0 ≤ c.toReal → r x x' → r (x *. c) (x' *. c)
  sub_mul : ∀ {x x' y y' c : Fl L}, c.toReal ≤ 0 → r x x' → r y y' → r (x -. c *. y) (x' -. c *. y')

theorem cone_notAbove : Cone (L := L) NotAbove := ⟨fun h h' => h.add h', fun hc h => h.mul hc, fun hc h => h.mul_right hc, fun hc h h' => h.sub_mul hc h'⟩

theorem cone_dominatedBy : Cone (L := L) DominatedBy := ⟨fun h h' => h.add h', fun hc h => h.mul hc, fun hc h => h.mul_right hc, fun hc h h' => h.sub_mul hc h'⟩

end Fl

/-- A sequence of finite numbers that never falls becomes constant. -/
theorem freezes {f : Fmt} {L : Libm f} {y : ℕ → Fl L} (hy : ∀ n, (y n).toReal ≤ (y (n + 1)).toReal) :
    ∃ N, ∀ n, N ≤ n → (y n).toReal = (y N).toReal := by
  have ht := f.tiny_pos
  have hmono : Monotone fun n => (y n).toReal := monotone_nat_of_le_succ hy
  choose k hk using fun n => (Fl.isRep_toReal (y n)).grid
  have hkm : Monotone k := by
    intro i j hij
    have := hmono hij
    simp only [hk] at this
    exact_mod_cast le_of_mul_le_mul_right this ht
  obtain ⟨B, hB⟩ := exists_nat_gt (f.lim / f.tiny)
  have hub : ∀ n, k n ≤ B := by
    intro n
    have h1 := (le_abs_self _).trans (Fl.abs_toReal_lt (y n)).le
    rw [hk, ← le_div_iff₀ ht] at h1
    exact_mod_cast h1.trans hB.le
  obtain ⟨N, hN⟩ : ∃ N, ∀ n, N ≤ n → k n = k N := by
    by_contra hcon
    push Not at hcon
    have hgrow : ∀ j : ℕ, ∃ n, k 0 + j ≤ k n := by
      intro j
      induction j with
      | zero => exact ⟨0, by simp⟩
      | succ j ih =>
        obtain ⟨n, hn⟩ := ih
        obtain ⟨m, hm, hne⟩ := hcon n
        have := hkm hm
        exact ⟨m, by push_cast; omega⟩
    obtain ⟨n, hn⟩ := hgrow (B - k 0 + 1).toNat
    have := hub n
    omega
  exact ⟨N, fun n hn => by rw [hk, hk N, hN n hn]⟩

end Rasp
