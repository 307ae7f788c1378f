import Verif.Lemmas.RoundErr
import Verif.Lemmas.WindowsFl

/-!
# Absolute errors through floating-point operations
-/

namespace Rasp
open FloatOps
variable {f : Fmt} {L : Libm f}

namespace Fl

/-- `v` is finite and within `e` of `t`. -/
def Approx (v : Fl L) (t e : ℝ) : Prop := v.Finite ∧ |v.toReal - t| ≤ e

variable {v w : Fl L} {t r e d x B E : ℝ}

theorem Approx.refl (h : v.Finite) : Approx v v.toReal 0 := ⟨h, by simp⟩

theorem Approx.le (h : Approx v t e) (he : e ≤ E) : Approx v t E := ⟨h.1, h.2.trans he⟩

theorem Approx.nonneg (h : Approx v t e) : 0 ≤ e := (abs_nonneg _).trans h.2

theorem Approx.neg (h : Approx v t e) : Approx (neg v) (-t) e :=
  ⟨neg_finite.mpr h.1, by rw [neg_toReal, ← abs_neg, show -(-v.toReal - -t) = v.toReal - t by ring]; exact h.2⟩

theorem round_close {y t : ℝ} (hx : |y - t| ≤ x) (hB : |t| + x ≤ B) (hE : x + f.u * B + f.tiny ≤ E) :
    |y| ≤ B ∧ |rnd f y - t| ≤ E := by
  have h1 : |y| ≤ B := by
    have := abs_add_le (y - t) t
    rw [sub_add_cancel] at this; linarith
  refine ⟨h1, ?_⟩
  have h2 := abs_rnd_sub_le_u f y
  have h3 := abs_add_le (rnd f y - y) (y - t)
  rw [sub_add_sub_cancel] at h3
  have := mul_le_mul_of_nonneg_left h1 f.u_pos.le
  linarith

theorem Approx.add (h : Approx v t e) (h' : Approx w r d) (hB : |t + r| + (e + d) ≤ B) (hov : B ≤ 2 ^ f.emax)
    (hE : e + d + f.u * B + f.tiny ≤ E) : Approx (v +. w) (t + r) E := by
  have hx : |v.toReal + w.toReal - (t + r)| ≤ e + d := by
    have := abs_add_le (v.toReal - t) (w.toReal - r)
    rw [show v.toReal - t + (w.toReal - r) = v.toReal + w.toReal - (t + r) by ring] at this
    linarith [h.2, h'.2]
  obtain ⟨h1, h2⟩ := round_close hx hB hE
  obtain ⟨h3, h4⟩ := add_val h.1 h'.1 (noOvf_of_le_emax (h1.trans hov))
  exact ⟨h3, by rw [h4]; exact h2⟩

theorem Approx.sub (h : Approx v t e) (h' : Approx w r d) (hB : |t - r| + (e + d) ≤ B) (hov : B ≤ 2 ^ f.emax)
    (hE : e + d + f.u * B + f.tiny ≤ E) : Approx (v -. w) (t - r) E := by
  have hx : |v.toReal - w.toReal - (t - r)| ≤ e + d := by
    have := abs_sub (v.toReal - t) (w.toReal - r)
    rw [show v.toReal - t - (w.toReal - r) = v.toReal - w.toReal - (t - r) by ring] at this
    linarith [h.2, h'.2]
  obtain ⟨h1, h2⟩ := round_close hx hB hE
  obtain ⟨h3, h4⟩ := sub_val h.1 h'.1 (noOvf_of_le_emax (h1.trans hov))
  exact ⟨h3, by rw [h4]; exact h2⟩

theorem Approx.mul (h : Approx v t e) (h' : Approx w r d) (hx : e * |r| + d * |t| + e * d ≤ x) (hB : |t * r| + x ≤ B)
    (hov : B ≤ 2 ^ f.emax) (hE : x + f.u * B + f.tiny ≤ E) : Approx (v *. w) (t * r) E := by
  have hx : |v.toReal * w.toReal - t * r| ≤ x := by
    have t1 := abs_add_le ((v.toReal - t) * r + (w.toReal - r) * t) ((v.toReal - t) * (w.toReal - r))
    have t2 := abs_add_le ((v.toReal - t) * r) ((w.toReal - r) * t)
    rw [show (v.toReal - t) * r + (w.toReal - r) * t + (v.toReal - t) * (w.toReal - r) = v.toReal * w.toReal - t * r by ring] at t1
    simp only [abs_mul] at t1 t2
    have e1 := mul_le_mul_of_nonneg_right h.2 (abs_nonneg r)
    have e2 := mul_le_mul_of_nonneg_right h'.2 (abs_nonneg t)
    have e3 := mul_le_mul h.2 h'.2 (abs_nonneg _) h.nonneg
    linarith
  obtain ⟨h1, h2⟩ := round_close hx hB hE
  obtain ⟨h3, h4⟩ := mul_val h.1 h'.1 (noOvf_of_le_emax (h1.trans hov))
  exact ⟨h3, by rw [h4]; exact h2⟩

theorem Approx.div (h : Approx v t e) (h' : Approx w r d) (hr : d < r) (hx : e + |t / r| * d ≤ x * (r - d)) (hB : |t / r| + x ≤ B)
    (hov : B ≤ 2 ^ f.emax) (hE : x + f.u * B + f.tiny ≤ E) : Approx (v /. w) (t / r) E := by
  have hd := h'.nonneg
  have hr0 : 0 < r := by linarith
  have hw : r - d ≤ w.toReal := by have := abs_le.mp h'.2; linarith
  have hw0 : 0 < w.toReal := by linarith
  have hx0 : 0 ≤ x := by
    have : 0 ≤ x * (r - d) := le_trans (add_nonneg h.nonneg (mul_nonneg (abs_nonneg _) hd)) hx
    exact nonneg_of_mul_nonneg_left this (by linarith)
  have hx : |v.toReal / w.toReal - t / r| ≤ x := by
    have e1 : v.toReal / w.toReal - t / r = ((v.toReal - t) - t / r * (w.toReal - r)) / w.toReal := by field_simp; ring
    rw [e1, abs_div, abs_of_pos hw0, div_le_iff₀ hw0]
    have t1 := abs_sub (v.toReal - t) (t / r * (w.toReal - r))
    rw [abs_mul] at t1
    have e2 := mul_le_mul_of_nonneg_left h'.2 (abs_nonneg (t / r))
    have e3 := mul_le_mul_of_nonneg_left hw hx0
    linarith [h.2]
  obtain ⟨h1, h2⟩ := round_close hx hB hE
  obtain ⟨h3, h4⟩ := div_val h.1 h'.1 hw0.ne' (noOvf_of_le_emax (h1.trans hov))
  exact ⟨h3, by rw [h4]; exact h2⟩

theorem Approx.one : Approx (one : Fl L) 1 0 := ⟨one_finite, by simp⟩
theorem Approx.two : Approx (two : Fl L) 2 0 := ⟨two_val.1, by simp [two_val.2]⟩
theorem Approx.zero : Approx (zero : Fl L) 0 0 := ⟨zero_finite, by simp⟩

end Fl

/-- Doubling is exact. -/
theorem IsRep.two_mul {x : ℝ} (h : IsRep f x) : IsRep f (2 * x) := by
  obtain ⟨m, e, hm, he, rfl⟩ := h
  refine ⟨m, e + 1, hm, by omega, ?_⟩
  rw [zpow_add_one₀ (by norm_num)]; ring

theorem Fl.two_mul_val {q : Fl L} (hq : q.Finite) (h : |2 * q.toReal| ≤ 2 ^ f.emax) :
    (two *. q).Finite ∧ (two *. q).toReal = 2 * q.toReal := by
  have := mul_val (two_val (L := L)).1 hq (by rw [two_val.2]; exact noOvf_of_le_emax h)
  rwa [two_val.2, rnd_of_isRep (isRep_toReal q).two_mul] at this

end Rasp
