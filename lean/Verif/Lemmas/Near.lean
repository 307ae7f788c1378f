import Verif.Lemmas.RbjFloat

/-!
# Rounding errors in units, relative to a scale
-/

namespace Rasp
open FloatOps Fl
variable {f : Fmt} {L : Libm f}

/-- Magnitudes at which neither overflow nor underflow matters. -/
def Fmt.Fits (f : Fmt) (T : ℝ) : Prop := 500 * f.tiny ≤ f.u * T ∧ 2 * T ≤ 2 ^ f.emax

theorem Fmt.Fits.pos {T : ℝ} (h : f.Fits T) : 0 < T := by
  have := f.u_pos
  have := f.tiny_pos
  have h1 := h.1
  by_contra hT
  nlinarith [not_lt.mp hT]

/-- `v` is within `a` units of `t`, on a scale `T` that bounds `t`. -/
structure Near (U : ℝ) (v : Fl L) (t a T : ℝ) : Prop where
  approx : Approx v t (a * U * T)
  le : |t| ≤ T

variable {U : ℝ} {v w : Fl L} {t r a b c T S Q : ℝ}

theorem Near.mono (h : Near U v t a T) (hQ : |t| ≤ Q) (hE : a * T ≤ c * Q) (hU : 0 ≤ U) : Near U v t c Q :=
  ⟨h.approx.le (by nlinarith), hQ⟩

theorem Near.neg (h : Near U v t a T) : Near U (neg v) (-t) a T := ⟨h.approx.neg, by rw [abs_neg]; exact h.le⟩

theorem Near.add (h : Near U v t a T) (h' : Near U w r b S) (hu : f.u ≤ U) (hQ : |t + r| ≤ Q) (hf : f.Fits Q)
    (hc : a * T + b * S + 2 * Q ≤ c * Q) (hU : c * U ≤ 1 / 2) : Near U (v +. w) (t + r) c Q := by
  have hu0 := f.u_pos
  have hQ0 := hf.pos
  have e1 := mul_le_mul_of_nonneg_right hc (show 0 ≤ U by linarith)
  have e2 := mul_le_mul_of_nonneg_right hU hQ0.le
  have e3 := mul_le_mul_of_nonneg_right hu hQ0.le
  have e4 := hf.1
  have e5 := mul_pos hu0 hQ0
  refine ⟨Approx.add h.approx h'.approx (B := 1.5 * Q) ?_ (by linarith [hf.2]) ?_, hQ⟩
  · linarith
  · linarith

theorem Near.sub (h : Near U v t a T) (h' : Near U w r b S) (hu : f.u ≤ U) (hQ : |t - r| ≤ Q) (hf : f.Fits Q)
    (hc : a * T + b * S + 2 * Q ≤ c * Q) (hU : c * U ≤ 1 / 2) : Near U (v -. w) (t - r) c Q := by
  have hu0 := f.u_pos
  have hQ0 := hf.pos
  have e1 := mul_le_mul_of_nonneg_right hc (show 0 ≤ U by linarith)
  have e2 := mul_le_mul_of_nonneg_right hU hQ0.le
  have e3 := mul_le_mul_of_nonneg_right hu hQ0.le
  have e4 := hf.1
  have e5 := mul_pos hu0 hQ0
  refine ⟨Approx.sub h.approx h'.approx (B := 1.5 * Q) ?_ (by linarith [hf.2]) ?_, hQ⟩
  · linarith
  · linarith

theorem Near.mul (h : Near U v t a T) (h' : Near U w r b S) (hu : f.u ≤ U) (hf : f.Fits (T * S)) (ha : 0 ≤ a) (hb : 0 ≤ b)
    (hab : a * b * U ≤ 1 / 4) (hU : (a + b + 1) * U ≤ 1 / 4) : Near U (v *. w) (t * r) (a + b + 2) (T * S) := by
  have hu0 := f.u_pos
  have hQ0 := hf.pos
  have hU0 : 0 < U := by linarith
  have hT : 0 ≤ T := (abs_nonneg _).trans h.le
  have hS : 0 ≤ S := (abs_nonneg _).trans h'.le
  have e3 := mul_le_mul_of_nonneg_right hu hQ0.le
  have e4 := hf.1
  have e5 := mul_pos hu0 hQ0
  have hle : |t * r| ≤ T * S := by rw [abs_mul]; exact mul_le_mul h.le h'.le (abs_nonneg _) hT
  have e1 : a * U * T * |r| ≤ a * U * (T * S) := by
    have := mul_le_mul_of_nonneg_left h'.le (show 0 ≤ a * U * T by positivity)
    linarith
  have e2 : b * U * S * |t| ≤ b * U * (T * S) := by
    have := mul_le_mul_of_nonneg_left h.le (show 0 ≤ b * U * S by positivity)
    linarith
  have e6 : a * U * T * (b * U * S) ≤ 1 / 4 * U * (T * S) := by
    have := mul_le_mul_of_nonneg_right hab (show 0 ≤ U * (T * S) by positivity)
    linarith
  have e7 := mul_le_mul_of_nonneg_right hU hQ0.le
  refine ⟨Approx.mul h.approx h'.approx (x := (a + b + 1 / 4) * U * (T * S)) (B := 1.5 * (T * S)) (by linarith) ?_ (by linarith [hf.2]) ?_, hle⟩
  · linarith [mul_pos hU0 hQ0]
  · linarith

/-- Division by a number on a scale of at most `g` times its size. -/
theorem Near.div (h : Near U v t a T) (h' : Near U w r b S) (hu : f.u ≤ U) {g τ M : ℝ} (hr : 0 < r) (hg : S ≤ g * r) (hτ : T ≤ τ * r)
    (hM : |t / r| ≤ M) (hMQ : M ≤ Q) (hf : f.Fits Q) (ha : 0 ≤ a) (hb : 0 ≤ b) (hbg : b * g * U ≤ 1 / 8)
    (hc : 1.2 * (a * τ + M * (b * g)) + 2 * Q ≤ c * Q) (hU : c * U ≤ 1 / 4) : Near U (v /. w) (t / r) c Q := by
  have hu0 := f.u_pos
  have hU0 : 0 < U := by linarith
  have hQ0 := hf.pos
  have hT : 0 ≤ T := (abs_nonneg _).trans h.le
  have hS : 0 ≤ S := (abs_nonneg _).trans h'.le
  have hM0 : 0 ≤ M := (abs_nonneg _).trans hM
  have e0 : b * U * S ≤ 1 / 8 * r := by
    have h1 := mul_le_mul_of_nonneg_left hg (show 0 ≤ b * U by positivity)
    have h2 := mul_le_mul_of_nonneg_right hbg hr.le
    linarith
  have e3 := mul_le_mul_of_nonneg_right hu hQ0.le
  have e4 := hf.1
  have e5 := mul_pos hu0 hQ0
  have e1 := mul_le_mul_of_nonneg_right hc hU0.le
  have e2 := mul_le_mul_of_nonneg_right hU hQ0.le
  have hτ0 : 0 ≤ τ := by
    have : 0 ≤ τ * r := hT.trans hτ
    exact nonneg_of_mul_nonneg_left this hr
  have hg0 : 0 ≤ g := by
    have : 0 ≤ g * r := hS.trans hg
    exact nonneg_of_mul_nonneg_left this hr
  have hx0 : 0 ≤ (a * τ + M * (b * g)) * U := by positivity
  have ex : a * U * T + |t / r| * (b * U * S) ≤ (a * τ + M * (b * g)) * U * r := by
    have h1 := mul_le_mul_of_nonneg_left hτ (show 0 ≤ a * U by positivity)
    have h2 := mul_le_mul hM (mul_le_mul_of_nonneg_left hg (show 0 ≤ b * U by positivity)) (by positivity) hM0
    linarith
  refine ⟨Approx.div h.approx h'.approx (x := 1.2 * ((a * τ + M * (b * g)) * U)) (B := 1.5 * Q) (by linarith) ?_ ?_ (by linarith [hf.2]) ?_, hM.trans hMQ⟩
  · have := mul_le_mul_of_nonneg_left (show 7 / 8 * r ≤ r - b * U * S by linarith) (show 0 ≤ 1.2 * ((a * τ + M * (b * g)) * U) by positivity)
    nlinarith
  · linarith
  · linarith

theorem Near.sqrt (h : Near U v t a T) (hu : f.u ≤ U) {g : ℝ} (ht : 0 < t) (hg : T ≤ g * t) (ha : 0 ≤ a) (hg1 : 1 ≤ g) (hag : a * g * U ≤ 1 / 8)
    (hf : f.Fits (g * Real.sqrt t)) : Near U (FloatOps.sqrt v) (Real.sqrt t) (a + 2) (g * Real.sqrt t) := by
  have hu0 := f.u_pos
  have hU0 : 0 < U := by linarith
  have hQ0 := hf.pos
  have hs := Real.sqrt_pos.mpr ht
  have e3 := mul_le_mul_of_nonneg_right hu hQ0.le
  have e4 := hf.1
  have e5 := mul_pos hu0 hQ0
  have e0 : a * U * T ≤ a * U * g * t := by
    have := mul_le_mul_of_nonneg_left hg (show 0 ≤ a * U by positivity); linarith
  have e1 := mul_le_mul_of_nonneg_right hag ht.le
  have hv := abs_le.mp h.approx.2
  have hv0 : 0 ≤ v.toReal := by linarith
  obtain ⟨s1, s2⟩ := sqrt_val h.approx.1 hv0
  have hq := Real.sqrt_nonneg v.toReal
  have hx : |Real.sqrt v.toReal - Real.sqrt t| ≤ a * U * (g * Real.sqrt t) := by
    have m1 := Real.mul_self_sqrt hv0
    have m2 := Real.mul_self_sqrt ht.le
    have : |Real.sqrt v.toReal - Real.sqrt t| * Real.sqrt t ≤ a * U * (g * Real.sqrt t) * Real.sqrt t := by
      calc |Real.sqrt v.toReal - Real.sqrt t| * Real.sqrt t ≤ |Real.sqrt v.toReal - Real.sqrt t| * (Real.sqrt v.toReal + Real.sqrt t) :=
            mul_le_mul_of_nonneg_left (by linarith) (abs_nonneg _)
        _ = |v.toReal - t| := by
            rw [← abs_of_nonneg (show 0 ≤ Real.sqrt v.toReal + Real.sqrt t by positivity), ← abs_mul]
            congr 1
            linarith
        _ ≤ a * U * T := h.approx.2
        _ ≤ a * U * g * t := e0
        _ = _ := by linear_combination -(a * U * g) * m2
    exact le_of_mul_le_mul_right this hs
  have e6 : a * U * (g * Real.sqrt t) ≤ 1 / 8 * (g * Real.sqrt t) := by
    have h1 := mul_le_mul_of_nonneg_right hag hs.le
    have h2 := mul_le_mul_of_nonneg_right hg1 hs.le
    linarith
  have hle : |Real.sqrt t| ≤ g * Real.sqrt t := by
    rw [abs_of_pos hs]; have := mul_le_mul_of_nonneg_right hg1 hs.le; linarith
  refine ⟨⟨s1, ?_⟩, hle⟩
  rw [s2]
  exact (round_close hx (B := 1.5 * (g * Real.sqrt t)) (by linarith) (by linarith)).2

end Rasp
