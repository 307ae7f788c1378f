import Verif.Lemmas.RoundNat
import Verif.Lemmas.RoundErr
import Verif.Lemmas.WindowsFl
import Verif.Model.Filters

/-!
# A silent f32 biquad, computed with integers

The zero-input recursion of a `Biquad2` with `a1 = -16775664/2^23` and `a2 = 16774111/2^24`, the coefficients that the f32
high-pass filter gets for 1 Hz at 48 kHz. `LowRun.run` carries it out with natural numbers only, so that the kernel can
evaluate it. `LowRun.sound` connects it to the model.
-/

namespace Rasp
open FloatOps

namespace LowRun

/-- `n / 2^25`, nearest, ties to even. -/
def r25 (n : ℕ) : ℕ := Nat.div (Nat.add (Nat.add n 16777215) (Nat.mod (Nat.div n 33554432) 2)) 33554432
/-- `n / 2^24`, nearest, ties to even. -/
def r24 (n : ℕ) : ℕ := Nat.div (Nat.add (Nat.add n 8388607) (Nat.mod (Nat.div n 16777216) 2)) 16777216
/-- `n / 2^23` with 24 significant bits. -/
def mulA (n : ℕ) : ℕ := cond (Nat.ble 281474976710656 n) (Nat.mul 4 (r25 n)) (Nat.mul 2 (r24 n))
/-- `n / 2^24` with 24 significant bits. -/
def mulS (n : ℕ) : ℕ := cond (Nat.ble 281474976710656 n) (Nat.mul 2 (r25 n)) (r24 n)
/-- `n` with 24 significant bits. -/
def rD (n : ℕ) : ℕ := cond (Nat.ble 16777216 n) (cond (Nat.ble 33554432 n)
  (Nat.mul 4 (Nat.div (Nat.add (Nat.add n 1) (Nat.mod (Nat.div n 4) 2)) 4))
  (Nat.mul 2 (Nat.div (Nat.add n (Nat.mod (Nat.div n 2) 2)) 2))) n

/-- Scale to `2^24 ≤ a < 2^25` and go on; `(0, 0, 0)` if this is not possible. -/
def scale (k : ℕ → ℕ → ℕ → ℕ × ℕ × ℕ) (e a b : ℕ) : ℕ × ℕ × ℕ :=
  cond (Nat.ble 33554432 a)
    (cond (Nat.beq (Nat.mod b 2) 0) (cond (Nat.beq (Nat.mod a 2) 0) (cond (Nat.ble a 67108863)
      (k (Nat.add e 1) (Nat.div a 2) (Nat.div b 2)) (0, 0, 0)) (0, 0, 0)) (0, 0, 0))
    (cond (Nat.ble 16777216 a) (k e a b)
      (cond (Nat.ble 8388608 a) (cond (Nat.ble 1 e) (k (Nat.sub e 1) (Nat.mul 2 a) (Nat.mul 2 b)) (0, 0, 0)) (0, 0, 0)))

/-- `n` steps from `z1 = a 2^e`, `z2 = -b 2^e`. -/
def run (n : ℕ) : ℕ → ℕ → ℕ → ℕ × ℕ × ℕ :=
  Nat.rec (motive := fun _ => ℕ → ℕ → ℕ → ℕ × ℕ × ℕ) (fun e a b => (e, a, b))
    (fun _ ih e a b => scale ih e (rD (Nat.sub (mulA (Nat.mul 16775664 a)) b)) (mulS (Nat.mul 16774111 a))) n

theorem run_succ (n e a b : ℕ) :
    run (n + 1) e a b = scale (run n) e (rD (mulA (16775664 * a) - b)) (mulS (16774111 * a)) := rfl

theorem transient : run 22272 88 19660800 19660800 = (92, 16778436, 16772504) := by decide +kernel

theorem cycle : run 24678 92 16778436 16772504 = (98, 16778436, 16772504) := by decide +kernel

/-! ## The integer operations are the f32 operations -/

theorem mulA_eq {n : ℕ} (h1 : 2 ^ 47 ≤ n) (h2 : n < 2 ^ 49) {e : ℤ} (he : -126 ≤ e) :
    rnd binary32 (n * 2 ^ (e - 23)) = mulA n * 2 ^ e := by
  unfold mulA
  by_cases h : 2 ^ 48 ≤ n
  · rw [show Nat.ble 281474976710656 n = true from Nat.ble_eq.mpr h, cond_true]
    have := rnd_nat (f := binary32) (n := n) (k := 24) (e := e - 23) h h2 (by show (-149 : ℤ) ≤ _; omega)
    rw [this, show e - 23 + ((24 : ℕ) + 1 : ℤ) = 2 + e by push_cast; ring, zpow_add₀ (by norm_num), ← mul_assoc]
    congr 1
    rw [show Nat.mul 4 (r25 n) = r25 n * 4 from Nat.mul_comm _ _, Nat.cast_mul]
    norm_num
    rfl
  · rw [show Nat.ble 281474976710656 n = false by
      rw [← Bool.not_eq_true, Nat.ble_eq]; exact h, cond_false]
    have := rnd_nat (f := binary32) (n := n) (k := 23) (e := e - 23) h1 (not_le.mp h) (by show (-149 : ℤ) ≤ _; omega)
    rw [this, show e - 23 + ((23 : ℕ) + 1 : ℤ) = 1 + e by push_cast; ring, zpow_add₀ (by norm_num), ← mul_assoc]
    congr 1
    rw [show Nat.mul 2 (r24 n) = r24 n * 2 from Nat.mul_comm _ _, Nat.cast_mul]
    norm_num
    rfl

theorem mulS_eq {n : ℕ} (h1 : 2 ^ 47 ≤ n) (h2 : n < 2 ^ 49) {e : ℤ} (he : -125 ≤ e) :
    rnd binary32 (n * 2 ^ (e - 24)) = mulS n * 2 ^ e := by
  unfold mulS
  by_cases h : 2 ^ 48 ≤ n
  · rw [show Nat.ble 281474976710656 n = true from Nat.ble_eq.mpr h, cond_true]
    have := rnd_nat (f := binary32) (n := n) (k := 24) (e := e - 24) h h2 (by show (-149 : ℤ) ≤ _; omega)
    rw [this, show e - 24 + ((24 : ℕ) + 1 : ℤ) = 1 + e by push_cast; ring, zpow_add₀ (by norm_num), ← mul_assoc]
    congr 1
    rw [show Nat.mul 2 (r25 n) = r25 n * 2 from Nat.mul_comm _ _, Nat.cast_mul]
    norm_num
    rfl
  · rw [show Nat.ble 281474976710656 n = false by
      rw [← Bool.not_eq_true, Nat.ble_eq]; exact h, cond_false]
    have := rnd_nat (f := binary32) (n := n) (k := 23) (e := e - 24) h1 (not_le.mp h) (by show (-149 : ℤ) ≤ _; omega)
    rw [this, show e - 24 + ((23 : ℕ) + 1 : ℤ) = e by push_cast; ring]
    rfl

theorem rD_eq {n : ℕ} (h2 : n < 2 ^ 26) {e : ℤ} (he : -149 ≤ e) : rnd binary32 (n * 2 ^ e) = rD n * 2 ^ e := by
  unfold rD
  by_cases h : 2 ^ 24 ≤ n
  · rw [show Nat.ble 16777216 n = true from Nat.ble_eq.mpr h, cond_true]
    by_cases h' : 2 ^ 25 ≤ n
    · rw [show Nat.ble 33554432 n = true from Nat.ble_eq.mpr h', cond_true]
      have := rnd_nat (f := binary32) (n := n) (k := 1) (e := e) h' h2 he
      rw [this, show e + ((1 : ℕ) + 1 : ℤ) = 2 + e by push_cast; ring, zpow_add₀ (by norm_num), ← mul_assoc]
      congr 1
      rw [show ∀ t, Nat.mul 4 t = t * 4 from fun t => Nat.mul_comm _ _, Nat.cast_mul]
      norm_num
      rfl
    · rw [show Nat.ble 33554432 n = false by
        rw [← Bool.not_eq_true, Nat.ble_eq]; exact h', cond_false]
      have := rnd_nat (f := binary32) (n := n) (k := 0) (e := e) h (not_le.mp h') he
      rw [this, show e + ((0 : ℕ) + 1 : ℤ) = 1 + e by push_cast; ring, zpow_add₀ (by norm_num), ← mul_assoc]
      congr 1
      rw [show ∀ t, Nat.mul 2 t = t * 2 from fun t => Nat.mul_comm _ _, Nat.cast_mul]
      norm_num
      rfl
  · rw [show Nat.ble 16777216 n = false by
      rw [← Bool.not_eq_true, Nat.ble_eq]; exact h, cond_false]
    apply rnd_of_isRep
    refine ⟨n, e, ?_, he, by push_cast; rfl⟩
    rw [Nat.abs_cast]
    exact_mod_cast not_le.mp h

theorem mulA_lt {n : ℕ} (h2 : n < 2 ^ 49) : mulA n ≤ 2 ^ 26 := by
  unfold mulA
  have h1 : r25 n ≤ 2 ^ 24 := by
    show (n + 16777215 + (n / 33554432) % 2) / 33554432 ≤ _
    omega
  by_cases h : 2 ^ 48 ≤ n
  · rw [show Nat.ble 281474976710656 n = true from Nat.ble_eq.mpr h, cond_true]
    show 4 * r25 n ≤ _
    omega
  · rw [show Nat.ble 281474976710656 n = false by
      rw [← Bool.not_eq_true, Nat.ble_eq]; exact h, cond_false]
    show 2 * ((n + 8388607 + (n / 16777216) % 2) / 16777216) ≤ _
    omega

/-- Scaling does not change the values. -/
theorem scale_sound {k : ℕ → ℕ → ℕ → ℕ × ℕ × ℕ} {e a b : ℕ} {r : ℕ × ℕ × ℕ} (h : scale k e a b = r) (hr : r.2.1 ≠ 0) (E : ℤ) :
    8388608 ≤ a ∧ ∃ e' a' b', k e' a' b' = r ∧ 2 ^ 24 ≤ a' ∧ a' < 2 ^ 25 ∧ (a' : ℝ) * 2 ^ (E + e') = a * 2 ^ (E + e) ∧
      (b' : ℝ) * 2 ^ (E + e') = b * 2 ^ (E + e) := by
  unfold scale at h
  have bad : ((0, 0, 0) : ℕ × ℕ × ℕ) ≠ r := by rintro rfl; exact hr rfl
  by_cases h1 : 33554432 ≤ a
  · rw [show Nat.ble 33554432 a = true from Nat.ble_eq.mpr h1, cond_true] at h
    by_cases h2 : b % 2 = 0
    · rw [show Nat.beq (Nat.mod b 2) 0 = true from Nat.beq_eq.mpr h2, cond_true] at h
      by_cases h3 : a % 2 = 0
      · rw [show Nat.beq (Nat.mod a 2) 0 = true from Nat.beq_eq.mpr h3, cond_true] at h
        by_cases h4 : a ≤ 67108863
        · rw [show Nat.ble a 67108863 = true from Nat.ble_eq.mpr h4, cond_true] at h
          refine ⟨by omega, e + 1, a / 2, b / 2, h, by omega, by omega, ?_, ?_⟩
          · obtain ⟨c, rfl⟩ : ∃ c, a = 2 * c := ⟨a / 2, by omega⟩
            rw [Nat.mul_div_cancel_left _ (by norm_num)]
            push_cast
            rw [show E + ((e : ℤ) + 1) = 1 + (E + e) by ring, zpow_add₀ (by norm_num)]
            ring
          · obtain ⟨c, rfl⟩ : ∃ c, b = 2 * c := ⟨b / 2, by omega⟩
            rw [Nat.mul_div_cancel_left _ (by norm_num)]
            push_cast
            rw [show E + ((e : ℤ) + 1) = 1 + (E + e) by ring, zpow_add₀ (by norm_num)]
            ring
        · rw [show Nat.ble a 67108863 = false by rw [← Bool.not_eq_true, Nat.ble_eq]; exact h4] at h
          exact absurd h bad
      · rw [show Nat.beq (Nat.mod a 2) 0 = false by rw [← Bool.not_eq_true, Nat.beq_eq]; exact h3] at h
        exact absurd h bad
    · rw [show Nat.beq (Nat.mod b 2) 0 = false by rw [← Bool.not_eq_true, Nat.beq_eq]; exact h2] at h
      exact absurd h bad
  · rw [show Nat.ble 33554432 a = false by rw [← Bool.not_eq_true, Nat.ble_eq]; exact h1, cond_false] at h
    by_cases h2 : 16777216 ≤ a
    · rw [show Nat.ble 16777216 a = true from Nat.ble_eq.mpr h2, cond_true] at h
      exact ⟨by omega, e, a, b, h, h2, by omega, rfl, rfl⟩
    · rw [show Nat.ble 16777216 a = false by rw [← Bool.not_eq_true, Nat.ble_eq]; exact h2, cond_false] at h
      by_cases h3 : 8388608 ≤ a
      · rw [show Nat.ble 8388608 a = true from Nat.ble_eq.mpr h3, cond_true] at h
        by_cases h4 : 1 ≤ e
        · rw [show Nat.ble 1 e = true from Nat.ble_eq.mpr h4, cond_true] at h
          refine ⟨h3, e - 1, 2 * a, 2 * b, h, by omega, by omega, ?_, ?_⟩
          · obtain ⟨c, rfl⟩ : ∃ c, e = c + 1 := ⟨e - 1, by omega⟩
            rw [Nat.add_sub_cancel]
            push_cast
            rw [show (2 : ℝ) ^ (E + ((c : ℤ) + 1)) = 2 * 2 ^ (E + c) by
              rw [show E + ((c : ℤ) + 1) = 1 + (E + c) by ring, zpow_add₀ (by norm_num), zpow_one]]
            ring
          · obtain ⟨c, rfl⟩ : ∃ c, e = c + 1 := ⟨e - 1, by omega⟩
            rw [Nat.add_sub_cancel]
            push_cast
            rw [show (2 : ℝ) ^ (E + ((c : ℤ) + 1)) = 2 * 2 ^ (E + c) by
              rw [show E + ((c : ℤ) + 1) = 1 + (E + c) by ring, zpow_add₀ (by norm_num), zpow_one]]
            ring
        · rw [show Nat.ble 1 e = false by rw [← Bool.not_eq_true, Nat.ble_eq]; exact h4] at h
          exact absurd h bad
      · rw [show Nat.ble 8388608 a = false by rw [← Bool.not_eq_true, Nat.ble_eq]; exact h3] at h
        exact absurd h bad

variable {L : Libm binary32}

/-- The state `(e, a, b)` describes a biquad. -/
structure At (E : ℤ) (e a b : ℕ) (s : Biquad2 (Fl L)) : Prop where
  fin1 : s.z1.Finite
  fin2 : s.z2.Finite
  val1 : s.z1.toReal = a * 2 ^ (E + e)
  val2 : s.z2.toReal = -(b * 2 ^ (E + e))
  lo : 2 ^ 24 ≤ a
  hi : a < 2 ^ 25
  pos : 0 < b

/-- The coefficients. -/
structure Coeffs (s : Biquad2 (Fl L)) : Prop where
  b0 : s.b0.Finite
  b1 : s.b1.Finite
  b2 : s.b2.Finite
  a1 : s.a1.Finite
  a2 : s.a2.Finite
  val1 : s.a1.toReal = -(16775664 / 2 ^ 23)
  val2 : s.a2.toReal = 16774111 / 2 ^ 24

theorem Coeffs.process {s : Biquad2 (Fl L)} (h : Coeffs s) (v : Fl L) : Coeffs (s.process v).1 :=
  ⟨h.b0, h.b1, h.b2, h.a1, h.a2, h.val1, h.val2⟩

open Fl

theorem zero_add_val {x z : Fl L} (hx : x.Finite) (hz : z.Finite) (h0 : z.toReal = 0) :
    (z +. x).Finite ∧ (z +. x).toReal = x.toReal := by
  have h := add_val hz hx (by rw [h0, zero_add]; exact noOvf_toReal x)
  rw [h0, zero_add, rnd_of_isRep (isRep_toReal x)] at h
  exact h

theorem zero_sub_val {x z : Fl L} (hx : x.Finite) (hz : z.Finite) (h0 : z.toReal = 0) :
    (z -. x).Finite ∧ (z -. x).toReal = -x.toReal := by
  have h := sub_val hz hx (by rw [h0, zero_sub, ← neg_toReal]; exact noOvf_toReal _)
  rw [h0, zero_sub, rnd_of_isRep (isRep_toReal x).neg] at h
  exact h

theorem sub_not_finite_right {x y : Fl L} (h : ¬ y.Finite) : ¬ (x -. y).Finite :=
  add_not_finite_right (x := x) (y := FloatOps.neg y) (fun h' => h (neg_finite.mp h'))

/-- One silent step. -/
theorem step_sound {s : Biquad2 (Fl L)} (hc : Coeffs s) {E : ℤ} (hE : -125 ≤ E) {e a b : ℕ} (h : At E e a b s) {v : Fl L}
    (hv : v.Finite) (hv0 : v.toReal = 0) (hfin : (s.process v).1.z1.Finite)
    (hD : 0 < mulA (16775664 * a) - b) :
    (s.process v).2.toReal = a * 2 ^ (E + e) ∧
    (s.process v).1.z1.toReal = rD (mulA (16775664 * a) - b) * 2 ^ (E + e) ∧ (s.process v).1.z2.Finite ∧
    (s.process v).1.z2.toReal = -(mulS (16774111 * a) * 2 ^ (E + e)) := by
  have hlo := h.lo
  have hhi := h.hi
  have m0 := mul_zero_val hc.b0 hv hv0
  have m1 := mul_zero_val hc.b1 hv hv0
  have m2 := mul_zero_val hc.b2 hv hv0
  have hy := zero_add_val h.fin1 m0.1 m0.2
  have hw := zero_add_val h.fin2 m1.1 m1.2
  set y := s.b0 *. v +. s.z1 with hydef
  have yv : y.toReal = a * 2 ^ (E + e) := hy.2.trans h.val1
  have ay : s.a1.toReal * y.toReal = -(((16775664 * a : ℕ) : ℝ) * 2 ^ (E + e - 23)) := by
    rw [hc.val1, yv, zpow_sub₀ (by norm_num)]
    push_cast
    norm_num
    ring
  have sy : s.a2.toReal * y.toReal = ((16774111 * a : ℕ) : ℝ) * 2 ^ (E + e - 24) := by
    rw [hc.val2, yv, zpow_sub₀ (by norm_num)]
    push_cast
    norm_num
    ring
  have rA := mulA_eq (n := 16775664 * a) (by omega) (by omega) (e := E + e) (by omega)
  have rS := mulS_eq (n := 16774111 * a) (by omega) (by omega) (e := E + e) (by omega)
  -- the product with `a1` is finite, because the result is
  have hfin' : (s.b1 *. v +. s.z2 -. s.a1 *. y).Finite := hfin
  have tf : (s.a1 *. y).Finite := by
    by_contra hn
    exact sub_not_finite_right hn hfin'
  have tno : FP.NoOvf binary32 (s.a1.toReal * y.toReal) := by
    by_contra hn
    rw [mul_ovf hc.a1 hy.1 hn] at tf
    exact inf_not_finite _ tf
  have tv : (s.a1 *. y).toReal = -(mulA (16775664 * a) * 2 ^ (E + e)) := by
    rw [(mul_val hc.a1 hy.1 tno).2, ay, rnd_neg, rA]
  have dno : FP.NoOvf binary32 ((s.b1 *. v +. s.z2).toReal - (s.a1 *. y).toReal) := by
    by_contra hn
    exact sub_ovf hw.1 tf hn hfin'
  have dv : (s.b1 *. v +. s.z2).toReal - (s.a1 *. y).toReal =
      ((mulA (16775664 * a) - b : ℕ) : ℝ) * 2 ^ (E + e) := by
    rw [hw.2, h.val2, tv, Nat.cast_sub (by omega)]
    ring
  have hlt : mulA (16775664 * a) - b < 2 ^ 26 := by
    have := mulA_lt (n := 16775664 * a) (by omega)
    have := h.pos
    omega
  have uno : FP.NoOvf binary32 (s.a2.toReal * y.toReal) := noOvf_of_abs_le (y := y) (by
    rw [abs_mul, hc.val2]
    have : |(16774111 / 2 ^ 24 : ℝ)| ≤ 1 := by norm_num [abs_le]
    exact mul_le_of_le_one_left (abs_nonneg _) this)
  obtain ⟨uf, uv⟩ := mul_val hc.a2 hy.1 uno
  rw [sy, rS] at uv
  obtain ⟨zf, zv⟩ := zero_sub_val uf m2.1 m2.2
  refine ⟨yv, ?_, zf, ?_⟩
  · show (s.b1 *. v +. s.z2 -. s.a1 *. y).toReal = _
    rw [(sub_val hw.1 tf dno).2, dv, rD_eq hlt (by omega)]
  · show (s.b2 *. v -. s.a2 *. y).toReal = _
    rw [zv, uv]

theorem rD_zero : rD 0 = 0 := rfl

theorem mulS_pos {n : ℕ} (h1 : 2 ^ 47 ≤ n) : 0 < mulS n := by
  unfold mulS
  by_cases h : 2 ^ 48 ≤ n
  · rw [show Nat.ble 281474976710656 n = true from Nat.ble_eq.mpr h, cond_true]
    show 0 < 2 * ((n + 16777215 + (n / 33554432) % 2) / 33554432)
    omega
  · rw [show Nat.ble 281474976710656 n = false by
      rw [← Bool.not_eq_true, Nat.ble_eq]; exact h, cond_false]
    show 0 < (n + 8388607 + (n / 16777216) % 2) / 16777216
    omega

/-- The integers follow the filter as long as its state stays finite. -/
theorem sound {E : ℤ} (hE : -125 ≤ E) {st : ℕ → Biquad2 (Fl L)} {x : ℕ → Fl L}
    (hst : ∀ n, st (n + 1) = ((st n).process (x n)).1) (hx : ∀ n, (x n).Finite ∧ (x n).toReal = 0)
    (hfin : ∀ n, (st n).z1.Finite) {r : ℕ × ℕ × ℕ} (hr : r.2.1 ≠ 0) (n : ℕ) :
    ∀ (k e a b : ℕ), Coeffs (st k) → At E e a b (st k) → run n e a b = r →
      Coeffs (st (k + n)) ∧ At E r.1 r.2.1 r.2.2 (st (k + n)) := by
  induction n with
  | zero =>
    rintro k e a b hc h rfl
    exact ⟨hc, h⟩
  | succ n ih =>
    intro k e a b hc h hrun
    rw [run_succ] at hrun
    obtain ⟨hD, e', a', b', hr', lo, hi, va, vb⟩ := scale_sound hrun hr E
    have hlo := h.lo
    have hf := hfin (k + 1)
    rw [hst] at hf
    obtain ⟨-, v1, f2, v2⟩ := step_sound hc hE h (hx k).1 (hx k).2 hf (by
      by_contra h0
      rw [show mulA (16775664 * a) - b = 0 by omega, rD_zero] at hD
      omega)
    have hc' : Coeffs (st (k + 1)) := by rw [hst]; exact hc.process _
    have hb' : 0 < b' := by
      rcases Nat.eq_zero_or_pos b' with rfl | h'
      · exfalso
        have : (0 : ℝ) < mulS (16774111 * a) := by exact_mod_cast mulS_pos (n := 16774111 * a) (by omega)
        rw [Nat.cast_zero, zero_mul] at vb
        have h2 : (0 : ℝ) < 2 ^ (E + e) := by positivity
        nlinarith
      · exact h'
    have := ih (k + 1) e' a' b' hc' (by
      rw [hst]
      exact ⟨hf, f2, v1.trans va.symm, by rw [v2, vb], lo, hi, hb'⟩) hr'
    rwa [show k + 1 + n = k + (n + 1) by omega] at this

/-- A filter in the state before the transient does not stay finite. -/
theorem not_finite {st : ℕ → Biquad2 (Fl L)} {x : ℕ → Fl L} (hst : ∀ n, st (n + 1) = ((st n).process (x n)).1)
    (hx : ∀ n, (x n).Finite ∧ (x n).toReal = 0) (hc : Coeffs (st 0)) (h : At (-125) 88 19660800 19660800 (st 0)) :
    ∃ n, ¬ (st n).z1.Finite := by
  by_contra hcon
  push Not at hcon
  have h0 := sound (le_refl _) hst hx hcon (by decide) _ 0 _ _ _ hc h transient
  have hk : ∀ k : ℕ, ∃ n, Coeffs (st n) ∧ At (-125 + 6 * k) 92 16778436 16772504 (st n) := by
    intro k
    induction k with
    | zero => exact ⟨_, h0.1, by simpa using h0.2⟩
    | succ k ih =>
      obtain ⟨n, hcn, hn⟩ := ih
      have h1 := sound (by omega) hst hx hcon (by decide) _ n _ _ _ hcn hn cycle
      refine ⟨_, h1.1, ?_⟩
      have h2 := h1.2
      refine ⟨h2.fin1, h2.fin2, ?_, ?_, h2.lo, h2.hi, h2.pos⟩
      · rw [h2.val1]; congr 2; push_cast; ring
      · rw [h2.val2]; congr 3; push_cast; ring
  obtain ⟨n, -, hn⟩ := hk 30
  have := Fl.abs_toReal_lt (st n).z1
  rw [hn.val1] at this
  norm_num [Fmt.lim, binary32] at this

end LowRun
end Rasp
