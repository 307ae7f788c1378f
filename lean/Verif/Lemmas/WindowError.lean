import Verif.Props.Blackman
import Verif.Props.Util
import Verif.Lemmas.RbjFloat
import Verif.Spec.WindowError

/-!
# Rounding errors of one window value
-/

namespace Rasp
open FloatOps Fl
variable {f : Fmt} {L : Libm f} {k : ℝ}

namespace Fmt.Ordinary

theorem u_le' (h : f.Ordinary) : f.u ≤ 1 / 1024 := by
  unfold Fmt.u
  apply one_div_le_one_div_of_le (by norm_num)
  calc (1024 : ℝ) = 2 ^ 10 := by norm_num
    _ ≤ 2 ^ f.p := pow_le_pow_right₀ (by norm_num) h.prec

theorem roomy (h : f.Ordinary) : f.Roomy := ⟨h.small, by have := h.prec'; have := h.large; omega⟩

theorem tiny_le (h : f.Ordinary) : f.tiny ≤ f.u / 1000 := by
  have := h.roomy.tiny
  have := h.u_le'
  have := f.u_pos
  nlinarith [sq_nonneg f.u]

theorem emax_ge (h : f.Ordinary) : (2 : ℝ) ^ 67 ≤ 2 ^ f.emax := by
  have := zpow_le_zpow_right₀ (a := (2 : ℝ)) (by norm_num) h.large
  exact_mod_cast this

theorem u64_le (h : f.Ordinary) : binary64.u ≤ f.u := by
  unfold Fmt.u
  apply one_div_le_one_div_of_le (by positivity)
  exact pow_le_pow_right₀ (by norm_num) (by have := h.prec'; simpa [binary64] using this)

theorem tiny64_le (h : f.Ordinary) : binary64.tiny ≤ f.u / 1000 := by
  have h1 := h.u64_le
  have h2 : binary64.tiny ≤ binary64.u / 1000 := by
    have := binary64_roomy.tiny
    have h3 : binary64.u ≤ 1 / 1024 := by unfold Fmt.u; norm_num [binary64]
    have := binary64.u_pos
    nlinarith [sq_nonneg binary64.u]
  linarith

end Fmt.Ordinary

theorem usize_approx [Target] (hf : f.Ordinary) {n : ℕ} (hn : n < usizeMod) : Approx (ofUsize n : Fl L) n (1.001 * f.u * n) := by
  obtain ⟨h1, h2⟩ := ofUsize_val (L := L) (nat_le_emax hf.large hn)
  refine ⟨h1, ?_⟩
  rw [h2]
  rcases Nat.eq_zero_or_pos n with rfl | hp
  · simp [rnd_zero]
  · have h3 := abs_rnd_sub_le_u f n
    have h4 : (1 : ℝ) ≤ n := by exact_mod_cast hp
    have h5 := hf.tiny_le
    have := f.u_pos
    rw [Nat.abs_cast] at h3
    nlinarith

theorem lit_approx (hf : f.Ordinary) {q : ℚ} (hq : |(q : ℝ)| ≤ 1) : Approx (ofF64 (.lit q) : Fl L) q (2.1 * f.u) := by
  obtain ⟨h1, h2⟩ := lit_val (L := L) hq
  refine ⟨h1, ?_⟩
  rw [h2]
  have e1 := abs_rnd_sub_le_u binary64 q
  have e2 := abs_rnd_sub_le_u f (rnd binary64 q)
  have e3 : |rnd binary64 (q : ℝ)| ≤ 1 := abs_rnd_le_of_le (isRep_one binary64) hq
  have e4 := abs_add_le (rnd f (rnd binary64 q) - rnd binary64 q) (rnd binary64 q - q)
  rw [sub_add_sub_cancel] at e4
  have := hf.u64_le
  have := hf.tiny64_le
  have := hf.tiny_le
  have := f.u_pos
  have := binary64.u_pos
  have := mul_le_mul_of_nonneg_left e3 f.u_pos.le
  have := mul_le_mul_of_nonneg_left hq binary64.u_pos.le
  linarith

/-- Constants computed in f64. -/
theorem f64_approx (hf : f.Ordinary) {c : F64Const} {v t : ℝ} (h1 : c.eval64.Finite) (h2 : c.eval64.toReal = v) (h3 : |v| ≤ 0.43)
    (h4 : |v - t| ≤ binary64.u) : Approx (ofF64 c : Fl L) t (2.1 * f.u) := by
  obtain ⟨p1, p2⟩ := conv_val (L := L) h1 (by rw [h2]; linarith)
  refine ⟨p1, ?_⟩
  rw [p2, h2]
  have q3 := abs_rnd_sub_le_u f v
  have q4 := abs_add_le (rnd f v - v) (v - t)
  rw [sub_add_sub_cancel] at q4
  have := hf.u64_le
  have := hf.tiny_le
  have := f.u_pos
  have := mul_le_mul_of_nonneg_left h3 f.u_pos.le
  linarith

/-- The angle of the cosine windows. -/
theorem theta_approx [Target] (hf : f.Ordinary) {n i : ℕ} (h2 : 2 ≤ n) (hn : n < usizeMod) (hi : i < n) :
    Approx ((two : Fl L) *. pi *. ofUsize i /. ofUsize (n - 1)) (2 * Real.pi * i / ((n - 1 : ℕ) : ℝ)) (32.7 * f.u) := by
  have hu := hf.u_le'
  have hu0 := f.u_pos
  have ht := hf.tiny_le
  have ht0 := f.tiny_pos
  have hm := hf.emax_ge
  have hπ := Real.pi_lt_d4
  have hπ3 := Real.pi_gt_three
  have hI : (0 : ℝ) ≤ i := Nat.cast_nonneg i
  have hM : (1 : ℝ) ≤ (n - 1 : ℕ) := by exact_mod_cast (show 1 ≤ n - 1 by omega)
  have hIM : (i : ℝ) ≤ (n - 1 : ℕ) := by exact_mod_cast (show i ≤ n - 1 by omega)
  have hM64 : ((n - 1 : ℕ) : ℝ) ≤ 2 ^ 64 := by
    have : n - 1 ≤ 2 ^ 64 := by have := target; omega
    exact_mod_cast this
  generalize hMM : ((n - 1 : ℕ) : ℝ) = M at hM hIM hM64 ⊢
  have a1 : Approx (FloatOps.pi : Fl L) Real.pi (3.15 * f.u) := by
    refine ⟨pi_val.1, ?_⟩
    rw [pi_val.2]
    have := abs_rnd_sub_le_u f Real.pi
    rw [abs_of_pos Real.pi_pos] at this
    nlinarith
  have a2 : Approx ((two : Fl L) *. FloatOps.pi) (2 * Real.pi) (6.3 * f.u) := by
    have hb := abs_le.mp a1.2
    obtain ⟨h3, h4⟩ := two_mul_val (L := L) a1.1 (by rw [abs_of_nonneg] <;> nlinarith)
    refine ⟨h3, ?_⟩
    rw [h4, ← mul_sub, abs_mul]
    norm_num
    linarith [a1.2]
  have a3 : Approx ((two : Fl L) *. FloatOps.pi *. ofUsize i) (2 * Real.pi * i) (19 * f.u * i + f.tiny) := by
    refine Approx.mul a2 (usize_approx hf (by omega)) (x := 12.6 * f.u * i) (B := 6.3 * i) ?_ ?_ ?_ ?_
    · rw [abs_of_nonneg hI, abs_of_pos (by positivity)]
      have : 0 ≤ f.u * i := by positivity
      nlinarith
    · rw [abs_of_nonneg (by positivity)]; nlinarith [mul_nonneg hu0.le hI]
    · have : (6.3 : ℝ) * i ≤ 6.3 * 2 ^ 64 := by linarith
      refine this.trans (le_trans ?_ hm)
      norm_num
    · nlinarith
  have a4 := usize_approx (L := L) hf (show n - 1 < usizeMod by omega)
  rw [hMM] at a4
  have hA : |2 * Real.pi * i / M| ≤ 6.2832 := by
    rw [abs_of_nonneg (by positivity), div_le_iff₀ (by linarith)]
    nlinarith
  refine Approx.div a3 a4 (x := 26 * f.u) (B := 6.6) ?_ ?_ ?_ ?_ ?_
  · nlinarith
  · have e1 := mul_le_mul_of_nonneg_right hA (show 0 ≤ 1.001 * f.u * M by positivity)
    have e2 := mul_le_mul_of_nonneg_left hIM (show 0 ≤ 19 * f.u by positivity)
    have e3 : f.tiny ≤ f.u / 1000 * M := by nlinarith
    have e4 : f.u * (f.u * M) ≤ 1 / 1024 * (f.u * M) := mul_le_mul_of_nonneg_right hu (by positivity)
    have e5 : 0 ≤ f.u * M := by positivity
    nlinarith
  · linarith
  · refine le_trans ?_ hm; norm_num
  · linarith

theorem cos_approx (hL : AccurateCos L k) {w : Fl L} {t e : ℝ} (hw : Approx w t (e * f.u)) (ht : |t| + e * f.u ≤ 20) :
    Approx (cos w) (Real.cos t) ((k + e) * f.u) := by
  have hb : |w.toReal| ≤ 20 := by
    have h2 := abs_add_le (w.toReal - t) t
    rw [sub_add_cancel] at h2
    linarith [hw.2]
  obtain ⟨c1, c2⟩ := hL w hw.1 hb
  refine ⟨c1, ?_⟩
  have h2 := Real.abs_cos_sub_cos_le w.toReal t
  have h3 := abs_add_le ((cos w).toReal - Real.cos w.toReal) (Real.cos w.toReal - Real.cos t)
  rw [sub_add_sub_cancel] at h3
  linarith [hw.2]

/-- A constant times a cosine. -/
theorem term_approx (hf : f.Ordinary) {a c : Fl L} {A C d e : ℝ} (ha : Approx a A (d * f.u)) (hc : Approx c C (e * f.u)) (hC : |C| ≤ 1)
    (hA : |A| ≤ 1) (hd0 : 0 ≤ d) (hd : d ≤ 4) (he : e * f.u ≤ 1 / 8) : Approx (a *. c) (A * C) ((|A| * e + 1.5 * d + 1.2) * f.u) := by
  have hu := hf.u_le'
  have hu0 := f.u_pos
  have ht := hf.tiny_le
  have hm := hf.emax_ge
  have hA0 := abs_nonneg A
  have e1 : d * f.u * |C| ≤ d * f.u := mul_le_of_le_one_right (by positivity) hC
  have e2 : d * f.u * (e * f.u) ≤ d * f.u * (1 / 8) := mul_le_mul_of_nonneg_left he (by positivity)
  have e3 : e * f.u * |A| ≤ 1 / 8 := by nlinarith
  have e4 : |A * C| ≤ 1 := by rw [abs_mul]; nlinarith [abs_nonneg C]
  refine Approx.mul ha hc (x := (|A| * e + 1.125 * d) * f.u) (B := 1.15) ?_ ?_ ?_ ?_
  · nlinarith
  · nlinarith
  · refine le_trans ?_ hm; norm_num
  · nlinarith [mul_nonneg hd0 hu0.le]

theorem windowVal_cosine [Target] (hf : f.Ordinary) (hL : AccurateCos L k) (hk0 : 0 ≤ k) (hk : (k + 120) * f.u ≤ 1 / 8) {kind : WindowKind} (h1 : kind ≠ .triangular)
    (h2 : kind ≠ .bartlett) {n i : ℕ} (hn2 : 2 ≤ n) (hn : n < usizeMod) (hi : i < n) :
    Approx (windowVal (Fl L) kind n i) (shape kind n i) ((k + 50) * f.u) := by
  have hu := hf.u_le'
  have hu0 := f.u_pos
  have ht := hf.tiny_le
  have ht0 := f.tiny_pos
  have hm : (8 : ℝ) ≤ 2 ^ f.emax := le_trans (by norm_num) hf.emax_ge
  have hθ := theta_approx (L := L) hf hn2 hn hi
  have hw : ((n - 1 : ℕ) : ℝ) = (n : ℝ) - 1 := by rw [Nat.cast_sub (by omega)]; simp
  have hθ0 : 0 ≤ 2 * Real.pi * i / ((n : ℝ) - 1) := by rw [← hw]; positivity
  have hθ1 : 2 * Real.pi * i / ((n : ℝ) - 1) ≤ 6.2832 := by
    have hπ := Real.pi_lt_d4
    have hπ3 := Real.pi_gt_three
    have hM : (1 : ℝ) ≤ (n - 1 : ℕ) := by exact_mod_cast (show 1 ≤ n - 1 by omega)
    have hIM : (i : ℝ) ≤ (n - 1 : ℕ) := by exact_mod_cast (show i ≤ n - 1 by omega)
    rw [← hw, div_le_iff₀ (by linarith)]
    have hI : (0 : ℝ) ≤ i := Nat.cast_nonneg i
    nlinarith
  rw [hw] at hθ
  have hku : 0 ≤ k * f.u := by positivity
  -- the three cosines
  generalize hwe : 2 * Real.pi * i / ((n : ℝ) - 1) = w at hθ hθ0 hθ1
  have hθ2 : Approx ((two : Fl L) *. ((two : Fl L) *. pi *. ofUsize i /. ofUsize (n - 1))) (2 * w) (65.4 * f.u) := by
    have hb := abs_le.mp hθ.2
    obtain ⟨h3, h4⟩ := two_mul_val (L := L) hθ.1 (by
      refine le_trans ?_ hf.emax_ge
      rw [abs_le]; constructor <;> nlinarith)
    refine ⟨h3, ?_⟩
    rw [h4, ← mul_sub, abs_mul]
    norm_num
    linarith [hθ.2]
  have h3c : Approx (ofF64 (.lit 3) : Fl L) 3 0 := by
    have := int_const (L := L) (show 7 ≤ f.p by have := hf.prec; omega) (z := 3) (by norm_num)
    push_cast at this
    exact ⟨this.1, by rw [this.2]; simp⟩
  have hθ3 : Approx ((ofF64 (.lit 3) : Fl L) *. ((two : Fl L) *. pi *. ofUsize i /. ofUsize (n - 1))) (3 * w) (118 * f.u) := by
    refine Approx.mul h3c hθ (x := 98.1 * f.u) (B := 19) ?_ ?_ ?_ ?_
    · norm_num; linarith
    · rw [abs_of_nonneg (by positivity)]; linarith
    · refine le_trans ?_ hf.emax_ge; norm_num
    · linarith
  have c1 := cos_approx hL hθ (by rw [abs_of_nonneg hθ0]; linarith)
  have c2 := cos_approx hL hθ2 (by rw [abs_of_nonneg (by positivity)]; linarith)
  have c3 := cos_approx hL hθ3 (by rw [abs_of_nonneg (by positivity)]; linarith)
  have b1 := Real.abs_cos_le_one w
  have b2 := Real.abs_cos_le_one (2 * w)
  have b3 := Real.abs_cos_le_one (3 * w)
  have d1 := abs_le.mp b1
  have d2 := abs_le.mp b2
  have d3 := abs_le.mp b3
  cases kind with
  | triangular => exact absurd rfl h1
  | bartlett => exact absurd rfl h2
  | hann =>
    simp only [windowVal]
    generalize cos ((two : Fl L) *. pi *. ofUsize i /. ofUsize (n - 1)) = x at c1 ⊢
    have e1 : Approx (one -. x) (1 - Real.cos w) ((k + 35) * f.u) := by
      refine Approx.sub .one c1 (B := 2.2) ?_ (by linarith) (by linarith)
      rw [abs_of_nonneg (by linarith)]; linarith
    have e2 : Approx (ofF64 (.lit (1 / 2)) : Fl L) (1 / 2) 0 := ⟨half_val.1, by rw [half_val.2]; simp⟩
    have e3 := Approx.mul (E := (k + 50) * f.u) e2 e1 (x := (k + 35) * f.u * (1 / 2)) (B := 1.2) (by norm_num) (by
      rw [abs_of_nonneg (mul_nonneg (by norm_num) (by linarith))]; linarith) (by linarith) (by linarith)
    convert e3 using 1
    simp only [shape, hwe]
    norm_num
  | hamming =>
    simp only [windowVal]
    generalize cos ((two : Fl L) *. pi *. ofUsize i /. ofUsize (n - 1)) = x at c1 ⊢
    have e1 := lit_approx (L := L) hf (q := 54 / 100) (by norm_num [abs_le])
    generalize (ofF64 (.lit (54 / 100)) : Fl L) = α at e1 ⊢
    push_cast at e1
    have e2 : Approx (one -. α) (46 / 100) (2.7 * f.u) := by
      have := Approx.sub (E := 2.7 * f.u) .one e1 (B := 0.5) (by norm_num; linarith) (by linarith) (by linarith)
      norm_num at this ⊢
      exact this
    have e3 := term_approx hf e2 c1 b1 (by norm_num [abs_le]) (by norm_num) (by norm_num) (by linarith)
    rw [show |(46 / 100 : ℝ)| = 0.46 by rw [abs_of_pos] <;> norm_num] at e3
    have e4 := Approx.sub (E := (k + 50) * f.u) e1 e3 (B := 1.2) (by
      have : |(54 / 100 : ℝ) - 46 / 100 * Real.cos w| ≤ 1 := by rw [abs_le]; constructor <;> linarith
      linarith) (by linarith) (by linarith)
    convert e4 using 1
    simp only [shape, hwe]
    norm_num
  | blackman =>
    simp only [windowVal]
    generalize cos ((two : Fl L) *. ((two : Fl L) *. pi *. ofUsize i /. ofUsize (n - 1))) = y at c2 ⊢
    generalize cos ((two : Fl L) *. pi *. ofUsize i /. ofUsize (n - 1)) = x at c1 ⊢
    have a0 : Approx (ofF64 (.div (.sub (.lit 1) (.lit (16 / 100))) (.lit 2)) : Fl L) (42 / 100) (2.1 * f.u) := by
      refine f64_approx hf a0_f64.1 a0_f64.2 (by rw [abs_of_pos] <;> norm_num [zpow_neg]) ?_
      unfold Fmt.u; rw [abs_le]; constructor <;> norm_num [zpow_neg, binary64]
    have a2 : Approx (ofF64 (.div (.lit (16 / 100)) (.lit 2)) : Fl L) (8 / 100) (2.1 * f.u) := by
      refine f64_approx hf a2_f64.1 a2_f64.2 (by rw [abs_of_pos] <;> norm_num [zpow_neg]) ?_
      unfold Fmt.u; rw [abs_le]; constructor <;> norm_num [zpow_neg, binary64]
    have a1 := lit_approx (L := L) hf (q := 1 / 2) (by norm_num [abs_le])
    generalize (ofF64 (.div (.sub (.lit 1) (.lit (16 / 100))) (.lit 2)) : Fl L) = A0 at a0 ⊢
    generalize (ofF64 (.div (.lit (16 / 100)) (.lit 2)) : Fl L) = A2 at a2 ⊢
    generalize (ofF64 (.lit (1 / 2)) : Fl L) = A1 at a1 ⊢
    push_cast at a1
    have e1 := term_approx hf a1 c1 b1 (by norm_num [abs_le]) (by norm_num) (by norm_num) (by linarith)
    have e2 := term_approx hf a2 c2 b2 (by norm_num [abs_le]) (by norm_num) (by norm_num) (by linarith)
    rw [show |(1 / 2 : ℝ)| = 0.5 by rw [abs_of_pos] <;> norm_num] at e1
    rw [show |(8 / 100 : ℝ)| = 0.08 by rw [abs_of_pos] <;> norm_num] at e2
    have e3 := Approx.sub (E := (0.5 * k + 24) * f.u) a0 e1 (B := 1.1) (by
      have : |(42 / 100 : ℝ) - 1 / 2 * Real.cos w| ≤ 0.92 := by rw [abs_le]; constructor <;> linarith
      linarith) (by linarith) (by linarith)
    have e4 := Approx.add (E := (k + 50) * f.u) e3 e2 (B := 1.2) (by
      have : |(42 / 100 : ℝ) - 1 / 2 * Real.cos w + 8 / 100 * Real.cos (2 * w)| ≤ 1 := by rw [abs_le]; constructor <;> linarith
      linarith) (by linarith) (by linarith)
    convert e4 using 1
    simp only [shape, hwe]
    norm_num
  | blackmanHarris =>
    simp only [windowVal]
    generalize cos ((ofF64 (.lit 3) : Fl L) *. ((two : Fl L) *. pi *. ofUsize i /. ofUsize (n - 1))) = z at c3 ⊢
    generalize cos ((two : Fl L) *. ((two : Fl L) *. pi *. ofUsize i /. ofUsize (n - 1))) = y at c2 ⊢
    generalize cos ((two : Fl L) *. pi *. ofUsize i /. ofUsize (n - 1)) = x at c1 ⊢
    have a0 := lit_approx (L := L) hf (q := 35875 / 100000) (by norm_num [abs_le])
    have a1 := lit_approx (L := L) hf (q := 48829 / 100000) (by norm_num [abs_le])
    have a2 := lit_approx (L := L) hf (q := 14128 / 100000) (by norm_num [abs_le])
    have a3 := lit_approx (L := L) hf (q := 1168 / 100000) (by norm_num [abs_le])
    generalize (ofF64 (.lit (35875 / 100000)) : Fl L) = A0 at a0 ⊢
    generalize (ofF64 (.lit (48829 / 100000)) : Fl L) = A1 at a1 ⊢
    generalize (ofF64 (.lit (14128 / 100000)) : Fl L) = A2 at a2 ⊢
    generalize (ofF64 (.lit (1168 / 100000)) : Fl L) = A3 at a3 ⊢
    push_cast at a0 a1 a2 a3
    have e1 := term_approx hf a1 c1 b1 (by norm_num [abs_le]) (by norm_num) (by norm_num) (by linarith)
    have e2 := term_approx hf a2 c2 b2 (by norm_num [abs_le]) (by norm_num) (by norm_num) (by linarith)
    have e3 := term_approx hf a3 c3 b3 (by norm_num [abs_le]) (by norm_num) (by norm_num) (by linarith)
    rw [show |(48829 / 100000 : ℝ)| = 0.48829 by rw [abs_of_pos] <;> norm_num] at e1
    rw [show |(14128 / 100000 : ℝ)| = 0.14128 by rw [abs_of_pos] <;> norm_num] at e2
    rw [show |(1168 / 100000 : ℝ)| = 0.01168 by rw [abs_of_pos] <;> norm_num] at e3
    have e4 := Approx.sub (E := (0.48829 * k + 24) * f.u) a0 e1 (B := 1.1) (by
      have : |(35875 / 100000 : ℝ) - 48829 / 100000 * Real.cos w| ≤ 0.92 := by rw [abs_le]; constructor <;> linarith
      linarith) (by linarith) (by linarith)
    have e5 := Approx.add (E := (0.62957 * k + 39) * f.u) e4 e2 (B := 1.2) (by
      have : |(35875 / 100000 : ℝ) - 48829 / 100000 * Real.cos w + 14128 / 100000 * Real.cos (2 * w)| ≤ 1 := by rw [abs_le]; constructor <;> linarith
      linarith) (by linarith) (by linarith)
    have e6 := Approx.sub (E := (k + 50) * f.u) e5 e3 (B := 1.2) (by
      have : |(35875 / 100000 : ℝ) - 48829 / 100000 * Real.cos w + 14128 / 100000 * Real.cos (2 * w) - 1168 / 100000 * Real.cos (3 * w)| ≤ 1 := by
        rw [abs_le]; constructor <;> linarith
      linarith) (by linarith) (by linarith)
    convert e6 using 1
    simp only [shape, hwe]
    norm_num

theorem Approx.one_sub_abs (hf : f.Ordinary) {q : Fl L} {t : ℝ} (hq : Approx q t (6.3 * f.u)) (ht : |t| ≤ 1) :
    Approx (one -. abs q) (1 - |t|) (8 * f.u) := by
  have hu := hf.u_le'
  have hu0 := f.u_pos
  have ht' := hf.tiny_le
  have h1 : Approx (abs q) |t| (6.3 * f.u) := ⟨abs_finite.mpr hq.1, by rw [abs_toReal]; exact (abs_abs_sub_abs_le _ _).trans hq.2⟩
  refine Approx.sub .one h1 (B := 1.1) ?_ (le_trans (by norm_num) hf.emax_ge) (by linarith)
  rw [abs_of_nonneg (by linarith)]
  linarith [abs_nonneg t]

set_option maxHeartbeats 400000 in
theorem windowVal_line [Target] (hf : f.Ordinary) {kind : WindowKind} (hk : kind = .triangular ∨ kind = .bartlett) {n i : ℕ} (h2 : 2 ≤ n)
    (hn : n < usizeMod) (hi : i < n) : Approx (windowVal (Fl L) kind n i) (shape kind n i) (8 * f.u) := by
  have hu := hf.u_le'
  have hu0 := f.u_pos
  have ht := hf.tiny_le
  obtain ⟨a1, a2, hM, b1, b2, b3⟩ := window_num (L := L) hf.large h2 hn hi
  obtain ⟨d1, d2, d3, d4⟩ := window_den (L := L) hf.large (show 1 ≤ n by omega) hn
  have r0 := usize_approx (L := L) hf (show i < usizeMod by omega)
  have r1 := usize_approx (L := L) hf (show n - 1 < usizeMod by omega)
  have r2 := usize_approx (L := L) hf hn
  have v0 := (ofUsize_val (L := L) (nat_le_emax hf.large (show i < usizeMod by omega))).2
  have v1 := (ofUsize_val (L := L) (nat_le_emax hf.large (show n - 1 < usizeMod by omega))).2
  have v2 := (ofUsize_val (L := L) (nat_le_emax hf.large hn)).2
  have r0 := r0.2
  have r1 := r1.2
  have r2 := r2.2
  rw [v0] at r0
  rw [v1] at r1
  rw [v2] at r2
  have hM1 : (1 : ℝ) ≤ (n - 1 : ℕ) := by exact_mod_cast (show 1 ≤ n - 1 by omega)
  have hIM : (i : ℝ) ≤ (n - 1 : ℕ) := by exact_mod_cast (show i ≤ n - 1 by omega)
  have hI : (0 : ℝ) ≤ i := Nat.cast_nonneg i
  have hw : ((n - 1 : ℕ) : ℝ) = (n : ℝ) - 1 := by rw [Nat.cast_sub (by omega)]; simp
  have hem : (8 : ℝ) ≤ 2 ^ f.emax := le_trans (by norm_num) hf.emax_ge
  simp only [windowVal]
  generalize ((ofUsize i : Fl L) -. (ofUsize (n - 1) : Fl L) /. two) = N at b1 b2 b3
  generalize ((ofUsize (n - 1) : Fl L) /. two) = A at a1 a2
  generalize ((ofUsize n : Fl L) /. two) = D at d1 d2
  clear v0 v1 v2
  rw [hw] at a2 hM b2 b3 d3 r1 hM1 hIM
  generalize rnd f (i : ℝ) = I' at b2 r0
  generalize rnd f ((n : ℝ) - 1) = M' at a2 hM b2 b3 d3 r1
  generalize rnd f (n : ℝ) = n' at d2 d3 d4 r2
  have hu2 : f.u * (n - 1 : ℝ) ≤ 1 / 1024 * (n - 1) := mul_le_mul_of_nonneg_right hu (by linarith)
  have huI : f.u * (i : ℝ) ≤ f.u * (n - 1) := mul_le_mul_of_nonneg_left hIM hu0.le
  have hu1 : f.u ≤ f.u * (n - 1) := by nlinarith
  have s0 := abs_le.mp r0
  have s1 := abs_le.mp r1
  have hN : Approx N (i - (n - 1) / 2) (2.03 * f.u * (n - 1)) := by
    refine ⟨b1, ?_⟩
    have e1 := abs_rnd_sub_le_u f (I' - M' / 2)
    rw [← b2] at e1
    have e2 : |I' - M' / 2| ≤ 0.51 * (n - 1) := by
      rw [abs_le]; constructor <;> nlinarith
    have e3 : |I' - M' / 2 - (i - (n - 1) / 2)| ≤ 1.5015 * f.u * (n - 1) := by
      rw [abs_le]; constructor <;> linarith
    have e4 := abs_add_le (N.toReal - (I' - M' / 2)) (I' - M' / 2 - (i - (n - 1) / 2))
    rw [sub_add_sub_cancel] at e4
    have e5 := mul_le_mul_of_nonneg_left e2 hu0.le
    linarith
  rcases hk with rfl | rfl
  · have hD : Approx D (n / 2) (0.5005 * f.u * n) := by
      refine ⟨d1, ?_⟩
      rw [d2, ← sub_div, abs_div]
      norm_num
      linarith
    have hun : f.u * n ≤ 1 / 1024 * n := mul_le_mul_of_nonneg_right hu (by linarith)
    have hT : |((i : ℝ) - (n - 1) / 2) / (n / 2)| ≤ 1 := by
      rw [abs_div, abs_of_pos (show (0 : ℝ) < n / 2 by linarith), div_le_one (by linarith), abs_le]
      constructor <;> linarith
    have hq := Approx.div (E := 6.3 * f.u) hN hD (x := 5.15 * f.u) (B := 1.1) (by nlinarith) (by
      have e1 := mul_le_mul_of_nonneg_right hT (show 0 ≤ 0.5005 * f.u * n by positivity)
      have e2 : f.u * (f.u * n) ≤ 1 / 1024 * (f.u * n) := mul_le_mul_of_nonneg_right hu (by positivity)
      linarith) (by linarith) (by linarith) (by linarith)
    exact Approx.one_sub_abs hf hq hT
  · have hA : Approx A ((n - 1) / 2) (0.5005 * f.u * (n - 1)) := by
      refine ⟨a1, ?_⟩
      rw [a2, ← sub_div, abs_div]
      norm_num
      linarith
    have hT : |((i : ℝ) - (n - 1) / 2) / ((n - 1) / 2)| ≤ 1 := by
      rw [abs_div, abs_of_pos (show (0 : ℝ) < (n - 1) / 2 by linarith), div_le_one (by linarith), abs_le]
      constructor <;> linarith
    have hq := Approx.div (E := 6.3 * f.u) hN hA (x := 5.15 * f.u) (B := 1.1) (by linarith) (by
      have h0 : 0 ≤ f.u * ((n : ℝ) - 1) := mul_nonneg hu0.le (by linarith)
      have e1 := mul_le_mul_of_nonneg_right hT (show 0 ≤ 0.5005 * f.u * ((n : ℝ) - 1) by linarith)
      have e2 : f.u * (f.u * ((n : ℝ) - 1)) ≤ 1 / 1024 * (f.u * (n - 1)) := mul_le_mul_of_nonneg_right hu h0
      linarith) (by linarith) (by linarith) (by linarith)
    exact Approx.one_sub_abs hf hq hT

end Rasp
