import Verif.Lemmas.WindowsFl
import Verif.Props.Windows

/-!
# C58–C60 and C62 in IEEE arithmetic

The formats are required to have `67 ≤ emax`, so that no index, size or angle overflows; `f32` (127) and `f64` (1023) do.
-/

namespace Rasp
open FloatOps
variable {f : Fmt} {L : Libm f}

theorem emax_f32 : 67 ≤ binary32.emax := by norm_num [binary32]
theorem emax_f64 : 67 ≤ binary64.emax := by norm_num [binary64]

theorem nat_le_emax [Target] (hf : 67 ≤ f.emax) {n : ℕ} (hn : n < usizeMod) : (n : ℝ) ≤ 2 ^ f.emax := by
  have h1 : (n : ℝ) ≤ 2 ^ (64 : ℕ) := by
    have : n ≤ 2 ^ 64 := by have := target; omega
    exact_mod_cast this
  calc (n : ℝ) ≤ 2 ^ (64 : ℕ) := h1
    _ = (2 : ℝ) ^ (64 : ℤ) := by norm_cast
    _ ≤ 2 ^ f.emax := zpow_le_zpow_right₀ (by norm_num) (by omega)

/-- The numerator of Triangular and Bartlett. -/
theorem window_num [Target] (hf : 67 ≤ f.emax) {n i : ℕ} (h2 : 2 ≤ n) (hn : n < usizeMod) (hi : i < n) :
    let m : Fl L := ofUsize (n - 1)
    let j : Fl L := ofUsize i
    (m /. two).Finite ∧ (m /. two).toReal = rnd f (n - 1 : ℕ) / 2 ∧ 1 ≤ rnd f (n - 1 : ℕ) ∧
    (j -. m /. two).Finite ∧ (j -. m /. two).toReal = rnd f (rnd f i - rnd f (n - 1 : ℕ) / 2) ∧
    |(j -. m /. two).toReal| ≤ rnd f (n - 1 : ℕ) / 2 := by
  intro m j
  obtain ⟨m1, m2⟩ := Fl.ofUsize_val (L := L) (nat_le_emax hf (show n - 1 < usizeMod by omega))
  obtain ⟨j1, j2⟩ := Fl.ofUsize_val (L := L) (nat_le_emax hf (show i < usizeMod by omega))
  have hM : 1 ≤ rnd f (n - 1 : ℕ) := le_rnd_of_le (isRep_one f) (by
    have : 1 ≤ n - 1 := by omega
    exact_mod_cast this)
  have hrep : IsRep f (rnd f (n - 1 : ℕ) / 2) := (rnd_isRep f _).half (by rw [abs_of_pos] <;> linarith)
  obtain ⟨a1, a2⟩ := Fl.div_two m1 (by rw [m2]; exact hrep)
  rw [m2] at a2
  have hj0 : 0 ≤ rnd f (i : ℝ) := rnd_nonneg (Nat.cast_nonneg i)
  have hj1 : rnd f (i : ℝ) ≤ rnd f (n - 1 : ℕ) := rnd_mono (by
    have : i ≤ n - 1 := by omega
    exact_mod_cast this)
  have habs : |rnd f (i : ℝ) - rnd f (n - 1 : ℕ) / 2| ≤ rnd f (n - 1 : ℕ) / 2 := by
    rw [abs_le]; constructor <;> linarith
  have hal : |(m /. two).toReal| = rnd f (n - 1 : ℕ) / 2 := by rw [a2, abs_of_pos]; linarith
  obtain ⟨b1, b2⟩ := Fl.sub_val (x := j) j1 a1 (by
    rw [a2, j2]
    exact Fl.noOvf_of_abs_le (y := m /. two) (by rw [hal]; exact habs))
  rw [a2, j2] at b2
  refine ⟨a1, a2, hM, b1, b2, ?_⟩
  rw [b2]
  exact abs_rnd_le_of_le hrep habs

/-- The quotient. -/
theorem window_quot {x d : Fl L} (hx : x.Finite) (hd : d.Finite) (h0 : 0 < d.toReal) (h : |x.toReal| ≤ d.toReal) :
    (x /. d).Finite ∧ (x /. d).toReal = rnd f (x.toReal / d.toReal) ∧ |(x /. d).toReal| ≤ 1 := by
  have hq : |x.toReal / d.toReal| ≤ 1 := by
    rw [abs_div, abs_of_pos h0, div_le_one h0]; exact h
  obtain ⟨h1, h2⟩ := Fl.div_val hx hd h0.ne' (FP.noOvf_of_le (isRep_one f) (FP.one_lt_lim f) hq)
  refine ⟨h1, h2, ?_⟩
  rw [h2]
  exact abs_rnd_le_of_le (isRep_one f) hq

theorem one_sub_abs {q : Fl L} (hq : q.Finite) (h : |q.toReal| ≤ 1) :
    (one -. abs q).Finite ∧ (one -. abs q).toReal = rnd f (1 - |q.toReal|) ∧ 0 ≤ (one -. abs q).toReal ∧
      (one -. abs q).toReal ≤ 1 := by
  have hr : |(1 - |q.toReal| : ℝ)| ≤ 1 := by
    have := abs_nonneg q.toReal
    rw [abs_le]; constructor <;> linarith
  obtain ⟨h1, h2⟩ := Fl.sub_val Fl.one_finite (Fl.abs_finite.mpr hq) (by
    rw [Fl.one_toReal, Fl.abs_toReal]
    exact FP.noOvf_of_le (isRep_one f) (FP.one_lt_lim f) hr)
  rw [Fl.one_toReal, Fl.abs_toReal] at h2
  refine ⟨h1, h2, ?_, ?_⟩
  · rw [h2]; exact rnd_nonneg (by linarith)
  · rw [h2]; exact rnd_le_of_le (isRep_one f) (by linarith [abs_nonneg q.toReal])

/-- The denominator of Triangular. -/
theorem window_den [Target] (hf : 67 ≤ f.emax) {n : ℕ} (h1 : 1 ≤ n) (hn : n < usizeMod) :
    ((ofUsize n : Fl L) /. two).Finite ∧ ((ofUsize n : Fl L) /. two).toReal = rnd f n / 2 ∧
    rnd f (n - 1 : ℕ) ≤ rnd f n ∧ 1 ≤ rnd f n := by
  obtain ⟨m1, m2⟩ := Fl.ofUsize_val (L := L) (nat_le_emax hf hn)
  have hM : 1 ≤ rnd f n := le_rnd_of_le (isRep_one f) (by exact_mod_cast h1)
  obtain ⟨a1, a2⟩ := Fl.div_two m1 (by rw [m2]; exact (rnd_isRep f _).half (by rw [abs_of_pos] <;> linarith))
  rw [m2] at a2
  exact ⟨a1, a2, rnd_mono (by
    have : n - 1 ≤ n := by omega
    exact_mod_cast this), hM⟩

/-! ## C58 -/

theorem window_num_symm {n i : ℕ} (h2 : 2 ≤ n) (hp : n ≤ 2 ^ f.p) (hi : i < n) :
    rnd f (rnd f i - rnd f (n - 1 : ℕ) / 2) = - rnd f (rnd f (n - 1 - i : ℕ) - rnd f (n - 1 : ℕ) / 2) := by
  rw [rnd_of_isRep (isRep_nat (f := f) (show i ≤ 2 ^ f.p by omega)),
    rnd_of_isRep (isRep_nat (f := f) (show n - 1 ≤ 2 ^ f.p by omega)),
    rnd_of_isRep (isRep_nat (f := f) (show n - 1 - i ≤ 2 ^ f.p by omega)), ← rnd_neg]
  congr 1
  rw [Nat.cast_sub (show i ≤ n - 1 by omega)]
  ring

/-- **C58, IEEE.** Triangular and Bartlett windows of at most `2^p` points (`2^24` for f32, `2^53` for f64) are symmetric
bit for bit. -/
theorem C58_ieee [Target] (hf : 67 ≤ f.emax) (b : Build) (k : WindowKind) (hk : k = .triangular ∨ k = .bartlett) (n : ℕ)
    (h2 : 2 ≤ n) (hp : n ≤ 2 ^ f.p) (hn : n < usizeMod) (o : ℕ → Option (Fl L)) (h : Yields b k n o) (i : ℕ)
    (hi : i < n) : o i = o (n - 1 - i) := by
  rw [(yields_iff b k hn o).mp h i, (yields_iff b k hn o).mp h (n - 1 - i), if_pos hi, if_pos (by omega)]
  congr 1
  obtain ⟨a1, a2, hM, b1, b2, b3⟩ := window_num (L := L) hf h2 hn hi
  obtain ⟨_, _, _, c1, c2, c3⟩ := window_num (L := L) hf h2 hn (show n - 1 - i < n by omega)
  have e := window_num_symm h2 hp hi
  rw [← b2, ← c2] at e
  rcases hk with rfl | rfl
  · simp only [windowVal]
    obtain ⟨d1, d2, d3, d4⟩ := window_den (L := L) hf (show 1 ≤ n by omega) hn
    congr 1
    obtain ⟨q1, q2, _⟩ := window_quot b1 d1 (by rw [d2]; linarith) (by rw [d2]; linarith)
    obtain ⟨r1, r2, _⟩ := window_quot c1 d1 (by rw [d2]; linarith) (by rw [d2]; linarith)
    apply Fl.ext_abs q1 r1
    rw [q2, r2, e, neg_div, rnd_neg, _root_.abs_neg]
  · simp only [windowVal]
    congr 1
    obtain ⟨q1, q2, _⟩ := window_quot b1 a1 (by rw [a2]; linarith) (by rw [a2]; exact b3)
    obtain ⟨r1, r2, _⟩ := window_quot c1 a1 (by rw [a2]; linarith) (by rw [a2]; exact c3)
    apply Fl.ext_abs q1 r1
    rw [q2, r2, e, neg_div, rnd_neg, _root_.abs_neg]

/-- The property's bound: `2^23` points, both widths. -/
example [Target] : 2 ^ 23 ≤ 2 ^ binary32.p ∧ 2 ^ 23 ≤ 2 ^ binary64.p ∧ 2 ^ 23 < usizeMod := by
  have := target
  exact ⟨by norm_num [binary32], by norm_num [binary64], by omega⟩

/-! ## C59 -/

theorem usize_le [Target] (hf : 67 ≤ f.emax) {i : ℕ} (hi : i < usizeMod) :
    (ofUsize i : Fl L).Finite ∧ 0 ≤ (ofUsize i : Fl L).toReal ∧ (ofUsize i : Fl L).toReal ≤ 2 ^ (64 : ℤ) := by
  obtain ⟨j1, j2⟩ := Fl.ofUsize_val (L := L) (nat_le_emax hf hi)
  refine ⟨j1, by rw [j2]; exact rnd_nonneg (Nat.cast_nonneg i), ?_⟩
  rw [j2]
  apply rnd_le_of_le (isRep_two_zpow (by have := f.hemin; have := f.hp; omega))
  have : i ≤ 2 ^ 64 := by have := target; omega
  exact_mod_cast this

/-- The angle is finite. -/
theorem window_theta [Target] (hf : 67 ≤ f.emax) {n i : ℕ} (h2 : 2 ≤ n) (hn : n < usizeMod) (hi : i < n) :
    (two *. pi *. (ofUsize i : Fl L) /. ofUsize (n - 1)).Finite := by
  obtain ⟨m1, m2⟩ := Fl.ofUsize_val (L := L) (nat_le_emax hf (show n - 1 < usizeMod by omega))
  obtain ⟨j1, j2, j3⟩ := usize_le (L := L) hf (show i < usizeMod by omega)
  have hM : 1 ≤ rnd f (n - 1 : ℕ) := le_rnd_of_le (isRep_one f) (by
    have : 1 ≤ n - 1 := by omega
    exact_mod_cast this)
  obtain ⟨t1, t2⟩ := Fl.two_val (L := L)
  obtain ⟨p1, p2⟩ := Fl.pi_val (L := L)
  have hz : ∀ e : ℤ, 0 ≤ e → IsRep f ((2 : ℝ) ^ e) := fun e he =>
    isRep_two_zpow (by have := f.hemin; have := f.hp; omega)
  have hlim : ∀ e : ℤ, e ≤ 67 → (2 : ℝ) ^ e < f.lim := fun e he =>
    zpow_lt_zpow_right₀ (by norm_num) (by omega)
  have h4 : rnd f Real.pi ≤ 4 := by
    have := rnd_le_of_le (hz 2 (by norm_num)) (x := Real.pi) (by norm_num; exact Real.pi_le_four)
    norm_num at this; exact this
  have h0 : 0 ≤ rnd f Real.pi := rnd_nonneg Real.pi_pos.le
  have a : |(two : Fl L).toReal * (pi : Fl L).toReal| ≤ 2 ^ (3 : ℤ) := by
    rw [t2, p2, abs_of_nonneg (by positivity)]; norm_num; linarith
  obtain ⟨u1, u2⟩ := Fl.mul_val t1 p1 (FP.noOvf_of_le (hz 3 (by norm_num)) (hlim 3 (by norm_num)) a)
  have u3 : |(two *. pi : Fl L).toReal| ≤ 2 ^ (3 : ℤ) := by rw [u2]; exact abs_rnd_le_of_le (hz 3 (by norm_num)) a
  have c : |(two *. pi : Fl L).toReal * (ofUsize i : Fl L).toReal| ≤ 2 ^ (67 : ℤ) := by
    rw [abs_mul, abs_of_nonneg j2]
    calc _ ≤ (2 : ℝ) ^ (3 : ℤ) * 2 ^ (64 : ℤ) := by gcongr
      _ = 2 ^ (67 : ℤ) := by norm_num
  obtain ⟨v1, v2⟩ := Fl.mul_val u1 j1 (FP.noOvf_of_le (hz 67 (by norm_num)) (hlim 67 (by norm_num)) c)
  have v3 : |(two *. pi *. ofUsize i : Fl L).toReal| ≤ 2 ^ (67 : ℤ) := by
    rw [v2]; exact abs_rnd_le_of_le (hz 67 (by norm_num)) c
  refine (Fl.div_val v1 m1 (by rw [m2]; linarith) ?_).1
  apply Fl.noOvf_of_abs_le (y := two *. pi *. ofUsize i)
  rw [m2, abs_div, abs_of_pos (show 0 < rnd f (n - 1 : ℕ) by linarith)]
  exact div_le_self (abs_nonneg _) hM

/-- A constant of the crate in format `f`. -/
theorem lit_val {q : ℚ} (h : |(q : ℝ)| ≤ 1) :
    (ofF64 (.lit q) : Fl L).Finite ∧ (ofF64 (.lit q) : Fl L).toReal = rnd f (rnd binary64 q) := by
  obtain ⟨h1, h2⟩ := FP.ofReal_of_noOvf (f := binary64) (s := false)
    (FP.noOvf_of_le (isRep_one binary64) (FP.one_lt_lim binary64) h)
  obtain ⟨s, a, ha, e⟩ := FP.finite_cases h1
  have hc : (ofF64 (.lit q) : Fl L) = FP.ofReal f s (rnd binary64 q) := by
    show FP.conv f (FP.ofReal binary64 false (q : ℝ)) = _
    rw [← h2, e]; rfl
  have := FP.ofReal_of_noOvf (f := f) (s := s) (x := rnd binary64 q)
    (FP.noOvf_of_le (isRep_one f) (FP.one_lt_lim f) (abs_rnd_le_of_le (isRep_one binary64) h))
  rw [hc]
  exact this

theorem half_val : (ofF64 (.lit (1 / 2)) : Fl L).Finite ∧ (ofF64 (.lit (1 / 2)) : Fl L).toReal = 1 / 2 := by
  have := lit_val (L := L) (q := 1 / 2) (by norm_num)
  push_cast at this
  rwa [rnd_of_isRep (Fl.isRep_half binary64), rnd_of_isRep (Fl.isRep_half f)] at this

/-- Hann's value for a cosine in `[-1, 1]`. -/
theorem hann_range {c : Fl L} (hc : Fl.In (-1) 1 c) : Fl.In 0 1 (ofF64 (.lit (1 / 2)) *. (one -. c)) := by
  obtain ⟨c1, c2, c3⟩ := hc
  have r : |1 - c.toReal| ≤ 2 := by rw [abs_le]; constructor <;> linarith
  obtain ⟨s1, s2⟩ := Fl.sub_val Fl.one_finite c1 (by rw [Fl.one_toReal]; exact Fl.noOvf_two r)
  rw [Fl.one_toReal] at s2
  have s3 : 0 ≤ (one -. c).toReal := by rw [s2]; exact rnd_nonneg (by linarith)
  have s4 : (one -. c).toReal ≤ 2 := by rw [s2]; exact rnd_le_of_le (Fl.isRep_two f) (by linarith)
  obtain ⟨h1, h2⟩ := half_val (L := L)
  obtain ⟨p1, p2⟩ := Fl.mul_val h1 s1 (by
    rw [h2]; apply Fl.noOvf_two; rw [abs_of_nonneg (by positivity)]; linarith)
  refine ⟨p1, ?_, ?_⟩
  · rw [p2, h2]; exact rnd_nonneg (by positivity)
  · rw [p2, h2]; exact rnd_le_of_le (isRep_one f) (by linarith)

/-- Hamming's value for a cosine in `[-1, 1]`. -/
theorem hamming_range {c : Fl L} (hc : Fl.In (-1) 1 c) :
    Fl.In 0 1 (ofF64 (.lit (54 / 100)) -. (one -. ofF64 (.lit (54 / 100))) *. c) := by
  obtain ⟨c1, c2, c3⟩ := hc
  obtain ⟨a1, a2⟩ := lit_val (L := L) (q := 54 / 100) (by norm_num)
  have a3 : 1 / 2 ≤ (ofF64 (.lit (54 / 100)) : Fl L).toReal := by
    rw [a2]
    exact le_rnd_of_le (Fl.isRep_half f) (le_rnd_of_le (Fl.isRep_half binary64) (by norm_num))
  have a4 : (ofF64 (.lit (54 / 100)) : Fl L).toReal ≤ 1 := by
    rw [a2]
    exact rnd_le_of_le (isRep_one f) (rnd_le_of_le (isRep_one binary64) (by norm_num))
  have a5 := Fl.isRep_toReal (ofF64 (.lit (54 / 100)) : Fl L)
  generalize (ofF64 (.lit (54 / 100)) : Fl L) = α at a1 a3 a4 a5 ⊢
  have hrep : IsRep f (1 - α.toReal) := a5.one_sub a3 a4
  obtain ⟨b1, b2⟩ := Fl.sub_val Fl.one_finite a1 (by
    rw [Fl.one_toReal]; exact Fl.noOvf_two (by rw [abs_le]; constructor <;> linarith))
  rw [Fl.one_toReal, rnd_of_isRep hrep] at b2
  have hprod : |(1 - α.toReal) * c.toReal| ≤ 1 - α.toReal := by
    rw [abs_mul, abs_of_nonneg (show 0 ≤ 1 - α.toReal by linarith)]
    exact mul_le_of_le_one_right (by linarith) (abs_le.mpr ⟨c2, c3⟩)
  obtain ⟨p1, p2⟩ := Fl.mul_val b1 c1 (by rw [b2]; exact Fl.noOvf_two (by linarith))
  have p3 : |((one -. α) *. c).toReal| ≤ 1 - α.toReal := by
    rw [p2, b2]; exact abs_rnd_le_of_le hrep hprod
  have p4 := abs_le.mp p3
  obtain ⟨q1, q2⟩ := Fl.sub_val a1 p1 (Fl.noOvf_two (by rw [abs_le]; constructor <;> linarith))
  refine ⟨q1, ?_, ?_⟩
  · rw [q2]; exact rnd_nonneg (by linarith)
  · rw [q2]; exact rnd_le_of_le (isRep_one f) (by linarith)

/-- **C59, IEEE.** Triangular and Bartlett values are in `[0, 1]` whatever the size and rounding; Hann and Hamming values
are if the platform's cosine stays in `[-1, 1]`. -/
theorem C59_ieee [Target] (hf : 67 ≤ f.emax) (b : Build) (k : WindowKind)
    (hk : k = .triangular ∨ k = .bartlett ∨ (k = .hann ∨ k = .hamming) ∧ CosUnit L) (n : ℕ) (h2 : 2 ≤ n)
    (hn : n < usizeMod) (o : ℕ → Option (Fl L)) (h : Yields b k n o) (i : ℕ) (v : Fl L) (hv : o i = some v) :
    Fl.In 0 1 v := by
  have hi : i < n := ((C55_exactly_size_items b k n hn).2 o h i).mp (by simp [hv])
  rw [(yields_iff b k hn o).mp h i, if_pos hi] at hv
  rw [← Option.some.inj hv]
  obtain ⟨a1, a2, hM, b1, b2, b3⟩ := window_num (L := L) hf h2 hn hi
  rcases hk with rfl | rfl | ⟨rfl | rfl, hc⟩
  · simp only [windowVal]
    obtain ⟨d1, d2, d3, d4⟩ := window_den (L := L) hf (show 1 ≤ n by omega) hn
    obtain ⟨q1, q2, q3⟩ := window_quot b1 d1 (by rw [d2]; linarith) (by rw [d2]; linarith)
    obtain ⟨r1, _, r2, r3⟩ := one_sub_abs q1 q3
    exact ⟨r1, r2, r3⟩
  · simp only [windowVal]
    obtain ⟨q1, q2, q3⟩ := window_quot b1 a1 (by rw [a2]; linarith) (by rw [a2]; exact b3)
    obtain ⟨r1, _, r2, r3⟩ := one_sub_abs q1 q3
    exact ⟨r1, r2, r3⟩
  · simp only [windowVal]
    exact hann_range (hc _ (window_theta hf h2 hn hi))
  · simp only [windowVal]
    exact hamming_range (hc _ (window_theta hf h2 hn hi))

/-! ## C60 -/

/-- **C60, IEEE.** The first and last Bartlett values are exactly zero, whatever the size; the centre of an odd-sized
Bartlett or Triangular window of at most `2^p` points is exactly one. -/
theorem C60_ieee [Target] (hf : 67 ≤ f.emax) (b : Build) (n : ℕ) (h2 : 2 ≤ n) (hn : n < usizeMod) (o : ℕ → Option (Fl L)) :
    (Yields b .bartlett n o → ∀ i, i = 0 ∨ i = n - 1 → ∃ v, o i = some v ∧ v.Finite ∧ v.toReal = 0) ∧
    (∀ m, n = 2 * m + 1 → n ≤ 2 ^ f.p → Yields b .bartlett n o ∨ Yields b .triangular n o → o m = some one) := by
  constructor
  · intro h i hi
    have hi' : i < n := by omega
    refine ⟨windowVal _ _ _ _, by rw [(yields_iff b _ hn o).mp h i, if_pos hi'], ?_⟩
    obtain ⟨a1, a2, hM, b1, b2, b3⟩ := window_num (L := L) hf h2 hn hi'
    have hrep : IsRep f (rnd f (n - 1 : ℕ) / 2) := (rnd_isRep f _).half (by rw [abs_of_pos] <;> linarith)
    have habs : |((ofUsize i : Fl L) -. ofUsize (n - 1) /. two).toReal| = rnd f (n - 1 : ℕ) / 2 := by
      rw [b2]
      rcases hi with rfl | rfl
      · rw [Nat.cast_zero, rnd_zero, zero_sub, rnd_neg, rnd_of_isRep hrep, _root_.abs_neg, abs_of_pos (by linarith)]
      · rw [show rnd f (n - 1 : ℕ) - rnd f (n - 1 : ℕ) / 2 = rnd f (n - 1 : ℕ) / 2 by ring, rnd_of_isRep hrep,
          abs_of_pos (by linarith)]
    simp only [windowVal]
    obtain ⟨q1, q2, q3⟩ := window_quot b1 a1 (by rw [a2]; linarith) (by rw [a2]; exact b3)
    obtain ⟨r1, r2, _, _⟩ := one_sub_abs q1 q3
    refine ⟨r1, ?_⟩
    rw [r2, q2, abs_rnd, abs_div, habs, a2, abs_of_pos (by linarith), div_self (by linarith), rnd_of_isRep (isRep_one f),
      sub_self, rnd_zero]
  · intro m hm hp h
    have hi : m < n := by omega
    obtain ⟨a1, a2, hM, b1, b2, b3⟩ := window_num (L := L) hf h2 hn hi
    have h0 : ((ofUsize m : Fl L) -. ofUsize (n - 1) /. two).toReal = 0 := by
      rw [b2, rnd_of_isRep (isRep_nat (f := f) (show m ≤ 2 ^ f.p by omega)),
        rnd_of_isRep (isRep_nat (f := f) (show n - 1 ≤ 2 ^ f.p by omega)), show n - 1 = 2 * m by omega]
      push_cast
      rw [show (m : ℝ) - 2 * m / 2 = 0 by ring, rnd_zero]
    have fin : ∀ d : Fl L, d.Finite → 0 < d.toReal →
        one -. abs (((ofUsize m : Fl L) -. ofUsize (n - 1) /. two) /. d) = one := by
      intro d hd hd0
      obtain ⟨z1, z2⟩ := Fl.zero_div_val b1 h0 hd hd0.ne'
      obtain ⟨w1, w2⟩ := Fl.sub_zero_val (Fl.one_finite (L := L)) (Fl.abs_finite.mpr z1) (by rw [Fl.abs_toReal, z2, abs_zero])
      exact Fl.ext_of_ne w1 Fl.one_finite w2 (by rw [w2]; simp)
    rcases h with h | h
    · rw [(yields_iff b _ hn o).mp h m, if_pos hi]
      simp only [windowVal]
      rw [fin _ a1 (by rw [a2]; linarith)]
    · rw [(yields_iff b _ hn o).mp h m, if_pos hi]
      obtain ⟨d1, d2, d3, d4⟩ := window_den (L := L) hf (show 1 ≤ n by omega) hn
      simp only [windowVal]
      rw [fin _ d1 (by rw [d2]; linarith)]

/-! ## C62 -/

theorem applyWindow_one [Target] {T : Type} [FloatOps T] (b : Build) (k : WindowKind) (x : T) :
    applyWindow b [x] (.shaped k) = .ok [windowVal T k 1 0 *. x] := by
  obtain ⟨ys, h1, h2, h3⟩ := applyLoop_eq b k 1 (by have := target; omega) [x] 0 (by simp)
  have : ys = [windowVal T k 1 0 *. x] := by
    have h4 := h3 0 (by simp)
    match ys, h2, h4 with
    | [y], _, h4 => simpa using h4
  rw [← this]
  exact h1

theorem theta_one_nan (hf : 67 ≤ f.emax) : (two *. pi *. (ofUsize 0 : Fl L) /. ofUsize (1 - 1)).IsNaN := by
  obtain ⟨j1, j2⟩ := Fl.ofUsize_val (L := L) (n := 0) (by simp [(two_zpow_pos f.emax).le])
  rw [Nat.cast_zero, rnd_zero] at j2
  obtain ⟨t1, t2⟩ := Fl.two_val (L := L)
  obtain ⟨p1, p2⟩ := Fl.pi_val (L := L)
  have u := Fl.mul_val t1 p1 (by
    rw [t2, p2]
    apply FP.noOvf_of_le (z := (2 : ℝ) ^ (3 : ℤ)) (isRep_two_zpow (by have := f.hemin; have := f.hp; omega))
    · exact zpow_lt_zpow_right₀ (by norm_num) (by omega)
    · have h4 : rnd f Real.pi ≤ 2 ^ (2 : ℤ) :=
        rnd_le_of_le (isRep_two_zpow (by have := f.hemin; have := f.hp; omega)) (by norm_num; exact Real.pi_le_four)
      have h0 : 0 ≤ rnd f Real.pi := rnd_nonneg Real.pi_pos.le
      norm_num at h4
      rw [abs_of_nonneg (by positivity)]; norm_num; linarith)
  obtain ⟨v1, v2⟩ := Fl.mul_zero_val u.1 j1 j2
  exact Fl.zero_div_zero v1 j1 v2 j2

theorem Fl.abs_nan {x : Fl L} (h : x.IsNaN) : (abs x).IsNaN := by
  obtain ⟨s, rfl⟩ := Fl.isNaN_iff.mp h
  exact trivial

theorem window_one_nan (hf : 67 ≤ f.emax) (k : WindowKind) (hk : k ≠ .triangular) (hc : k = .bartlett ∨ CosNaN L) :
    (windowVal (Fl L) k 1 0).IsNaN := by
  cases k
  · exact absurd rfl hk
  · obtain ⟨j1, j2⟩ := Fl.ofUsize_val (L := L) (n := 0) (by simp [(two_zpow_pos f.emax).le])
    rw [Nat.cast_zero, rnd_zero] at j2
    obtain ⟨t1, t2⟩ := Fl.two_val (L := L)
    obtain ⟨a1, a2⟩ := Fl.zero_div_val j1 j2 t1 (by rw [t2]; norm_num)
    obtain ⟨b1, b2⟩ := Fl.sub_zero_val j1 a1 a2
    simp only [windowVal]
    exact Fl.sub_nan_right (Fl.abs_nan (Fl.zero_div_zero b1 a1 (b2.trans j2) a2))
  all_goals
    have hc : CosNaN L := hc.resolve_left (by simp)
    have ht := theta_one_nan (L := L) hf
    simp only [windowVal]
  · exact Fl.mul_nan_right (Fl.sub_nan_right (hc _ ht))
  · exact Fl.sub_nan_right (Fl.mul_nan_right (hc _ ht))
  · exact Fl.add_nan_right (Fl.mul_nan_right (hc _ (Fl.mul_nan_right ht)))
  · exact Fl.sub_nan_right (Fl.mul_nan_right (hc _ (Fl.mul_nan_right ht)))

/-- **C62 is false** for five windows: `apply_window` makes a one-sample slice NaN, whatever the sample. (Bartlett: with
no assumption on the library. The others: if the cosine of NaN is NaN.) -/
theorem C62_one_sample_nan [Target] (hf : 67 ≤ f.emax) (b : Build) (k : WindowKind) (hk : k ≠ .triangular)
    (hc : k = .bartlett ∨ CosNaN L) (x : Fl L) : ∃ y, applyWindow b [x] (.shaped k) = .ok [y] ∧ y.IsNaN :=
  ⟨_, applyWindow_one b k x, Fl.mul_nan_left (window_one_nan hf k hk hc)⟩

/-- **C62.** Triangular and Rectangular keep the sample, bit for bit (a NaN stays some NaN under Triangular). -/
theorem C62_one_sample_kept [Target] (hf : 67 ≤ f.emax) (b : Build) (x : Fl L) :
    applyWindow b [x] .rectangular = .ok [x] ∧
    ∃ y, applyWindow b [x] (.shaped .triangular) = .ok [y] ∧ (¬ x.IsNaN → y = x) ∧ (x.IsNaN → y.IsNaN) := by
  refine ⟨rfl, _, applyWindow_one b _ x, ?_, fun h => Fl.mul_nan_right h⟩
  intro hx
  obtain ⟨j1, j2⟩ := Fl.ofUsize_val (L := L) (n := 0) (by simp [(two_zpow_pos f.emax).le])
  rw [Nat.cast_zero, rnd_zero] at j2
  obtain ⟨t1, t2⟩ := Fl.two_val (L := L)
  obtain ⟨a1, a2⟩ := Fl.zero_div_val j1 j2 t1 (by rw [t2]; norm_num)
  obtain ⟨b1, b2⟩ := Fl.sub_zero_val j1 a1 a2
  obtain ⟨d1, d2, d3, d4⟩ := window_den (L := L) (n := 1) hf le_rfl (by have := target; omega)
  obtain ⟨z1, z2⟩ := Fl.zero_div_val b1 (b2.trans j2) d1 (by rw [d2]; exact (div_pos (lt_of_lt_of_le one_pos d4) two_pos).ne')
  obtain ⟨w1, w2⟩ := Fl.sub_zero_val (Fl.one_finite (L := L)) (Fl.abs_finite.mpr z1) (by rw [Fl.abs_toReal, z2, abs_zero])
  have : windowVal (Fl L) .triangular 1 0 = one := Fl.ext_of_ne w1 Fl.one_finite w2 (w2.trans_ne (by simp))
  rw [this]
  exact Fl.one_mul_eq hx

/-- Both widths and a library with the assumed cosine exist. -/
example : 67 ≤ binary32.emax ∧ 67 ≤ binary64.emax ∧ CosNaN (Libm.roundedCos binary32) ∧ CosUnit (Libm.roundedCos binary32) :=
  ⟨emax_f32, emax_f64, (Libm.roundedCos_ok _).1, (Libm.roundedCos_ok _).2.1⟩

end Rasp
