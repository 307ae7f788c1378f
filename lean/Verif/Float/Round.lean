import Mathlib.Data.Int.Log
import Mathlib.Algebra.Order.Archimedean.Real.Basic
import Mathlib.Algebra.Order.Round
import Mathlib.Tactic.Linarith
import Mathlib.Tactic.Ring
import Mathlib.Tactic.NormNum
import Mathlib.Tactic.Positivity
import Mathlib.Tactic.FieldSimp
import Mathlib.Tactic.Push

/-!
# Rounding to nearest, ties to even, in a binary floating-point format

The definitions follow IEEE-754 (and Flocq's `FLT` format): a format has a precision `p`, the exponent `emin`
of the smallest positive (subnormal) number and the largest exponent `emax`.
-/

namespace Rasp

/-- A binary floating-point format. -/
structure Fmt where
  /-- precision in bits, including the implicit one -/
  p : ℕ
  /-- the smallest positive number is `2 ^ emin` -/
  emin : ℤ
  /-- finite numbers are smaller than `2 ^ (emax + 1)` -/
  emax : ℤ
  hp : 2 ≤ p
  hemin : emin + p ≤ 0
  hemax : p ≤ emax

/-- IEEE-754 binary32, Rust's `f32`. -/
def binary32 : Fmt := ⟨24, -149, 127, by norm_num, by norm_num, by norm_num⟩
/-- IEEE-754 binary64, Rust's `f64`. -/
def binary64 : Fmt := ⟨53, -1074, 1023, by norm_num, by norm_num, by norm_num⟩

/-- `x` is a multiple of a power of two with a significand of at most `p` bits (no upper limit on the exponent). -/
def IsRep (f : Fmt) (x : ℝ) : Prop :=
  ∃ m e : ℤ, |m| < 2 ^ f.p ∧ f.emin ≤ e ∧ x = m * (2 : ℝ) ^ e

/-- Nearest integer, ties to even. -/
noncomputable def rne (x : ℝ) : ℤ :=
  if Int.fract x < 1 / 2 then ⌊x⌋
  else if 1 / 2 < Int.fract x then ⌊x⌋ + 1
  else if Even ⌊x⌋ then ⌊x⌋ else ⌊x⌋ + 1

/-- Exponent of the last significand bit of numbers of the size of `x`. -/
noncomputable def cexp (f : Fmt) (x : ℝ) : ℤ := max (Int.log 2 |x| + 1 - f.p) f.emin

/-- Rounding to nearest, ties to even, with unbounded largest exponent (overflow is handled in `IEEE.lean`). -/
noncomputable def rnd (f : Fmt) (x : ℝ) : ℝ := rne (x / 2 ^ cexp f x) * (2 : ℝ) ^ cexp f x

/-! ## Nearest integer -/

theorem rne_spec (x : ℝ) : (rne x = ⌊x⌋ ∧ Int.fract x ≤ 1 / 2) ∨ (rne x = ⌊x⌋ + 1 ∧ 1 / 2 ≤ Int.fract x) := by
  unfold rne
  split_ifs with h1 h2 h3
  · exact .inl ⟨rfl, h1.le⟩
  · exact .inr ⟨rfl, h2.le⟩
  · exact .inl ⟨rfl, not_lt.mp h2⟩
  · exact .inr ⟨rfl, not_lt.mp h1⟩

theorem abs_rne_sub_le (x : ℝ) : |(rne x : ℝ) - x| ≤ 1 / 2 := by
  have hf := Int.floor_add_fract x
  have h0 := Int.fract_nonneg x
  have h1 := (Int.fract_lt_one x).le
  rcases rne_spec x with ⟨h, h'⟩ | ⟨h, h'⟩ <;> rw [h, abs_le] <;> push_cast <;> constructor <;> linarith

@[simp] theorem rne_intCast (n : ℤ) : rne (n : ℝ) = n := by
  unfold rne; simp

theorem floor_le_rne (x : ℝ) : ⌊x⌋ ≤ rne x := by
  rcases rne_spec x with ⟨h, -⟩ | ⟨h, -⟩ <;> rw [h]; omega

theorem rne_le_floor_add_one (x : ℝ) : rne x ≤ ⌊x⌋ + 1 := by
  rcases rne_spec x with ⟨h, -⟩ | ⟨h, -⟩ <;> rw [h]; omega

theorem rne_mono {x y : ℝ} (h : x ≤ y) : rne x ≤ rne y := by
  have hfl : ⌊x⌋ ≤ ⌊y⌋ := Int.floor_le_floor h
  rcases hfl.lt_or_eq with hlt | heq
  · have := rne_le_floor_add_one x; have := floor_le_rne y; omega
  · have hx := Int.floor_add_fract x
    have hy := Int.floor_add_fract y
    rw [heq] at hx
    have hfr : Int.fract x ≤ Int.fract y := by linarith
    unfold rne
    rw [heq]
    split_ifs <;> first | omega | (exfalso; linarith)

theorem rne_le_of_le {x : ℝ} {n : ℤ} (h : x ≤ n) : rne x ≤ n := by
  simpa using rne_mono h

theorem le_rne_of_le {x : ℝ} {n : ℤ} (h : (n : ℝ) ≤ x) : n ≤ rne x := by
  simpa using rne_mono h

theorem rne_eq_of_lt {x : ℝ} {n : ℤ} (h : |x - n| < 1 / 2) : rne x = n := by
  rw [abs_lt] at h
  have h1 := abs_rne_sub_le x
  rw [abs_le] at h1
  have h2 : ((rne x : ℤ) : ℝ) < n + 1 := by linarith
  have h3 : (n : ℝ) < rne x + 1 := by linarith
  have h2' : rne x < n + 1 := by exact_mod_cast h2
  have h3' : n < rne x + 1 := by exact_mod_cast h3
  omega

theorem rne_half_even {n : ℤ} (h : Even n) : rne ((n : ℝ) + 1 / 2) = n := by
  have hf : ⌊(n : ℝ) + 1 / 2⌋ = n := by
    rw [Int.floor_eq_iff]; constructor <;> linarith
  have hr : Int.fract ((n : ℝ) + 1 / 2) = 1 / 2 := by
    rw [Int.fract, hf]; ring
  unfold rne
  rw [hr, hf]
  simp [h]

theorem rne_neg (x : ℝ) : rne (-x) = - rne x := by
  by_cases hz : Int.fract x = 0
  · have : x = (⌊x⌋ : ℝ) := by have := Int.floor_add_fract x; linarith
    rw [this, ← Int.cast_neg, rne_intCast, rne_intCast]
  · have hfr : Int.fract (-x) = 1 - Int.fract x := Int.fract_neg hz
    have hfl : ⌊-x⌋ = -⌊x⌋ - 1 := by
      have h1 := Int.floor_add_fract x
      have h2 := Int.floor_add_fract (-x)
      have : ((⌊-x⌋ : ℤ) : ℝ) = ((-⌊x⌋ - 1 : ℤ) : ℝ) := by push_cast; linarith
      exact_mod_cast this
    unfold rne
    rw [hfr, hfl]
    have hev : Even (-⌊x⌋ - 1) ↔ ¬ Even ⌊x⌋ := by
      rw [Int.even_sub, even_neg]; simp
    simp only [hev]
    split_ifs <;> first | omega | (exfalso; linarith)

/-! ## Binades -/

theorem two_zpow_pos (e : ℤ) : (0 : ℝ) < 2 ^ e := zpow_pos (by norm_num) e

theorem zpow_log_le {x : ℝ} (hx : x ≠ 0) : (2 : ℝ) ^ Int.log 2 |x| ≤ |x| := by
  have := Int.zpow_log_le_self (b := 2) (by norm_num) (abs_pos.mpr hx)
  simpa using this

theorem lt_zpow_log (x : ℝ) : |x| < (2 : ℝ) ^ (Int.log 2 |x| + 1) := by
  have := Int.lt_zpow_succ_log_self (b := 2) (by norm_num) |x|
  simpa using this

theorem log_mono {x y : ℝ} (hx : x ≠ 0) (h : |x| ≤ |y|) : Int.log 2 |x| ≤ Int.log 2 |y| :=
  Int.log_mono_right (abs_pos.mpr hx) h

theorem log_eq_of {x : ℝ} {k : ℤ} (h1 : (2 : ℝ) ^ k ≤ |x|) (h2 : |x| < 2 ^ (k + 1)) : Int.log 2 |x| = k := by
  have hx : x ≠ 0 := by
    intro h; rw [h, abs_zero] at h1; exact absurd h1 (not_le.mpr (two_zpow_pos k))
  have ha := zpow_log_le hx
  have hb := lt_zpow_log x
  have h3 : (2 : ℝ) ^ k < 2 ^ (Int.log 2 |x| + 1) := lt_of_le_of_lt h1 hb
  have h4 : (2 : ℝ) ^ Int.log 2 |x| < 2 ^ (k + 1) := lt_of_le_of_lt ha h2
  rw [zpow_lt_zpow_iff_right₀ (by norm_num)] at h3 h4
  omega

theorem cexp_mono {f : Fmt} {x y : ℝ} (hx : x ≠ 0) (h : |x| ≤ |y|) : cexp f x ≤ cexp f y := by
  unfold cexp
  have := log_mono hx h
  omega

@[simp] theorem cexp_neg (f : Fmt) (x : ℝ) : cexp f (-x) = cexp f x := by simp [cexp]

theorem emin_le_cexp (f : Fmt) (x : ℝ) : f.emin ≤ cexp f x := le_max_right _ _

theorem abs_lt_zpow_cexp (f : Fmt) (x : ℝ) : |x| < (2 : ℝ) ^ (f.p + cexp f x) := by
  refine lt_of_lt_of_le (lt_zpow_log x) ?_
  apply zpow_le_zpow_right₀ (by norm_num)
  have : Int.log 2 |x| + 1 - f.p ≤ cexp f x := le_max_left _ _
  omega

/-- A representable number is an integer multiple of `2 ^ c` for each `c` up to its own last-bit exponent. -/
theorem IsRep.mul_of_le_cexp {f : Fmt} {x : ℝ} (h : IsRep f x) {c : ℤ} (hc : c ≤ cexp f x) :
    ∃ n : ℤ, x = n * (2 : ℝ) ^ c := by
  obtain ⟨m, e, hm, he, rfl⟩ := h
  by_cases hm0 : m = 0
  · exact ⟨0, by simp [hm0]⟩
  have hx0 : ((m : ℝ) * 2 ^ e) ≠ 0 := by
    apply mul_ne_zero (by exact_mod_cast hm0) (two_zpow_pos e).ne'
  have hlog : Int.log 2 |(m : ℝ) * 2 ^ e| < f.p + e := by
    have h1 := zpow_log_le hx0
    have h2 : |(m : ℝ) * 2 ^ e| < 2 ^ ((f.p : ℤ) + e) := by
      rw [abs_mul, abs_of_pos (two_zpow_pos e), zpow_add₀ (by norm_num)]
      apply mul_lt_mul_of_pos_right _ (two_zpow_pos e)
      have : ((|m| : ℤ) : ℝ) < ((2 ^ f.p : ℤ) : ℝ) := by exact_mod_cast hm
      push_cast at this
      simpa using this
    have h3 := lt_of_le_of_lt h1 h2
    rwa [zpow_lt_zpow_iff_right₀ (by norm_num)] at h3
  have hce : c ≤ e := by
    refine hc.trans ?_
    unfold cexp
    omega
  refine ⟨m * 2 ^ (e - c).toNat, ?_⟩
  push_cast
  rw [mul_assoc, ← zpow_natCast, ← zpow_add₀ (by norm_num)]
  congr 2
  omega

theorem IsRep.neg {f : Fmt} {x : ℝ} (h : IsRep f x) : IsRep f (-x) := by
  obtain ⟨m, e, hm, he, rfl⟩ := h
  exact ⟨-m, e, by simpa using hm, he, by push_cast; ring⟩

theorem isRep_neg {f : Fmt} {x : ℝ} : IsRep f (-x) ↔ IsRep f x :=
  ⟨fun h => by simpa using h.neg, IsRep.neg⟩

theorem IsRep.abs {f : Fmt} {x : ℝ} (h : IsRep f x) : IsRep f |x| := by
  rcases abs_choice x with h' | h' <;> rw [h']
  · exact h
  · exact h.neg

theorem isRep_zero (f : Fmt) : IsRep f 0 := ⟨0, f.emin, by simp, le_rfl, by simp⟩

/-- `|m| ≤ 2^p` is enough. -/
theorem isRep_of_le {f : Fmt} {m e : ℤ} (hm : |m| ≤ 2 ^ f.p) (he : f.emin ≤ e) : IsRep f (m * (2 : ℝ) ^ e) := by
  rcases hm.lt_or_eq with h | h
  · exact ⟨m, e, h, he, rfl⟩
  · have hp : (2 : ℤ) ^ f.p = 2 ^ (f.p - 1) * 2 := by
      rw [← pow_succ]; congr 1; have := f.hp; omega
    have hlt : (2 : ℤ) ^ (f.p - 1) < 2 ^ f.p := by
      rw [hp]; have : (0 : ℤ) < 2 ^ (f.p - 1) := by positivity
      omega
    have hz : (2 : ℝ) ^ (e + 1) = 2 ^ e * 2 := by rw [zpow_add₀ (by norm_num)]; norm_num
    rcases abs_choice m with h' | h'
    · refine ⟨2 ^ (f.p - 1), e + 1, by rw [abs_of_pos (by positivity)]; exact hlt, by omega, ?_⟩
      have : m = 2 ^ (f.p - 1) * 2 := by rw [← hp, ← h, h']
      rw [this, hz]; push_cast; ring
    · refine ⟨-2 ^ (f.p - 1), e + 1, by rw [abs_neg, abs_of_pos (by positivity)]; exact hlt, by omega, ?_⟩
      have : m = -(2 ^ (f.p - 1) * 2) := by rw [← hp, ← h, h']; ring
      rw [this, hz]; push_cast; ring

theorem isRep_two_zpow {f : Fmt} {e : ℤ} (he : f.emin ≤ e) : IsRep f ((2 : ℝ) ^ e) := by
  have := isRep_of_le (f := f) (m := 1) (e := e) (by simpa using one_le_pow₀ (by norm_num)) he
  simpa using this

/-- Integers up to `2 ^ p` are exact. -/
theorem isRep_int {f : Fmt} {n : ℤ} (h : |n| ≤ 2 ^ f.p) : IsRep f (n : ℝ) := by
  have := isRep_of_le (f := f) (m := n) (e := 0) h (by have := f.hemin; omega)
  simpa using this

theorem isRep_nat {f : Fmt} {n : ℕ} (h : n ≤ 2 ^ f.p) : IsRep f (n : ℝ) := by
  have := isRep_int (f := f) (n := n) (by rw [abs_of_nonneg (by positivity)]; exact_mod_cast h)
  simpa using this

theorem isRep_one (f : Fmt) : IsRep f 1 := by
  have := isRep_nat (f := f) (n := 1) (Nat.one_le_two_pow)
  simpa using this

/-! ## Rounding -/

@[simp] theorem rnd_zero (f : Fmt) : rnd f 0 = 0 := by
  have := rne_intCast 0
  simp only [Int.cast_zero] at this
  simp [rnd, this]

theorem rnd_neg (f : Fmt) (x : ℝ) : rnd f (-x) = - rnd f x := by
  unfold rnd
  rw [cexp_neg, neg_div, rne_neg]
  push_cast; ring

theorem rnd_isRep (f : Fmt) (x : ℝ) : IsRep f (rnd f x) := by
  unfold rnd
  apply isRep_of_le _ (emin_le_cexp f x)
  have hx : |x / 2 ^ cexp f x| ≤ ((2 ^ f.p : ℤ) : ℝ) := by
    rw [abs_div, abs_of_pos (two_zpow_pos _), div_le_iff₀ (two_zpow_pos _)]
    have := (abs_lt_zpow_cexp f x).le
    rw [zpow_add₀ (by norm_num)] at this
    push_cast
    simpa using this
  rw [abs_le] at hx ⊢
  constructor
  · apply le_rne_of_le; push_cast at *; linarith [hx.1]
  · exact rne_le_of_le hx.2

theorem rnd_of_isRep {f : Fmt} {x : ℝ} (h : IsRep f x) : rnd f x = x := by
  obtain ⟨n, hn⟩ := h.mul_of_le_cexp le_rfl
  have : x / 2 ^ cexp f x = n := by
    rw [div_eq_iff (two_zpow_pos _).ne']; exact hn
  unfold rnd
  rw [this, rne_intCast]
  exact hn.symm

theorem abs_rnd_sub_le (f : Fmt) (x : ℝ) : |rnd f x - x| ≤ 2 ^ cexp f x / 2 := by
  unfold rnd
  have h := abs_rne_sub_le (x / 2 ^ cexp f x)
  have h2 : (rne (x / 2 ^ cexp f x) : ℝ) * 2 ^ cexp f x - x
      = ((rne (x / 2 ^ cexp f x) : ℝ) - x / 2 ^ cexp f x) * 2 ^ cexp f x := by
    have := (two_zpow_pos (cexp f x)).ne'
    field_simp
  rw [h2, abs_mul, abs_of_pos (two_zpow_pos _)]
  have := mul_le_mul_of_nonneg_right h (two_zpow_pos (cexp f x)).le
  linarith

theorem rnd_nonneg {f : Fmt} {x : ℝ} (h : 0 ≤ x) : 0 ≤ rnd f x := by
  unfold rnd
  apply mul_nonneg _ (two_zpow_pos _).le
  have : (0 : ℤ) ≤ rne (x / 2 ^ cexp f x) := by
    apply le_rne_of_le
    simp only [Int.cast_zero]
    exact div_nonneg h (two_zpow_pos _).le
  exact_mod_cast this

private theorem rnd_le_of_le_pos {f : Fmt} {x z : ℝ} (hx : 0 < x) (hz : IsRep f z) (h : x ≤ z) : rnd f x ≤ z := by
  have hc : cexp f x ≤ cexp f z := cexp_mono hx.ne' (by rw [abs_of_pos hx, abs_of_pos (hx.trans_le h)]; exact h)
  obtain ⟨n, hn⟩ := hz.mul_of_le_cexp hc
  unfold rnd
  have hpos := two_zpow_pos (cexp f x)
  rw [hn]
  apply mul_le_mul_of_nonneg_right _ hpos.le
  have : rne (x / 2 ^ cexp f x) ≤ n := by
    apply rne_le_of_le
    rw [div_le_iff₀ hpos, ← hn]; exact h
  exact_mod_cast this

private theorem le_rnd_of_le_pos {f : Fmt} {x z : ℝ} (hz0 : 0 < z) (hz : IsRep f z) (h : z ≤ x) : z ≤ rnd f x := by
  have hx : 0 < x := hz0.trans_le h
  by_cases hc : cexp f x ≤ cexp f z
  · obtain ⟨n, hn⟩ := hz.mul_of_le_cexp hc
    unfold rnd
    have hpos := two_zpow_pos (cexp f x)
    rw [hn]
    apply mul_le_mul_of_nonneg_right _ hpos.le
    have : n ≤ rne (x / 2 ^ cexp f x) := by
      apply le_rne_of_le
      rw [le_div_iff₀ hpos, ← hn]; exact h
    exact_mod_cast this
  · -- `z` is in a lower binade than `x`
    push Not at hc
    have hcx : cexp f x = Int.log 2 |x| + 1 - f.p := by
      have := emin_le_cexp f z
      have h2 : f.emin < cexp f x := lt_of_le_of_lt this hc
      unfold cexp at h2 ⊢
      omega
    have hlog : Int.log 2 |z| < Int.log 2 |x| := by
      have : Int.log 2 |z| + 1 - f.p ≤ cexp f z := le_max_left _ _
      omega
    have hzlt : z ≤ 2 ^ Int.log 2 |x| := by
      have h1 := lt_zpow_log z
      rw [abs_of_pos hz0] at h1 hlog
      refine h1.le.trans ?_
      apply zpow_le_zpow_right₀ (by norm_num); omega
    refine hzlt.trans ?_
    unfold rnd
    have hpos := two_zpow_pos (cexp f x)
    have hge : ((2 ^ (f.p - 1) : ℤ) : ℝ) ≤ x / 2 ^ cexp f x := by
      rw [le_div_iff₀ hpos]
      have h1 := zpow_log_le hx.ne'
      rw [abs_of_pos hx] at h1 hcx
      refine le_trans (le_of_eq ?_) h1
      push_cast
      rw [← zpow_natCast, ← zpow_add₀ (by norm_num)]
      congr 1
      have := f.hp
      omega
    have h3 : (2 ^ (f.p - 1) : ℤ) ≤ rne (x / 2 ^ cexp f x) := le_rne_of_le hge
    have h4 : ((2 ^ (f.p - 1) : ℤ) : ℝ) ≤ rne (x / 2 ^ cexp f x) := by exact_mod_cast h3
    have h5 := mul_le_mul_of_nonneg_right h4 hpos.le
    refine le_trans (le_of_eq ?_) h5
    push_cast
    rw [← zpow_natCast, ← zpow_add₀ (by norm_num)]
    congr 1
    have := f.hp
    omega

/-- Rounding does not cross a representable number. -/
theorem rnd_le_of_le {f : Fmt} {x z : ℝ} (hz : IsRep f z) (h : x ≤ z) : rnd f x ≤ z := by
  rcases lt_trichotomy x 0 with hx | hx | hx
  · rcases lt_or_ge z 0 with hz0 | hz0
    · have := le_rnd_of_le_pos (f := f) (x := -x) (z := -z) (by linarith) hz.neg (by linarith)
      rw [rnd_neg] at this; linarith
    · have := rnd_nonneg (f := f) (x := -x) (by linarith)
      rw [rnd_neg] at this; linarith
  · subst hx; simpa using h
  · exact rnd_le_of_le_pos hx hz h

theorem le_rnd_of_le {f : Fmt} {x z : ℝ} (hz : IsRep f z) (h : z ≤ x) : z ≤ rnd f x := by
  have := rnd_le_of_le hz.neg (neg_le_neg h)
  rw [rnd_neg] at this; linarith

private theorem rnd_mono_pos {f : Fmt} {x y : ℝ} (hx : 0 < x) (h : x ≤ y) : rnd f x ≤ rnd f y := by
  have hy : 0 < y := hx.trans_le h
  by_cases hc : cexp f x = cexp f y
  · unfold rnd
    rw [hc]
    apply mul_le_mul_of_nonneg_right _ (two_zpow_pos _).le
    have : rne (x / 2 ^ cexp f y) ≤ rne (y / 2 ^ cexp f y) :=
      rne_mono (div_le_div_of_nonneg_right h (two_zpow_pos _).le)
    exact_mod_cast this
  · have habs : |x| ≤ |y| := by rwa [abs_of_pos hx, abs_of_pos hy]
    have hlt : cexp f x < cexp f y := lt_of_le_of_ne (cexp_mono hx.ne' habs) hc
    have hcy : cexp f y = Int.log 2 |y| + 1 - f.p := by
      have := emin_le_cexp f x
      have h2 : f.emin < cexp f y := lt_of_le_of_lt this hlt
      unfold cexp at h2 ⊢
      omega
    have hlog : Int.log 2 |x| < Int.log 2 |y| := by
      have : Int.log 2 |x| + 1 - f.p ≤ cexp f x := le_max_left _ _
      omega
    have hrep : IsRep f ((2 : ℝ) ^ Int.log 2 |y|) := by
      apply isRep_two_zpow
      have := emin_le_cexp f x
      have := f.hp
      omega
    have h1 : x ≤ 2 ^ Int.log 2 |y| := by
      have h1 := lt_zpow_log x
      rw [abs_of_pos hx] at h1 hlog
      refine h1.le.trans ?_
      apply zpow_le_zpow_right₀ (by norm_num); omega
    have h2 : (2 : ℝ) ^ Int.log 2 |y| ≤ y := by
      have := zpow_log_le hy.ne'
      rwa [abs_of_pos hy] at this ⊢
    exact (rnd_le_of_le hrep h1).trans (le_rnd_of_le hrep h2)

theorem rnd_mono {f : Fmt} {x y : ℝ} (h : x ≤ y) : rnd f x ≤ rnd f y := by
  rcases lt_trichotomy x 0 with hx | hx | hx
  · rcases lt_or_ge y 0 with hy | hy
    · have := rnd_mono_pos (f := f) (x := -y) (y := -x) (by linarith) (by linarith)
      rw [rnd_neg, rnd_neg] at this; linarith
    · have h1 := rnd_nonneg (f := f) (x := -x) (by linarith)
      have h2 := rnd_nonneg (f := f) hy
      rw [rnd_neg] at h1; linarith
  · subst hx; simpa using rnd_nonneg h
  · exact rnd_mono_pos hx h

theorem rnd_nonpos {f : Fmt} {x : ℝ} (h : x ≤ 0) : rnd f x ≤ 0 := by
  simpa using rnd_mono (f := f) h

theorem abs_rnd (f : Fmt) (x : ℝ) : |rnd f x| = rnd f |x| := by
  rcases le_total 0 x with h | h
  · rw [abs_of_nonneg h, abs_of_nonneg (rnd_nonneg h)]
  · rw [abs_of_nonpos h, abs_of_nonpos (rnd_nonpos h), rnd_neg]

theorem abs_rnd_le_of_le {f : Fmt} {x z : ℝ} (hz : IsRep f z) (h : |x| ≤ z) : |rnd f x| ≤ z := by
  rw [abs_rnd]; exact rnd_le_of_le hz h

end Rasp
