import Verif.Lemmas.Fl
import Verif.Lemmas.LinearStep

/-! # `LinearDelay::set_delay` in `f32` arithmetic -/

namespace Rasp
open FloatOps

variable {L32 : Libm binary32}

theorem ofUsize_fp {n : ℕ} (hn : n ≤ 2 ^ 64) :
    (ofUsize n : Fl L32).Finite ∧ (ofUsize n : Fl L32).toReal = rnd binary32 n := by
  refine Fl.ofUsize_val ?_
  have : (n : ℝ) ≤ 2 ^ 64 := by exact_mod_cast hn
  refine this.trans ?_
  show (2 : ℝ) ^ 64 ≤ 2 ^ (127 : ℤ)
  rw [show (127 : ℤ) = ((127 : ℕ) : ℤ) from rfl, zpow_natCast]
  exact pow_le_pow_right₀ (by norm_num) (by norm_num)

theorem noOvf32 {x : ℝ} (h : |x| ≤ 2 ^ 100) : FP.NoOvf binary32 x := by
  have := FP.noOvf_of_le (f := binary32) (x := x) (z := 2 ^ (100 : ℤ)) (isRep_two_zpow (by decide)) ?_ (by
    rw [show (100 : ℤ) = ((100 : ℕ) : ℤ) from rfl, zpow_natCast]; exact h)
  · exact this
  · unfold Fmt.lim
    exact zpow_lt_zpow_right₀ (by norm_num) (by decide)

theorem isRep32_nat {n : ℕ} (h : n ≤ 2 ^ 24) : IsRep binary32 (n : ℝ) := isRep_nat (f := binary32) h

theorem rnd32_le {n : ℕ} (hn : n ≤ 2 ^ 63) : rnd binary32 n ≤ 2 ^ 63 := by
  have h63 : IsRep binary32 ((2 : ℝ) ^ (63 : ℤ)) := isRep_two_zpow (by decide)
  have : rnd binary32 n ≤ (2 : ℝ) ^ (63 : ℤ) := rnd_le_of_le h63 (by
    rw [show (63 : ℤ) = ((63 : ℕ) : ℤ) from rfl, zpow_natCast]; exact_mod_cast hn)
  rwa [show (63 : ℤ) = ((63 : ℕ) : ℤ) from rfl, zpow_natCast] at this

/-! ## Clipping -/

theorem clipDelay_nan {d : Fl L32} (hd : d.IsNaN) (M : Fl L32) : clipDelay d M = d := by
  unfold clipDelay
  rw [Fl.lt_nan_right hd]
  simp only [Bool.false_eq_true, if_false]
  rw [Fl.lt_nan_left hd]
  rfl

theorem clipDelay_fin {d M : Fl L32} (hd : d.Finite) (hM : M.Finite) (hM0 : 0 ≤ M.toReal) :
    (clipDelay d M).Finite ∧ (clipDelay d M).toReal = max 0 (min d.toReal M.toReal) := by
  unfold clipDelay
  by_cases h : M.toReal < d.toReal
  · rw [(Fl.lt_iff hM hd).mpr h]
    simp only [if_true]
    rw [(Fl.lt_false_iff hM Fl.zero_finite).mpr (by simpa using hM0), min_eq_right h.le, max_eq_right hM0]
    exact ⟨hM, rfl⟩
  · rw [(Fl.lt_false_iff hM hd).mpr (not_lt.mp h)]
    simp only [Bool.false_eq_true, if_false]
    rw [min_eq_left (not_lt.mp h)]
    by_cases h2 : d.toReal < 0
    · rw [(Fl.lt_iff hd Fl.zero_finite).mpr (by simpa using h2), max_eq_left h2.le]
      exact ⟨Fl.zero_finite, Fl.zero_toReal⟩
    · rw [(Fl.lt_false_iff hd Fl.zero_finite).mpr (by simpa using h2), max_eq_right (not_lt.mp h2)]
      exact ⟨hd, rfl⟩

theorem clipDelay_pinf {M : Fl L32} (hM : M.Finite) (hM0 : 0 ≤ M.toReal) :
    clipDelay (Fl.inf L32 false) M = M := by
  unfold clipDelay
  have h1 : lt M (Fl.inf L32 false) = true := by
    obtain ⟨s, a, ha, rfl⟩ := FP.finite_cases hM; rfl
  rw [h1]
  simp only [if_true]
  rw [(Fl.lt_false_iff hM Fl.zero_finite).mpr (by simpa using hM0)]
  rfl

theorem clipDelay_ninf {M : Fl L32} (hM : M.Finite) : clipDelay (Fl.inf L32 true) M = zero := by
  unfold clipDelay
  have h1 : lt M (Fl.inf L32 true) = false := by
    obtain ⟨s, a, ha, rfl⟩ := FP.finite_cases hM; rfl
  have h2 : lt (Fl.inf L32 true) (zero : Fl L32) = true := by
    obtain ⟨s, a, ha, h⟩ := FP.finite_cases (Fl.zero_finite (L := L32))
    rw [h]; rfl
  rw [h1]
  simp only [Bool.false_eq_true, if_false]
  rw [if_pos h2]

/-- Either NaN, or finite and in range. -/
theorem clipDelay_cases (d : Fl L32) {M : Fl L32} (hM : M.Finite) (hM0 : 0 ≤ M.toReal) :
    (d.IsNaN ∧ clipDelay d M = d) ∨
      ((clipDelay d M).Finite ∧ 0 ≤ (clipDelay d M).toReal ∧ (clipDelay d M).toReal ≤ M.toReal) := by
  rcases Fl.cases d with ⟨s, rfl⟩ | ⟨s, rfl⟩ | hd
  · exact .inl ⟨trivial, clipDelay_nan (d := Fl.nan L32 s) trivial M⟩
  · right
    cases s with
    | false => rw [clipDelay_pinf hM hM0]; exact ⟨hM, hM0, le_rfl⟩
    | true => rw [clipDelay_ninf hM, Fl.zero_toReal]; exact ⟨Fl.zero_finite, le_rfl, hM0⟩
  · right
    obtain ⟨h1, h2⟩ := clipDelay_fin hd hM hM0
    rw [h2]
    exact ⟨h1, le_max_left _ _, max_le hM0 (min_le_right _ _)⟩

/-! ## The loop -/

/-- Read position before truncation, as a real: `w - d`, plus the length if that is negative, each step rounded. -/
noncomputable def posOf (w n : ℕ) (d : ℝ) : ℝ :=
  let x0 := rnd binary32 (rnd binary32 w - d)
  if x0 < 0 then rnd binary32 (x0 + rnd binary32 n) else x0

theorem loop_fin {w n : ℕ} (hw : w < n) (hn : n ≤ 2 ^ 63) {d : Fl L32} (hd : d.Finite)
    (h0 : 0 ≤ d.toReal) (h1 : d.toReal ≤ rnd binary32 ((n - 1 : ℕ) : ℝ)) :
    ∃ pos : Fl L32, whileLoop (fun x : Fl L32 => lt x zero) (fun x => x +. ofUsize n) (ofUsize w -. d) = .ok pos ∧
      pos.Finite ∧ pos.toReal = posOf w n d.toReal ∧ 0 ≤ pos.toReal ∧
      (pos = (ofUsize w -. d) ∨ pos = ((ofUsize w -. d) +. ofUsize n)) := by
  obtain ⟨w1, w2⟩ := ofUsize_fp (L32 := L32) (n := w) (by omega)
  obtain ⟨n1, n2⟩ := ofUsize_fp (L32 := L32) (n := n) (by omega)
  have hw0 : 0 ≤ rnd binary32 (w : ℝ) := rnd_nonneg (by positivity)
  have hw63 : rnd binary32 (w : ℝ) ≤ 2 ^ 63 := rnd32_le (by omega)
  have hn63 : rnd binary32 (n : ℝ) ≤ 2 ^ 63 := rnd32_le hn
  have hn163 : rnd binary32 ((n - 1 : ℕ) : ℝ) ≤ 2 ^ 63 := rnd32_le (by omega)
  have hmono : rnd binary32 ((n - 1 : ℕ) : ℝ) ≤ rnd binary32 (n : ℝ) := rnd_mono (by exact_mod_cast Nat.sub_le n 1)
  have hn0 : 0 ≤ rnd binary32 (n : ℝ) := rnd_nonneg (by positivity)
  obtain ⟨x1, x2⟩ := Fl.sub_val (x := (ofUsize w : Fl L32)) (y := d) w1 hd (by
    rw [w2]; apply noOvf32; rw [abs_le]; constructor <;> linarith)
  rw [w2] at x2
  have hlow : - rnd binary32 ((n - 1 : ℕ) : ℝ) ≤ rnd binary32 (rnd binary32 (w : ℝ) - d.toReal) :=
    le_rnd_of_le (rnd_isRep _ _).neg (by linarith)
  have hhigh : rnd binary32 (rnd binary32 (w : ℝ) - d.toReal) ≤ rnd binary32 (w : ℝ) :=
    rnd_le_of_le (rnd_isRep _ _) (by linarith)
  obtain ⟨y1, y2⟩ := Fl.add_val (x := (ofUsize w -. d : Fl L32)) (y := (ofUsize n : Fl L32)) x1 n1 (by
    rw [n2, x2]
    apply noOvf32
    rw [abs_le]
    constructor <;> linarith)
  rw [n2, x2] at y2
  by_cases hc : rnd binary32 (rnd binary32 (w : ℝ) - d.toReal) < 0
  · refine ⟨_, whileLoop_one ?_ ?_, y1, ?_, ?_, .inr rfl⟩
    · rw [Fl.lt_iff x1 Fl.zero_finite, x2]; simpa using hc
    · rw [Fl.lt_false_iff y1 Fl.zero_finite, y2, Fl.zero_toReal]
      exact rnd_nonneg (by linarith)
    · rw [y2]
      unfold posOf
      simp only [hc, if_true]
    · rw [y2]
      exact rnd_nonneg (by linarith)
  · refine ⟨_, whileLoop_zero ?_, x1, ?_, ?_, .inl rfl⟩
    · rw [Fl.lt_false_iff x1 Fl.zero_finite, x2]; simpa using hc
    · rw [x2]
      unfold posOf
      simp only [hc, if_false]
    · rw [x2]; exact not_lt.mp hc

theorem loop_nan {w n : ℕ} {d : Fl L32} (hd : d.IsNaN) :
    ∃ pos : Fl L32, whileLoop (fun x : Fl L32 => lt x zero) (fun x => x +. ofUsize n) (ofUsize w -. d) = .ok pos ∧
      pos.IsNaN ∧ pos = (ofUsize w -. d) := by
  have hx : (ofUsize w -. d : Fl L32).IsNaN := Fl.sub_nan_right hd
  exact ⟨_, whileLoop_zero (Fl.lt_nan_left hx), hx, rfl⟩

/-- Bounds on the position when the length is an `f32` value. -/
theorem posOf_le {w n : ℕ} (hw : w < n) (hn : IsRep binary32 (n : ℝ)) {d : ℝ} (h0 : 0 ≤ d) : posOf w n d ≤ n := by
  have hwn : rnd binary32 (w : ℝ) ≤ n := rnd_le_of_le hn (by exact_mod_cast hw.le)
  unfold posOf
  simp only
  split
  · next h =>
    refine rnd_le_of_le hn ?_
    rw [rnd_of_isRep hn]; linarith
  · exact (rnd_le_of_le hn (by linarith))

theorem toUsize_val [Target] {f : Fmt} {L : Libm f} {x : Fl L32} (hx : x.Finite) (h0 : 0 ≤ x.toReal) {n : ℕ}
    (hn : n < usizeMod) (h1 : (n : ℝ) ≤ x.toReal) (h2 : x.toReal < n + 1) : DelayTime.toUsize (Fl L) x = n := by
  obtain ⟨s, a, ha, rfl⟩ := FP.finite_cases hx
  show min ⌊FP.toReal (FP.fin s a ha)⌋.toNat (usizeMod - 1) = n
  have : ⌊FP.toReal (FP.fin s a ha)⌋ = (n : ℤ) := by
    rw [Int.floor_eq_iff]; exact ⟨by exact_mod_cast h1, by exact_mod_cast h2⟩
  rw [this, Int.toNat_natCast]; omega

theorem toUsize_le [Target] {f : Fmt} {L : Libm f} {x : Fl L32} {n : ℕ} (h : x.toReal ≤ n) (hx : ¬ x = Fl.inf L32 false) :
    DelayTime.toUsize (Fl L) x ≤ n := by
  cases x with
  | nan s => exact Nat.zero_le _
  | inf s =>
    cases s with
    | false => exact absurd rfl hx
    | true => exact Nat.zero_le _
  | fin s a ha =>
    show min ⌊FP.toReal (FP.fin s a ha)⌋.toNat (usizeMod - 1) ≤ n
    refine (min_le_left _ _).trans ?_
    rw [Int.toNat_le]
    exact Int.floor_le_iff.mpr (by
      have h' : FP.toReal (FP.fin s a ha) ≤ n := h
      push_cast; linarith)

end Rasp
