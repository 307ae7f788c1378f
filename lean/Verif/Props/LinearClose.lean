import Verif.Props.LinearInt
import Verif.Lemmas.RoundErr
import Mathlib.Algebra.Order.Floor.Semifield

/-! # C78: accuracy of `LinearDelay` with `f32` delay times -/

namespace Rasp
open FloatOps
variable {L32 : Libm binary32} {f : Fmt} {L : Libm f} {b : Build}

/-- The fractional part of a float is a float. -/
theorem IsRep.sub_floor {x : ℝ} (hx : IsRep f x) (h0 : 0 ≤ x) : IsRep f (x - ⌊x⌋₊) := by
  obtain ⟨m, e, hm, he, rfl⟩ := hx
  have hm0 : 0 ≤ m := by
    have := two_zpow_pos e
    by_contra h
    push Not at h
    have : (m : ℝ) < 0 := by exact_mod_cast h
    nlinarith
  have hmp : m < 2 ^ f.p := by rwa [abs_of_nonneg hm0] at hm
  obtain ⟨j, hj | hj⟩ : ∃ j : ℕ, e = j ∨ e = -(j : ℤ) := by
    rcases le_total 0 e with h | h
    · exact ⟨e.toNat, .inl (by omega)⟩
    · exact ⟨(-e).toNat, .inr (by omega)⟩
  · obtain ⟨k, rfl⟩ := Int.eq_ofNat_of_zero_le hm0
    have : ((k : ℤ) : ℝ) * 2 ^ e = ((k * 2 ^ j : ℕ) : ℝ) := by rw [hj]; push_cast; rw [zpow_natCast]
    rw [this, Nat.floor_natCast, sub_self]
    exact isRep_zero f
  · obtain ⟨k, rfl⟩ := Int.eq_ofNat_of_zero_le hm0
    have hv : ((k : ℤ) : ℝ) * 2 ^ e = (k : ℝ) / 2 ^ j := by
      rw [hj, zpow_neg, zpow_natCast]; push_cast; rfl
    have hfl : ⌊((k : ℤ) : ℝ) * 2 ^ e⌋₊ = k / 2 ^ j := by
      rw [hv]
      have := Nat.floor_div_eq_div (K := ℝ) k (2 ^ j)
      push_cast at this
      exact this
    rw [hfl]
    refine ⟨(k % 2 ^ j : ℕ), e, ?_, he, ?_⟩
    · rw [abs_of_nonneg (by positivity)]
      refine lt_of_le_of_lt ?_ hmp
      exact_mod_cast Nat.mod_le _ _
    · have h1 : (k : ℝ) = (2 ^ j : ℝ) * ((k / 2 ^ j : ℕ) : ℝ) + ((k % 2 ^ j : ℕ) : ℝ) := by
        exact_mod_cast (Nat.div_add_mod k (2 ^ j)).symm
      have h2 : (2 : ℝ) ^ e = 1 / 2 ^ j := by rw [hj, zpow_neg, zpow_natCast, one_div]
      rw [hv, h2]
      have : (2 : ℝ) ^ j ≠ 0 := by positivity
      field_simp
      rw [Int.cast_natCast]
      linarith

/-- `f32` values are values of wider formats. -/
theorem IsRep.widen {x : ℝ} (hx : IsRep binary32 x) (hp : 24 ≤ f.p) (he : f.emin ≤ -149) : IsRep f x := by
  obtain ⟨m, e, hm, he', rfl⟩ := hx
  exact ⟨m, e, hm.trans_le (pow_le_pow_right₀ (by norm_num) hp), he.trans he', rfl⟩

/-- A delay that is not just above an integer: its fractional part is 0 or larger than `2^-24` times the slots. -/
def ClearOf (n : ℕ) (δ : ℝ) : Prop := δ = ⌊δ⌋₊ ∨ n / 2 ^ 24 < δ - ⌊δ⌋₊

/-- `set_delay` reads within `2^-22` slots per slot of the requested distance, with weights in `[0, 1]`. -/
theorem setDelay_near [Target] (hp : 24 ≤ f.p) (hem : f.emin ≤ -149) {s s' : LinearDelay (Fl L32) (Fl L)} (hi : s.WInv)
    (hl : s.memory.length < 2 ^ 24) {d : Fl L32} (h : s.setDelay b d = .ok s') (hfin : s'.delay.Finite)
    (hcl : ClearOf s.memory.length s'.delay.toReal ∨ ⌊s'.delay.toReal⌋₊ ≠ s.write_ptr) :
    ∃ e, s'.Eff e ∧ s'.alpha.Finite ∧ 0 ≤ s'.alpha.toReal ∧ s'.alpha.toReal < 1 ∧ (e = 0 → s'.alpha.toReal = 0) ∧
      s'.om_alpha = (one -. s'.alpha) ∧ |(e : ℝ) - s'.alpha.toReal - s'.delay.toReal| ≤ s.memory.length / 2 ^ 22 := by
  have hw := hi.hw
  have hrep : IsRep binary32 (s.memory.length : ℝ) := isRep32_nat hl.le
  have hdel : s'.delay = clipDelay d (ofUsize (s.memory.length - 1)) := setDelay_delay (by omega) h
  obtain ⟨m1, m2⟩ := ofUsize_fp (L32 := L32) (n := s.memory.length - 1) (by omega)
  rw [rnd_of_isRep (isRep32_nat (by omega))] at m2
  have hrlt := setDelay_in_bounds hi hrep h
  obtain ⟨hmem, hwp, -⟩ := LinearDelay.setDelay_frame h
  obtain ⟨e, he⟩ := LinearDelay.eff_of_lt (s := s') (by rw [hmem, hwp]; exact hw) (by rw [hmem]; exact hrlt)
  refine ⟨e, he, ?_⟩
  rcases clipDelay_cases d m1 (by rw [m2]; positivity) with ⟨n1, n2⟩ | ⟨c1, c2, c3⟩
  · rw [hdel, n2] at hfin
    exact absurd n1 hfin.not_isNaN
  rw [m2] at c3
  rw [hdel] at hcl ⊢
  obtain ⟨δ, hδ⟩ : ∃ δ, δ = (clipDelay d (ofUsize (s.memory.length - 1) : Fl L32)).toReal := ⟨_, rfl⟩
  rw [← hδ] at c2 c3 hcl ⊢
  obtain ⟨pos, hpos, p1, p2, p3, -⟩ := loop_fin (w := s.write_ptr) (n := s.memory.length) hw (by omega) c1
    (by rw [← hδ]; exact c2)
    (by rw [← hδ, rnd_of_isRep (isRep32_nat (by omega))]; exact c3)
  rw [← hδ] at p2
  have hset := LinearDelay.setDelay_eq (b := b) (T := Fl L) (s := s) (by omega) hpos
  rw [h] at hset
  have hple : pos.toReal ≤ s.memory.length := by rw [p2]; exact posOf_le hw hrep c2
  obtain ⟨r, hr⟩ : ∃ r : ℕ, r = ⌊pos.toReal⌋₊ := ⟨_, rfl⟩
  have hr1 : (r : ℝ) ≤ pos.toReal := by rw [hr]; exact Nat.floor_le p3
  have hr2 : pos.toReal < r + 1 := by rw [hr]; exact Nat.lt_floor_add_one _
  have hu : DelayTime.toUsize (Fl L) pos = r := toUsize_val p1 p3 (by
    have : (r : ℝ) ≤ s.memory.length := hr1.trans hple
    have : r ≤ s.memory.length := by exact_mod_cast this
    have := target
    omega) hr1 hr2
  simp only [hu] at hset
  cases hset
  have e1 := he.1
  have e2 := he.2
  simp only at e1 e2 hdel ⊢
  -- real-number facts about the position
  obtain ⟨N, hN⟩ : ∃ N : ℝ, N = s.memory.length := ⟨_, rfl⟩
  obtain ⟨w, hwr⟩ : ∃ w : ℝ, w = s.write_ptr := ⟨_, rfl⟩
  have hN1 : 1 ≤ N := by rw [hN]; exact_mod_cast (by omega : 1 ≤ s.memory.length)
  have hN24 : N < 2 ^ 24 := by rw [hN]; exact_mod_cast hl
  have hw0 : 0 ≤ w := by rw [hwr]; positivity
  have hwN : w + 1 ≤ N := by rw [hwr, hN]; exact_mod_cast hw
  have hM : ((s.memory.length - 1 : ℕ) : ℝ) = N - 1 := by rw [Nat.cast_sub (by omega), hN]; norm_num
  rw [hM] at c3
  have hu32 : binary32.u = 1 / 2 ^ 24 := rfl
  have ht32 : binary32.tiny ≤ 1 / 2 ^ 100 := by
    unfold Fmt.tiny
    show (2 : ℝ) ^ (-149 : ℤ) ≤ _
    norm_num
  have ht0 := binary32.tiny_pos
  unfold posOf at p2
  simp only at p2
  rw [rnd_of_isRep (isRep32_nat (show s.write_ptr ≤ 2 ^ 24 by omega)), rnd_of_isRep hrep, ← hwr, ← hN] at p2
  obtain ⟨x0, hx0⟩ : ∃ x0, x0 = rnd binary32 (w - δ) := ⟨_, rfl⟩
  rw [← hx0] at p2
  have hx0e : |x0 - (w - δ)| ≤ N / 2 ^ 24 + 1 / 2 ^ 100 := by
    rw [hx0]
    refine (abs_rnd_sub_le_u _ _).trans ?_
    have : |w - δ| ≤ N := by rw [abs_le]; constructor <;> linarith
    rw [hu32]
    linarith
  have hpw : IsRep binary32 w := by rw [hwr]; exact isRep32_nat (by omega)
  have key : r < s.memory.length ∧
      ((r ≤ s.write_ptr ∧ (r = s.write_ptr → pos.toReal = w) ∧ |pos.toReal - (w - δ)| ≤ N / 2 ^ 22) ∨
       (s.write_ptr < r ∧ |pos.toReal - (N + w - δ)| ≤ N / 2 ^ 22)) := by
    by_cases hc : x0 < 0
    · rw [if_pos hc] at p2
      have hgt : w < δ := by
        by_contra hle
        push Not at hle
        have : 0 ≤ x0 := by rw [hx0]; exact rnd_nonneg (by linarith)
        linarith
      -- the distance to the seam is not tiny
      have hgap : N / 2 ^ 24 < δ - w := by
        have hfl : s.write_ptr ≤ ⌊δ⌋₊ := Nat.le_floor (by rw [← hwr]; exact hgt.le)
        have hflr : w ≤ (⌊δ⌋₊ : ℝ) := by rw [hwr]; exact_mod_cast hfl
        rcases or_assoc.mp hcl with hcl | hcl | hcl
        rotate_left
        · rw [← hN] at hcl; linarith
        all_goals
          have : s.write_ptr < ⌊δ⌋₊ := by
            rcases hfl.lt_or_eq with h | h
            · exact h
            · exfalso; first | exact hcl h.symm | (rw [← h, ← hwr] at hcl; linarith)
          have h2 : w + 1 ≤ (⌊δ⌋₊ : ℝ) := by rw [hwr]; exact_mod_cast this
          have : N / 2 ^ 24 < 1 := by rw [div_lt_one (by norm_num)]; exact hN24
          have := Nat.floor_le c2
          linarith
      have hx0u : x0 ≤ -(N / 2 ^ 24) := by
        rw [hx0]
        refine rnd_le_of_le ?_ (by linarith)
        have h3 : IsRep binary32 (((s.memory.length : ℤ) : ℝ) * 2 ^ (-24 : ℤ)) :=
          ⟨s.memory.length, -24, by
            rw [abs_of_nonneg (by positivity)]
            show (s.memory.length : ℤ) < 2 ^ 24
            exact_mod_cast hl, by show (-149 : ℤ) ≤ -24; norm_num, rfl⟩
        have h4 : ((s.memory.length : ℤ) : ℝ) * 2 ^ (-24 : ℤ) = N / 2 ^ 24 := by
          rw [hN, zpow_neg]; push_cast; rfl
        rw [h4] at h3
        exact h3.neg
      have hx0l : w - (N - 1) ≤ x0 := by
        have h3 : IsRep binary32 (((s.write_ptr : ℤ) - (s.memory.length - 1 : ℤ) : ℤ) : ℝ) :=
          isRep_int (f := binary32) (by show |_| ≤ (2 : ℤ) ^ 24; rw [abs_le]; constructor <;> omega)
        push_cast at h3
        rw [← hwr, ← hN] at h3
        rw [hx0]
        exact le_rnd_of_le h3 (by linarith)
      have hy : |pos.toReal - (x0 + N)| ≤ (x0 + N) / 2 ^ 24 + 1 / 2 ^ 100 := by
        rw [p2]
        refine (abs_rnd_sub_le_u _ _).trans ?_
        rw [hu32, abs_of_nonneg (by linarith : (0 : ℝ) ≤ x0 + N)]
        linarith
      have hlt : pos.toReal < N := by
        by_contra hge
        push Not at hge
        have := (abs_le.mp hy).2
        have h5 : x0 ≤ -(1 / 2 ^ 24) := by
          refine hx0u.trans ?_
          have : (1 : ℝ) / 2 ^ 24 ≤ N / 2 ^ 24 := by gcongr
          linarith
        norm_num at *
        linarith
      have hge : w + 1 ≤ pos.toReal := by
        rw [p2]
        have h3 : IsRep binary32 ((s.write_ptr + 1 : ℕ) : ℝ) := isRep32_nat (by omega)
        push_cast at h3
        rw [← hwr] at h3
        exact le_rnd_of_le h3 (by linarith)
      have hrn : r < s.memory.length := by
        have : (r : ℝ) < s.memory.length := by rw [← hN]; linarith
        exact_mod_cast this
      refine ⟨hrn, .inr ⟨?_, ?_⟩⟩
      · have : s.write_ptr + 1 ≤ r := by
          rw [hr]; refine Nat.le_floor ?_; push_cast; rw [← hwr]; exact hge
        omega
      · have h6 : (x0 + N) / 2 ^ 24 ≤ N / 2 ^ 24 := by gcongr; linarith
        have h7 : |pos.toReal - (N + w - δ)| ≤ |pos.toReal - (x0 + N)| + |x0 - (w - δ)| := by
          have := abs_add_le (pos.toReal - (x0 + N)) (x0 - (w - δ))
          rwa [show pos.toReal - (x0 + N) + (x0 - (w - δ)) = pos.toReal - (N + w - δ) by ring] at this
        have h8 : (1 : ℝ) / 2 ^ 100 ≤ N / 2 ^ 24 := by
          have : (1 : ℝ) / 2 ^ 24 ≤ N / 2 ^ 24 := by gcongr
          refine le_trans ?_ this
          norm_num
        have h9 : N / 2 ^ 22 = 4 * (N / 2 ^ 24) := by ring
        linarith
    · rw [if_neg hc] at p2
      have hle : pos.toReal ≤ w := by rw [p2, hx0]; exact rnd_le_of_le hpw (by linarith)
      have hrw : r ≤ s.write_ptr := by
        have : (r : ℝ) ≤ s.write_ptr := by rw [← hwr]; linarith
        exact_mod_cast this
      refine ⟨by omega, .inl ⟨hrw, fun h => ?_, ?_⟩⟩
      · have : (r : ℝ) = w := by rw [h, hwr]
        linarith
      · rw [p2]
        refine hx0e.trans ?_
        have h8 : (1 : ℝ) / 2 ^ 100 ≤ N / 2 ^ 24 := by
          have : (1 : ℝ) / 2 ^ 24 ≤ N / 2 ^ 24 := by gcongr
          refine le_trans ?_ this
          norm_num
        have h9 : N / 2 ^ 22 = 4 * (N / 2 ^ 24) := by ring
        linarith
  obtain ⟨hrn, key⟩ := key
  -- the weight
  rw [if_neg (show ¬ r = s.memory.length by omega)] at e2
  simp only [if_neg (show ¬ r = s.memory.length by omega)]
  obtain ⟨r1, r2⟩ := ofUsize_fp (L32 := L32) (n := r) (by omega)
  rw [rnd_of_isRep (isRep32_nat (by omega))] at r2
  have hfr : IsRep binary32 (pos.toReal - r) := by rw [hr]; exact (Fl.isRep_toReal pos).sub_floor p3
  obtain ⟨a1, a2⟩ := Fl.sub_val p1 r1 (by
    rw [r2]; apply noOvf32; rw [abs_of_nonneg (by linarith)]; norm_num; linarith)
  rw [r2, rnd_of_isRep hfr] at a2
  have hfr' : IsRep f (pos.toReal - r) := hfr.widen hp hem
  obtain ⟨k1, k2⟩ := castTo_val (L := L) a1 (by
    rw [a2]
    exact FP.noOvf_of_le (isRep_one f) (FP.one_lt_lim f) (by rw [abs_of_nonneg (by linarith)]; linarith))
  rw [a2, rnd_of_isRep hfr'] at k2
  rw [k2]
  refine ⟨k1, by linarith, by linarith, ?_, trivial, ?_⟩
  · rintro rfl
    rcases key with ⟨q1, q2, -⟩ | ⟨q1, -⟩
    · have hreq : r = s.write_ptr := by simpa using e2
      rw [q2 hreq, hwr, hreq, sub_self]
    · simp at e2; omega
  · rcases key with ⟨q1, -, q3⟩ | ⟨q1, q3⟩
    · have hee : e = s.write_ptr - r := by split at e2 <;> omega
      rw [hee, Nat.cast_sub q1, ← hwr, ← hN]
      rw [abs_sub_comm] at q3
      convert q3 using 2; ring
    · have hee : e = s.memory.length + s.write_ptr - r := by split at e2 <;> omega
      rw [hee, Nat.cast_sub (by omega), Nat.cast_add, ← hwr, ← hN]
      rw [abs_sub_comm] at q3
      convert q3 using 2; ring

/-! ## The outputs -/

/-- Linear interpolation between samples of magnitude at most `X` is Lipschitz in the distance. -/
theorem interp_lipschitz {h : List ℝ} {x : ℕ → ℝ} {X : ℝ} {t : ℕ} (hX : ∀ k, |delayedBy k h x t| ≤ X) {a c : ℝ}
    (ha : 0 ≤ a) (hac : a ≤ c) : |interp a h x t - interp c h x t| ≤ 2 * X * (c - a) := by
  have hX0 : 0 ≤ X := (abs_nonneg _).trans (hX 0)
  have hdiff : ∀ j k, |delayedBy j h x t - delayedBy k h x t| ≤ 2 * X := by
    intro j k
    have := abs_sub (delayedBy j h x t) (delayedBy k h x t)
    have := hX j; have := hX k; linarith
  have a1 := Nat.floor_le ha
  have a2 := Nat.lt_floor_add_one a
  have c1 := Nat.floor_le (ha.trans hac)
  have c2 := Nat.lt_floor_add_one c
  have hmono : ⌊a⌋₊ ≤ ⌊c⌋₊ := Nat.floor_mono hac
  unfold interp
  generalize ⌊a⌋₊ = j at *
  generalize ⌊c⌋₊ = k at *
  rcases hmono.eq_or_lt with rfl | hlt
  · have e : (1 - (a - j)) * delayedBy j h x t + (a - j) * delayedBy (j + 1) h x t -
        ((1 - (c - j)) * delayedBy j h x t + (c - j) * delayedBy (j + 1) h x t) =
        (c - a) * (delayedBy j h x t - delayedBy (j + 1) h x t) := by ring
    rw [e, abs_mul, abs_of_nonneg (by linarith), mul_comm]
    exact mul_le_mul_of_nonneg_right (hdiff _ _) (by linarith)
  · by_cases hk : k = j + 1
    · subst hk
      push_cast at *
      have e : (1 - (a - j)) * delayedBy j h x t + (a - j) * delayedBy (j + 1) h x t -
          ((1 - (c - (j + 1))) * delayedBy (j + 1) h x t + (c - (j + 1)) * delayedBy (j + 1 + 1) h x t) =
          (j + 1 - a) * (delayedBy j h x t - delayedBy (j + 1) h x t) +
          (c - (j + 1)) * (delayedBy (j + 1) h x t - delayedBy (j + 1 + 1) h x t) := by ring
      rw [e]
      refine (abs_add_le _ _).trans ?_
      rw [abs_mul, abs_mul, abs_of_nonneg (by linarith : (0 : ℝ) ≤ j + 1 - a),
        abs_of_nonneg (by linarith : (0 : ℝ) ≤ c - (j + 1))]
      have h1 := mul_le_mul_of_nonneg_left (hdiff j (j + 1)) (by linarith : (0 : ℝ) ≤ j + 1 - a)
      have h2 := mul_le_mul_of_nonneg_left (hdiff (j + 1) (j + 1 + 1)) (by linarith : (0 : ℝ) ≤ c - (j + 1))
      linarith
    · have hjk : (j : ℝ) + 2 ≤ k := by exact_mod_cast (by omega : j + 2 ≤ k)
      have conv : ∀ (v : ℝ) (i : ℕ), 0 ≤ v → v ≤ 1 → |(1 - v) * delayedBy i h x t + v * delayedBy (i + 1) h x t| ≤ X := by
        intro v i h0 h1
        refine (abs_add_le _ _).trans ?_
        rw [abs_mul, abs_mul, abs_of_nonneg h0, abs_of_nonneg (by linarith : 0 ≤ 1 - v)]
        have := mul_le_mul_of_nonneg_left (hX i) (by linarith : 0 ≤ 1 - v)
        have := mul_le_mul_of_nonneg_left (hX (i + 1)) h0
        linarith
      have h1 := conv (a - j) j (by linarith) (by linarith)
      have h2 := conv (c - k) k (by linarith) (by linarith)
      have h3 := abs_sub ((1 - (a - j)) * delayedBy j h x t + (a - j) * delayedBy (j + 1) h x t)
        ((1 - (c - k)) * delayedBy k h x t + (c - k) * delayedBy (k + 1) h x t)
      have : X * 1 ≤ X * (c - a) := mul_le_mul_of_nonneg_left (by linarith) hX0
      linarith

/-- The mix of two samples, rounded, against the exact mix. -/
theorem mix_near {m0 m1 α om : Fl L} {X : ℝ} (h0 : m0.Within X) (h1 : m1.Within X) (ha : α.Finite) (a0 : 0 ≤ α.toReal)
    (a1 : α.toReal ≤ 1) (ho : om = (one -. α)) (hov : 4 * (X + f.tiny) ≤ 2 ^ f.emax) :
    ((m0 *. om) +. (m1 *. α)).Finite ∧
      |((m0 *. om) +. (m1 *. α)).toReal - (m0.toReal * (1 - α.toReal) + m1.toReal * α.toReal)| ≤ 6 * (f.u * X + f.tiny) := by
  have hu := f.u_pos
  have hu4 := f.u_le
  have ht := f.tiny_pos
  have htu : f.tiny ≤ f.u := by
    have h := f.hemin
    unfold Fmt.tiny Fmt.u
    rw [one_div, ← zpow_natCast, ← zpow_neg]
    exact zpow_le_zpow_right₀ (by norm_num) (by omega)
  have hX : 0 ≤ X := (abs_nonneg _).trans h0.2
  obtain ⟨o1, o2⟩ := Fl.sub_val (Fl.one_finite (L := L)) ha
    (FP.noOvf_of_le (isRep_one f) (FP.one_lt_lim f) (by rw [Fl.one_toReal, abs_of_nonneg (by linarith)]; linarith))
  rw [Fl.one_toReal] at o2
  rw [← ho] at o1 o2
  have om0 : 0 ≤ om.toReal := by rw [o2]; exact rnd_nonneg (by linarith)
  have om1 : om.toReal ≤ 1 := by rw [o2]; exact rnd_le_of_le (isRep_one f) (by linarith)
  have hom : |om.toReal - (1 - α.toReal)| ≤ 2 * f.u := by
    rw [o2]
    refine (abs_rnd_sub_le_u f _).trans ?_
    rw [abs_of_nonneg (by linarith)]
    nlinarith
  have hp0 : |m0.toReal * om.toReal| ≤ X * om.toReal := by
    rw [abs_mul, abs_of_nonneg om0]; exact mul_le_mul_of_nonneg_right h0.2 om0
  have hp1 : |m1.toReal * α.toReal| ≤ X * α.toReal := by
    rw [abs_mul, abs_of_nonneg a0]; exact mul_le_mul_of_nonneg_right h1.2 a0
  have hXo : X * om.toReal ≤ X := by nlinarith
  have hXa : X * α.toReal ≤ X := by nlinarith
  obtain ⟨p1, p2⟩ := Fl.mul_val h0.1 o1 (Fl.noOvf_of_le_emax (by linarith))
  obtain ⟨q1, q2⟩ := Fl.mul_val h1.1 ha (Fl.noOvf_of_le_emax (by linarith))
  have ep := abs_rnd_sub_le_u f (m0.toReal * om.toReal)
  have eq := abs_rnd_sub_le_u f (m1.toReal * α.toReal)
  rw [← p2] at ep
  rw [← q2] at eq
  have hP : f.u * |m0.toReal * om.toReal| ≤ f.u * X := mul_le_mul_of_nonneg_left (hp0.trans hXo) hu.le
  have hQ : f.u * |m1.toReal * α.toReal| ≤ f.u * X := mul_le_mul_of_nonneg_left (hp1.trans hXa) hu.le
  have huX : f.u * X ≤ X / 4 := by nlinarith
  have hsum : |(m0 *. om).toReal + (m1 *. α).toReal| ≤ X * (1 + 2 * f.u) + 2 * (f.u * X + f.tiny) := by
    have e : (m0 *. om).toReal + (m1 *. α).toReal = ((m0 *. om).toReal - m0.toReal * om.toReal) +
        ((m1 *. α).toReal - m1.toReal * α.toReal) + m0.toReal * om.toReal + m1.toReal * α.toReal := by ring
    rw [e]
    have g1 := abs_add_le (((m0 *. om).toReal - m0.toReal * om.toReal) +
        ((m1 *. α).toReal - m1.toReal * α.toReal) + m0.toReal * om.toReal) (m1.toReal * α.toReal)
    have g2 := abs_add_le (((m0 *. om).toReal - m0.toReal * om.toReal) +
        ((m1 *. α).toReal - m1.toReal * α.toReal)) (m0.toReal * om.toReal)
    have g3 := abs_add_le ((m0 *. om).toReal - m0.toReal * om.toReal) ((m1 *. α).toReal - m1.toReal * α.toReal)
    have g4 : X * om.toReal + X * α.toReal ≤ X * (1 + 2 * f.u) := by
      have := (abs_le.mp hom).2
      rw [← mul_add]
      exact mul_le_mul_of_nonneg_left (by linarith) hX
    linarith
  obtain ⟨s1, s2⟩ := Fl.add_val p1 q1 (Fl.noOvf_of_le_emax (by nlinarith))
  refine ⟨s1, ?_⟩
  have es := abs_rnd_sub_le_u f ((m0 *. om).toReal + (m1 *. α).toReal)
  rw [← s2] at es
  have hus : f.u * |(m0 *. om).toReal + (m1 *. α).toReal| ≤ 2 * (f.u * X) + f.tiny / 2 := by
    have := mul_le_mul_of_nonneg_left hsum hu.le
    have h5 : f.u * (X * (1 + 2 * f.u) + 2 * (f.u * X + f.tiny)) = f.u * X + 4 * f.u * (f.u * X) + 2 * f.u * f.tiny := by ring
    rw [h5] at this
    have h6 : 4 * f.u * (f.u * X) ≤ 1 * (f.u * X) := mul_le_mul_of_nonneg_right (by linarith) (by positivity)
    have h7 : 2 * f.u * f.tiny ≤ 1 / 2 * f.tiny := mul_le_mul_of_nonneg_right (by linarith) ht.le
    linarith
  have hcoef : |m0.toReal * om.toReal - m0.toReal * (1 - α.toReal)| ≤ 2 * (f.u * X) := by
    rw [← mul_sub, abs_mul]
    calc |m0.toReal| * |om.toReal - (1 - α.toReal)| ≤ X * (2 * f.u) := mul_le_mul h0.2 hom (abs_nonneg _) hX
      _ = _ := by ring
  obtain ⟨S, hS⟩ : ∃ S, S = ((m0 *. om) +. (m1 *. α)).toReal := ⟨_, rfl⟩
  rw [← hS] at es ⊢
  have e : S - (m0.toReal * (1 - α.toReal) + m1.toReal * α.toReal) =
      (S - ((m0 *. om).toReal + (m1 *. α).toReal)) + ((m0 *. om).toReal - m0.toReal * om.toReal) +
      ((m1 *. α).toReal - m1.toReal * α.toReal) + (m0.toReal * om.toReal - m0.toReal * (1 - α.toReal)) := by ring
  rw [e]
  have g1 := abs_add_le ((S - ((m0 *. om).toReal + (m1 *. α).toReal)) + ((m0 *. om).toReal - m0.toReal * om.toReal) +
      ((m1 *. α).toReal - m1.toReal * α.toReal)) (m0.toReal * om.toReal - m0.toReal * (1 - α.toReal))
  have g2 := abs_add_le ((S - ((m0 *. om).toReal + (m1 *. α).toReal)) + ((m0 *. om).toReal - m0.toReal * om.toReal))
      ((m1 *. α).toReal - m1.toReal * α.toReal)
  have g3 := abs_add_le (S - ((m0 *. om).toReal + (m1 *. α).toReal)) ((m0 *. om).toReal - m0.toReal * om.toReal)
  linarith

theorem delayedBy_toReal (k : ℕ) (h : List (Fl L)) (x : ℕ → Fl L) (t : ℕ) :
    (delayedBy k h x t).toReal = delayedBy k (h.map Fl.toReal) (fun n => (x n).toReal) t := by
  unfold delayedBy
  split
  · rfl
  · rw [List.getD_eq_getElem?_getD, List.getD_eq_getElem?_getD, List.getElem?_map]
    cases h[k - t - 1]? with
    | none => exact Fl.zero_toReal
    | some v => rfl

theorem delayedBy_within {X : ℝ} (hX : 0 ≤ X) {h : List (Fl L)} {x : ℕ → Fl L} (hh : ∀ v ∈ h, v.Within X)
    (hx : ∀ n, (x n).Within X) (k t : ℕ) : (delayedBy k h x t).Within X := by
  unfold delayedBy
  split
  · exact hx _
  · rw [List.getD_eq_getElem?_getD]
    cases hg : h[k - t - 1]? with
    | none => exact ⟨Fl.zero_finite, by simpa using hX⟩
    | some v => exact hh v (List.mem_of_getElem? hg)

/-- One rounded mix of two stored samples at read position `e - α`, against exact interpolation at distance `δ`. -/
theorem mix_interp_near {N e : ℕ} {α om : Fl L} (ha : α.Finite) (a0 : 0 ≤ α.toReal) (a1 : α.toReal < 1) (ae : e = 0 → α.toReal = 0)
    (ho : om = (one -. α)) {δ E : ℝ} (hδ : 0 ≤ δ) (hE : |(e : ℝ) - α.toReal - δ| ≤ E) {X : ℝ}
    (hov : 4 * (X + f.tiny) ≤ 2 ^ f.emax) {h : List (Fl L)} (hh : ∀ v ∈ h, v.Within X) {x : ℕ → Fl L} (hx : ∀ n, (x n).Within X)
    (n : ℕ) : ((delayedBy e h x n *. om) +. (delayedBy (older N e) h x n *. α)).Finite ∧
      |((delayedBy e h x n *. om) +. (delayedBy (older N e) h x n *. α)).toReal - interp δ (h.map Fl.toReal) (fun n => (x n).toReal) n| ≤
        2 * X * E + 6 * (f.u * X + f.tiny) := by
  have hX : 0 ≤ X := (abs_nonneg _).trans (hx 0).2
  obtain ⟨h1, h2⟩ := mix_near (delayedBy_within hX hh hx e n)
    (delayedBy_within hX hh hx (older N e) n) ha a0 a1.le ho hov
  refine ⟨h1, ?_⟩
  rw [delayedBy_toReal, delayedBy_toReal] at h2
  obtain ⟨c, hc⟩ : ∃ c, c = (e : ℝ) - α.toReal := ⟨_, rfl⟩
  have hc0 : 0 ≤ c := by
    rw [hc]
    rcases Nat.eq_zero_or_pos e with h | h
    · rw [ae h, h]; simp
    · have : (1 : ℝ) ≤ e := by exact_mod_cast h
      linarith
  have hce : ⌈c⌉₊ = e := by
    rcases Nat.eq_zero_or_pos e with h | h
    · rw [hc, ae h, h]; simp
    · rw [Nat.ceil_eq_iff (by omega), hc]
      push_cast [Nat.cast_sub h]
      constructor <;> linarith
  have hin := interp_eq hc0 (h.map Fl.toReal) (fun n => (x n).toReal) n N
  rw [hce, show (e : ℝ) - c = α.toReal by rw [hc]; ring] at hin
  rw [hin] at h2
  have hb : ∀ k, |delayedBy k (h.map Fl.toReal) (fun n => (x n).toReal) n| ≤ X := fun k => by
    rw [← delayedBy_toReal]; exact (delayedBy_within hX hh hx k n).2
  have hl : |interp c (h.map Fl.toReal) (fun n => (x n).toReal) n -
      interp δ (h.map Fl.toReal) (fun n => (x n).toReal) n| ≤ 2 * X * E := by
    rw [← hc] at hE
    rcases le_total c δ with h | h
    · refine (interp_lipschitz hb hc0 h).trans (mul_le_mul_of_nonneg_left ?_ (by positivity))
      rw [abs_of_nonpos (by linarith)] at hE; linarith
    · rw [abs_sub_comm]
      refine (interp_lipschitz hb hδ h).trans (mul_le_mul_of_nonneg_left ?_ (by positivity))
      rw [abs_of_nonneg (by linarith)] at hE; linarith
  have := abs_sub_le (((delayedBy e h x n *. om) +. (delayedBy (older N e) h x n *. α)).toReal)
    (interp c (h.map Fl.toReal) (fun n => (x n).toReal) n) (interp δ (h.map Fl.toReal) (fun n => (x n).toReal) n)
  linarith

/-- The outputs of a line whose read position is `e - α`, against exact interpolation at distance `δ`. -/
theorem outputs_near [Target] {s : LinearDelay (Fl L32) (Fl L)} (hi : s.WInv) (hd : s.do_next_out = true) {e : ℕ} (he : s.Eff e)
    (ha : s.alpha.Finite) (a0 : 0 ≤ s.alpha.toReal) (a1 : s.alpha.toReal < 1) (ae : e = 0 → s.alpha.toReal = 0)
    (ho : s.om_alpha = (one -. s.alpha)) {δ E : ℝ} (hδ : 0 ≤ δ) (hE : |(e : ℝ) - s.alpha.toReal - δ| ≤ E) {X : ℝ}
    (hov : 4 * (X + f.tiny) ≤ 2 ^ f.emax) (hh : ∀ v ∈ s.hist, v.Within X) {x : ℕ → Fl L} (hx : ∀ n, (x n).Within X) :
    ∃ y, Responds b s x y ∧ ∀ n, (y n).Finite ∧
      |(y n).toReal - interp δ (s.hist.map Fl.toReal) (fun n => (x n).toReal) n| ≤ 2 * X * E + 6 * (f.u * X + f.tiny) :=
  ⟨_, LinearDelay.responds (b := b) hi he hd x, mix_interp_near ha a0 a1 ae ho hδ hE hov hh hx⟩

/-- **C78**, after `set_delay` in any reachable state without pending `next_out`: if the clipped delay `δ` is not just above an
integer, all outputs are within `2 X slots / 2^22` plus a few roundings of exact interpolation at distance `δ`. -/
theorem C78_setDelay_accurate [Target] (hp : 24 ≤ f.p) (hem : f.emin ≤ -149) {s : LinearDelay (Fl L32) (Fl L)}
    (hs : LinearDelay.Reachable b s) (hd : s.do_next_out = true) {h : List (Fl L)} (hst : s.Stores b h)
    (hl : h.length < 2 ^ 24) {X : ℝ} (hov : 4 * (X + f.tiny) ≤ 2 ^ f.emax) (hh : ∀ v ∈ h, v.Within X) {d : Fl L32}
    (hdf : d.Finite) {δ : ℝ} (hδ : δ = max 0 (min d.toReal (h.length - 1 : ℕ))) (hcl : ClearOf h.length δ) :
    ∃ s', s.setDelay b d = .ok s' ∧ s'.getDelay.Finite ∧ s'.getDelay.toReal = δ ∧
      ∀ x : ℕ → Fl L, (∀ n, (x n).Within X) → ∃ y, Responds b s' x y ∧ ∀ n, (y n).Finite ∧
        |(y n).toReal - interp δ (h.map Fl.toReal) (fun n => (x n).toReal) n| ≤
          2 * X * (h.length / 2 ^ 22) + 6 * (f.u * X + f.tiny) := by
  have hi := hs.winv
  have hw := hi.hw
  obtain rfl := hst.eq hi.stores
  rw [LinearDelay.hist_length] at hl hδ hcl ⊢
  obtain ⟨s', h1⟩ := setDelay_total (b := b) hi d
  have hdel : s'.delay = clipDelay d (ofUsize (s.memory.length - 1)) := setDelay_delay (by omega) h1
  obtain ⟨m1, m2⟩ := ofUsize_fp (L32 := L32) (n := s.memory.length - 1) (by omega)
  rw [rnd_of_isRep (isRep32_nat (by omega))] at m2
  obtain ⟨c1, c2⟩ := clipDelay_fin hdf m1 (by rw [m2]; positivity)
  rw [← hdel] at c1 c2
  rw [m2, ← hδ] at c2
  obtain ⟨e, he, g1, g2, g3, g4, g5, g6⟩ := setDelay_near (b := b) hp hem hi hl h1 c1 (.inl (by rw [c2]; exact hcl))
  obtain ⟨hmem, hwp, -, hdn, -⟩ := LinearDelay.setDelay_frame h1
  have hi' : s'.WInv := ⟨by rw [hmem, hwp]; exact hi.hw, by rw [hmem]; exact hi.cap⟩
  have hhist : s'.hist = s.hist := by unfold LinearDelay.hist; rw [hmem, hwp]
  refine ⟨s', h1, c1, c2, fun x hx => ?_⟩
  rw [c2] at g6
  have := outputs_near (b := b) hi' (hdn.trans hd) he g1 g2 g3 g4 g5 (by rw [hδ]; exact le_max_left _ _) g6 hov
    (by rw [hhist]; exact hh) hx
  rwa [hhist] at this

/-- **C78** for a new line. -/
theorem C78_new_accurate [Target] (hp : 24 ≤ f.p) (hem : f.emin ≤ -149) {m : ℕ} (hm : Allocatable (Fl L) m) (hl : m + 1 < 2 ^ 24)
    {X : ℝ} (hov : 4 * (X + f.tiny) ≤ 2 ^ f.emax) {d : Fl L32} (hdf : d.Finite) {δ : ℝ}
    (hδ : δ = max 0 (min d.toReal m)) (hcl : ClearOf (m + 1) δ) :
    ∃ s : LinearDelay (Fl L32) (Fl L), LinearDelay.new b d m = .ok s ∧ s.getDelay.Finite ∧ s.getDelay.toReal = δ ∧
      ∀ x : ℕ → Fl L, (∀ n, (x n).Within X) → ∃ y, Responds b s x y ∧ ∀ n, (y n).Finite ∧
        |(y n).toReal - interp δ [] (fun n => (x n).toReal) n| ≤
          2 * X * ((m + 1 : ℕ) / 2 ^ 22) + 6 * (f.u * X + f.tiny) := by
  obtain ⟨m1, m2⟩ := ofUsize_fp (L32 := L32) (n := m) (by omega)
  rw [rnd_of_isRep (isRep32_nat (by omega))] at m2
  obtain ⟨c1, c2⟩ := clipDelay_fin hdf m1 (by rw [m2]; positivity)
  rw [m2, ← hδ] at c2
  have hm' := hm
  unfold Allocatable at hm'
  obtain ⟨s0, hs0⟩ : ∃ s0 : LinearDelay (Fl L32) (Fl L), s0 = { memory := List.replicate (m + 1) zero, output := zero, read_ptr := 0, write_ptr := 0, delay := zero, do_next_out := true, next_out := zero, alpha := zero, om_alpha := zero } := ⟨_, rfl⟩
  have hi0 : s0.WInv := by rw [hs0]; exact ⟨by simp, by simpa using hm'⟩
  have hl0 : s0.memory.length = m + 1 := by rw [hs0]; simp
  obtain ⟨s, h1⟩ := setDelay_total (b := b) hi0 (clipDelay d (ofUsize m))
  have hnew := (new_eq_setDelay (b := b) (d := d) hm).trans (hs0 ▸ h1)
  have hdel : s.delay = clipDelay d (ofUsize m) := by
    rw [setDelay_delay (by omega) h1, hl0, Nat.add_sub_cancel, clipDelay_idem _ m1 (by rw [m2]; positivity)]
  rw [← hdel] at c1 c2
  obtain ⟨e, he, g1, g2, g3, g4, g5, g6⟩ := setDelay_near (b := b) hp hem hi0 (by omega) h1 c1 (.inl (by rw [c2, hl0]; exact hcl))
  rw [c2, hl0] at g6
  obtain ⟨hmem, hw, hi, hdn, -⟩ := LinearDelay.new_frame hm hnew
  have hh : s.hist = List.replicate (m + 1) zero := by unfold LinearDelay.hist; rw [hmem, histOf_replicate]
  refine ⟨s, hnew, c1, c2, fun x hx => ?_⟩
  have hX : 0 ≤ X := (abs_nonneg _).trans (hx 0).2
  have := outputs_near (b := b) hi hdn he g1 g2 g3 g4 g5 (by rw [hδ]; exact le_max_left _ _) g6 hov
    (by rw [hh]; intro v hv; rw [(List.mem_replicate.mp hv).2]; exact ⟨Fl.zero_finite, by simpa using hX⟩) hx
  rw [hh, List.map_replicate, Fl.zero_toReal, interp_replicate] at this
  exact this

/-- Non-vacuity: an `f32` line of one second at 48 kHz with delay 3/4, samples up to 1. -/
example [Target] (L32 L : Libm binary32) : ∃ d : Fl L32, d.Finite ∧ (3 / 4 : ℝ) = max 0 (min d.toReal (47999 : ℕ)) ∧
    ClearOf (47999 + 1) (3 / 4) ∧ Allocatable (Fl L) 47999 ∧ 4 * (1 + binary32.tiny) ≤ 2 ^ binary32.emax ∧
    2 * 1 * ((47999 + 1 : ℕ) / 2 ^ 22 : ℝ) + 6 * (binary32.u * 1 + binary32.tiny) < 1 / 40 := by
  have hrep : IsRep binary32 (3 / 4) := ⟨3, -2, by show |(3 : ℤ)| < 2 ^ 24; norm_num, by show (-149 : ℤ) ≤ -2; norm_num, by norm_num⟩
  obtain ⟨d, h1, h2⟩ := Fl.exists_of_isRep L32 hrep (by
    rw [abs_of_pos (by norm_num)]; exact lt_trans (by norm_num) (FP.one_lt_lim _))
  have ht : binary32.tiny ≤ 1 / 2 ^ 100 := by
    unfold Fmt.tiny
    show (2 : ℝ) ^ (-149 : ℤ) ≤ _
    norm_num
  refine ⟨d, h1, by rw [h2]; norm_num, .inr ?_, ?_, ?_, ?_⟩
  · have : ⌊(3 / 4 : ℝ)⌋₊ = 0 := by rw [Nat.floor_eq_zero]; norm_num
    rw [this]; norm_num
  · unfold Allocatable
    have : size (Fl L) = 4 := rfl
    rw [this]; have := target; omega
  · show _ ≤ (2 : ℝ) ^ (127 : ℤ)
    norm_num at *
    linarith
  · have : binary32.u = 1 / 2 ^ 24 := rfl
    rw [this]
    norm_num at *
    linarith

end Rasp
