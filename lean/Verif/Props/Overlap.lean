import Verif.Spec.Overlap
import Verif.Props.WindowSums
import Verif.Props.WindowError

/-!
# C121: overlap-add of signals, exactly and in floating point
-/

namespace Rasp
open FloatOps

/-! ## What comes out -/

section general
variable {T : Type} [FloatOps T]

omit [FloatOps T] in
@[simp] theorem frameAt_length (x : ℕ → T) (hop n j : ℕ) : (frameAt x hop n j).length = n := by simp [frameAt]

omit [FloatOps T] in
theorem frameAt_getElem (x : ℕ → T) (hop n j i : ℕ) (hi : i < (frameAt x hop n j).length) :
    (frameAt x hop n j)[i] = x (j * hop + i) := by simp [frameAt]

/-- One pass in terms of the window's items. -/
theorem windowOnce_eq [Target] {b : Build} {k : WindowKind} {n : ℕ} (hn : n < usizeMod) {o : ℕ → Option T} (h : Yields b k n o)
    (xs : List T) (hl : xs.length = n) : ∃ ys, windowOnce b k xs = .ok ys ∧ ys.length = n ∧
      ∀ i, ys[i]? = (o i).bind fun g => (xs[i]?).map fun x => g *. x := by
  subst hl
  obtain ⟨ys, h1, h2, h3⟩ := C57_pointwise b k xs hn o h
  refine ⟨ys, h1, h2, fun i => ?_⟩
  by_cases hi : i < xs.length
  · obtain ⟨g, h4, h5⟩ := h3 i hi
    rw [h5, h4, List.getElem?_eq_getElem hi]; rfl
  · rw [List.getElem?_eq_none (by omega), List.getElem?_eq_none (by omega : xs.length ≤ i)]
    cases o i <;> rfl

/-- **C121.** Overlap-add with a window of any size below the machine's limit never panics, whatever the samples, and the
result is determined by the signal. -/
theorem C121_total [Target] (b : Build) (k : WindowKind) (n hop : ℕ) (hn : n < usizeMod) (x : ℕ → T) :
    (∃! z, OverlapAdds (windowOnce b k) n hop x z) ∧ (∃! z, OverlapAdds (windowTwice b k) n hop x z) := by
  obtain ⟨o, ho⟩ := (C55_exactly_size_items (T := T) b k n hn).1
  have main : ∀ pass : List T → Res (List T), (∀ j, ∃ ys, pass (frameAt x hop n j) = .ok ys) → ∃! z, OverlapAdds pass n hop x z := by
    intro pass hp
    choose Y hY using hp
    refine ⟨_, ⟨Y, hY, fun t => rfl⟩, ?_⟩
    rintro z ⟨Y', h1, h2⟩
    have : Y' = Y := funext fun j => Except.ok.inj ((h1 j).symm.trans (hY j))
    subst this
    exact funext h2
  refine ⟨main _ fun j => ?_, main _ fun j => ?_⟩
  · obtain ⟨ys, h1, -⟩ := windowOnce_eq hn ho (frameAt x hop n j) (by simp)
    exact ⟨ys, h1⟩
  · obtain ⟨ys, h1, h2, -⟩ := windowOnce_eq hn ho (frameAt x hop n j) (by simp)
    obtain ⟨zs, h3, -⟩ := windowOnce_eq hn ho ys h2
    exact ⟨zs, by unfold windowOnce at h1 h3; simp only [windowTwice, h1]; exact h3⟩

end general

section exact
variable {b : Build} {n m : ℕ} {o : ℕ → Option ℝ} {k : WindowKind} {x z : ℕ → ℝ}

theorem foldl_filterMap (js : List ℕ) (g : ℕ → Option ℝ) (s : ℝ) :
    (js.filterMap g).foldl (fun s v => s +. v) s = s + (js.map fun j => (g j).getD 0).sum := by
  induction js generalizing s with
  | nil => simp
  | cons j js ih =>
    cases hg : g j with
    | none => rw [List.filterMap_cons_none hg, ih, List.map_cons, List.sum_cons, hg, Option.getD_none, zero_add]
    | some v =>
      rw [List.filterMap_cons_some hg, List.foldl_cons, ih, List.map_cons, List.sum_cons, hg, Option.getD_some]
      exact add_assoc s v _

theorem frameAt_get? {T : Type} (x : ℕ → T) (hop n j i : ℕ) :
    (frameAt x hop n j)[i]? = if i < n then some (x (j * hop + i)) else none := by
  by_cases hi : i < n
  · rw [if_pos hi, List.getElem?_eq_getElem (by simpa using hi), frameAt_getElem]
  · rw [if_neg hi, List.getElem?_eq_none (by simpa using hi)]

theorem getD_none_of_le [Target] (hn : n < usizeMod) (h : Yields b k n o) {i : ℕ} (hi : ¬ i < n) : o i = none := by
  have := (C55_exactly_size_items b k _ hn).2 o h i
  rw [← Option.not_isSome_iff_eq_none, this]; exact hi

/-- **C121.** In exact arithmetic the output is the input times the overlap-added window; with the window applied twice, times
the overlap-added squares. -/
theorem C121_gain [Target] (hn : n < usizeMod) (h : Yields b k n o) {hop : ℕ} (t : ℕ) :
    (OverlapAdds (windowOnce b k) n hop x z → z t = overlapAdd o hop t * x t) ∧
    (OverlapAdds (windowTwice b k) n hop x z → z t = overlapAddSq o hop t * x t) := by
  have time : ∀ j ∈ List.range (t / hop + 1), j * hop + (t - j * hop) = t := by
    intro j hj
    have h1 : j ≤ t / hop := by rw [List.mem_range] at hj; omega
    have h2 := Nat.mul_le_mul_right hop h1
    have h3 := Nat.div_mul_le_self t hop
    omega
  constructor
  · rintro ⟨Y, h1, h2⟩
    rw [h2 t, foldl_filterMap]
    show (0 : ℝ) + _ = _
    rw [zero_add, overlapAdd, ← List.sum_map_mul_right]
    congr 1
    refine List.map_congr_left fun j hj => ?_
    obtain ⟨ys, h3, -, h4⟩ := windowOnce_eq hn h (frameAt x hop n j) (by simp)
    rw [Except.ok.inj ((h1 j).symm.trans h3), h4, frameAt_get?, time j hj]
    by_cases hi : t - j * hop < n
    · rw [if_pos hi]
      cases o (t - j * hop) with
      | none => simp
      | some g => rfl
    · rw [if_neg hi, getD_none_of_le hn h hi]; simp
  · rintro ⟨Y, h1, h2⟩
    rw [h2 t, foldl_filterMap]
    show (0 : ℝ) + _ = _
    rw [zero_add, overlapAddSq, ← List.sum_map_mul_right]
    congr 1
    refine List.map_congr_left fun j hj => ?_
    obtain ⟨ys, h3, h5, h4⟩ := windowOnce_eq hn h (frameAt x hop n j) (by simp)
    obtain ⟨zs, h6, -, h7⟩ := windowOnce_eq hn h ys h5
    have h8 : windowTwice b k (frameAt x hop n j) = .ok zs := by
      unfold windowOnce at h3 h6; simp only [windowTwice, h3]; exact h6
    rw [Except.ok.inj ((h1 j).symm.trans h8), h7, h4, frameAt_get?, time j hj]
    by_cases hi : t - j * hop < n
    · rw [if_pos hi]
      cases o (t - j * hop) with
      | none => simp
      | some g =>
        show g * (g * x t) = g ^ 2 * x t
        ring
    · rw [if_neg hi, getD_none_of_le hn h hi]; simp

/-! ## The gain at the usual sizes -/

/-- Cosines at equal steps around the circle cancel, wherever they start. -/
theorem sum_cos_from {R h : ℕ} (hR : h < R) (h0 : 0 < h) (θ : ℝ) :
    ∑ j ∈ Finset.range R, Real.cos (h * (θ + 2 * Real.pi * j / R)) = 0 := by
  have hd : ¬ R ∣ h := Nat.not_dvd_of_pos_of_lt h0 hR
  have hN' : (R : ℂ) ≠ 0 := by
    have : R ≠ 0 := by omega
    exact_mod_cast this
  set ζ : ℂ := Complex.exp (2 * Real.pi * Complex.I * (h / R)) with hζ
  have h1 : ζ ^ R = 1 := by
    rw [hζ, ← Complex.exp_nat_mul, Complex.exp_eq_one_iff]
    exact ⟨h, by field_simp; push_cast; ring⟩
  have h2 : ζ ≠ 1 := by
    rw [hζ, Ne, Complex.exp_eq_one_iff]
    rintro ⟨m, hm⟩
    have hp : (2 * (Real.pi : ℂ) * Complex.I) ≠ 0 := by simp [Real.pi_ne_zero]
    have h3 : (h : ℂ) / R = m := by
      apply mul_left_cancel₀ hp
      rw [hm]; ring
    rw [div_eq_iff hN'] at h3
    have h4 : (h : ℤ) = m * R := by exact_mod_cast h3
    apply hd
    have : (R : ℤ) ∣ h := ⟨m, by rw [h4, mul_comm]⟩
    exact_mod_cast this
  have h3 : ∑ i ∈ Finset.range R, Complex.exp ((h * θ : ℝ) * Complex.I) * ζ ^ i = 0 := by
    have := mul_neg_geom_sum ζ R
    rw [h1, sub_self] at this
    rw [← Finset.mul_sum, (mul_eq_zero.mp this).resolve_left (sub_ne_zero.mpr h2.symm), mul_zero]
  have h4 := congrArg Complex.re h3
  rw [Complex.re_sum, Complex.zero_re] at h4
  rw [← h4]
  refine Finset.sum_congr rfl fun i _ => ?_
  rw [hζ, ← Complex.exp_nat_mul, ← Complex.exp_add, ← Complex.exp_ofReal_mul_I_re]
  congr 2
  push_cast
  ring

/-- A cosine polynomial at the points of one hop class. -/
theorem sum_hop (R m r : ℕ) (hR : 1 ≤ R) (hm : 1 ≤ m) (a : ℕ → ℝ) (d : ℕ) (hd : d < R) :
    ∑ j ∈ Finset.range R, ∑ h ∈ Finset.range (d + 1),
      a h * Real.cos (h * (2 * Real.pi * ((j * m + r : ℕ) : ℝ) / (((R * m + 1 : ℕ) : ℝ) - 1))) = R * a 0 := by
  have hR' : (R : ℝ) ≠ 0 := by
    have : R ≠ 0 := by omega
    exact_mod_cast this
  have hm' : (m : ℝ) ≠ 0 := by
    have : m ≠ 0 := by omega
    exact_mod_cast this
  rw [Finset.sum_comm, Finset.sum_range_succ']
  simp only [Nat.cast_zero, zero_mul, Real.cos_zero, mul_one, Finset.sum_const, Finset.card_range, nsmul_eq_mul]
  rw [Finset.sum_eq_zero, zero_add]
  intro h hh
  rw [Finset.mem_range] at hh
  rw [← Finset.mul_sum]
  have := sum_cos_from (R := R) (h := h + 1) (by omega) (by omega) (2 * Real.pi * r / (R * m))
  rw [← mul_zero (a (h + 1)), ← this]
  congr 1
  refine Finset.sum_congr rfl fun j _ => ?_
  congr 2
  push_cast
  field_simp
  ring

/-- The terms of an overlap-add once the frames have all started. -/
theorem overlap_terms (g : ℕ → ℝ) {R q : ℕ} (hq : R ≤ q) (hz : ∀ j, R < j → g j = 0) :
    ((List.range (q + 1)).map g).sum = ∑ j ∈ Finset.range R, g j + g R := by
  rw [← Finset.sum_range_succ, Finset.sum_subset (s₁ := Finset.range (R + 1)) (s₂ := Finset.range (q + 1))]
  · rfl
  · exact Finset.range_subset_range.mpr (by omega)
  · intro j _ hj
    rw [Finset.mem_range] at hj
    exact hz j (by omega)

theorem overlapAddSq_eq (o : ℕ → Option ℝ) {hop : ℕ} (hh : 0 < hop) (q r : ℕ) (hr : r < hop) :
    overlapAddSq o hop (q * hop + r) = ((List.range (q + 1)).map fun j => (o (j * hop + r)).getD 0 ^ 2).sum := by
  have := overlapAdd_eq (fun i => (o i).map fun v => v ^ 2) hh q r hr
  have e : ∀ v : Option ℝ, (v.map fun v => v ^ 2).getD 0 = v.getD 0 ^ 2 := by
    intro v; cases v <;> simp
  simp only [overlapAdd, e] at this
  exact this

/-- Overlap-adds at hop `m` of a window of `R m + 1` points, in terms of its shape. -/
theorem overlap_shape [Target] {R t : ℕ} (hm : 1 ≤ m) (hn : R * m + 1 < usizeMod) (h : Yields b k (R * m + 1) o) (hR : 1 ≤ R)
    (ht : R * m ≤ t) :
    overlapAdd o m t = ∑ j ∈ Finset.range R, shape k ((R * m + 1 : ℕ) : ℝ) ((j * m + t % m : ℕ) : ℝ) +
      (if t % m = 0 then endValue ((R * m + 1 : ℕ) : ℝ) k else 0) ∧
    overlapAddSq o m t = ∑ j ∈ Finset.range R, shape k ((R * m + 1 : ℕ) : ℝ) ((j * m + t % m : ℕ) : ℝ) ^ 2 +
      (if t % m = 0 then endValue ((R * m + 1 : ℕ) : ℝ) k ^ 2 else 0) := by
  have hm0 : 0 < m := hm
  set q := t / m with hq
  set r := t % m with hr
  have hrm : r < m := Nat.mod_lt _ hm0
  have htq : t = q * m + r := by rw [hq, hr, mul_comm]; exact (Nat.div_add_mod t m).symm
  have hqR : R ≤ q := by rw [hq, Nat.le_div_iff_mul_le hm0]; exact ht
  have low : ∀ j ∈ Finset.range R, o (j * m + r) = some (shape k ((R * m + 1 : ℕ) : ℝ) ((j * m + r : ℕ) : ℝ)) := by
    intro j hj
    rw [Finset.mem_range] at hj
    have : (j + 1) * m ≤ R * m := Nat.mul_le_mul_right m hj
    exact C55_values b k _ hn o h _ (by rw [add_mul] at this; omega)
  have high : ∀ j, R < j → o (j * m + r) = none := by
    intro j hj
    have : (R + 1) * m ≤ j * m := Nat.mul_le_mul_right m hj
    exact getD_none_of_le hn h (by rw [add_mul] at this; omega)
  have last : (o (R * m + r)).getD 0 = if r = 0 then endValue ((R * m + 1 : ℕ) : ℝ) k else 0 := by
    by_cases hr0 : r = 0
    · have h1 : 1 * 1 ≤ R * m := Nat.mul_le_mul hR hm
      have := (C60_ends b k (R * m + 1) (by omega) hn o h).2
      rw [Nat.add_sub_cancel] at this
      rw [if_pos hr0, hr0, add_zero, this]; rfl
    · rw [if_neg hr0, getD_none_of_le hn h (by omega)]; rfl
  constructor
  · rw [htq, overlapAdd_eq o hm0 q r hrm, overlap_terms _ hqR (fun j hj => by rw [high j hj]; rfl), last]
    congr 1
    exact Finset.sum_congr rfl fun j hj => by rw [low j hj]; rfl
  · rw [htq, overlapAddSq_eq o hm0 q r hrm, overlap_terms _ hqR (fun j hj => by rw [high j hj]; simp), last]
    congr 1
    · exact Finset.sum_congr rfl fun j hj => by rw [low j hj]; rfl
    · split <;> simp

/-- **C121.** With `R m + 1` points every `m` samples, the overlapped cosine windows are constant once `R` exceeds the order of
the window (50% for Hann and Hamming, 66% for Blackman, 75% for Blackman-Harris), except that the end points of Hamming and
Blackman-Harris, which are not zero, show where frames meet. Bartlett frames need an even number of hops. -/
theorem C121_constant [Target] {R t : ℕ} (hm : 1 ≤ m) (hn : R * m + 1 < usizeMod) (ht : R * m ≤ t) :
    (2 ≤ R → Yields b .hann (R * m + 1) o → overlapAdd o m t = R / 2) ∧
    (2 ≤ R → Yields b .hamming (R * m + 1) o → overlapAdd o m t = 0.54 * R + if t % m = 0 then 0.08 else 0) ∧
    (3 ≤ R → Yields b .blackman (R * m + 1) o → overlapAdd o m t = 0.42 * R) ∧
    (4 ≤ R → Yields b .blackmanHarris (R * m + 1) o → overlapAdd o m t = 0.35875 * R + if t % m = 0 then 0.00006 else 0) ∧
    (1 ≤ R → Even R → Yields b .bartlett (R * m + 1) o → overlapAdd o m t = R / 2) := by
  have poly : ∀ (k : WindowKind) (a : List ℝ), a.length - 1 < R →
      (∀ n i : ℝ, shape k n i = ∑ h ∈ Finset.range (a.length - 1 + 1), a.getD h 0 * Real.cos (h * (2 * Real.pi * i / (n - 1)))) →
      Yields b k (R * m + 1) o →
      overlapAdd o m t = R * a.getD 0 0 + if t % m = 0 then endValue ((R * m + 1 : ℕ) : ℝ) k else 0 := by
    intro k a hR hs h
    rw [(overlap_shape hm hn h (by omega) ht).1, ← sum_hop R m (t % m) (by omega) hm (fun h => a.getD h 0) _ hR]
    congr 1
    exact Finset.sum_congr rfl fun j _ => hs _ _
  refine ⟨fun hR h => ?_, fun hR h => ?_, fun hR h => ?_, fun hR h => ?_, fun hR hE h => ?_⟩
  · rw [poly .hann [1 / 2, -1 / 2] (by simp; omega) (fun n i => by simp [Finset.sum_range_succ, shape]; ring) h]
    simp [endValue]; ring
  · rw [poly .hamming [0.54, -0.46] (by simp; omega) (fun n i => by simp [Finset.sum_range_succ, shape]; ring) h]
    simp [endValue, mul_comm]
  · rw [poly .blackman [0.42, -0.5, 0.08] (by simp; omega) (fun n i => by simp [Finset.sum_range_succ, shape]; ring) h]
    simp [endValue, mul_comm]
  · rw [poly .blackmanHarris [0.35875, -0.48829, 0.14128, -0.01168] (by simp; omega)
      (fun n i => by simp [Finset.sum_range_succ, shape]; ring) h]
    simp [endValue, mul_comm]
  · obtain ⟨s, rfl⟩ : ∃ s, R = s + s := hE
    rw [(overlap_shape hm hn h hR ht).1, Finset.sum_range_add, ← Finset.sum_add_distrib]
    simp only [endValue, ite_self, add_zero]
    have hs' : (0 : ℝ) < s := by
      have : 0 < s := by omega
      exact_mod_cast this
    have hm' : (0 : ℝ) < m := by exact_mod_cast hm
    have hp : (0 : ℝ) < s * m := mul_pos hs' hm'
    have one : ∀ j ∈ Finset.range s, shape .bartlett (((s + s) * m + 1 : ℕ) : ℝ) ((j * m + t % m : ℕ) : ℝ) +
        shape .bartlett (((s + s) * m + 1 : ℕ) : ℝ) (((s + j) * m + t % m : ℕ) : ℝ) = 1 := by
      intro j hj
      have h1 : j * m + t % m ≤ s * m := by
        have h2 : (j + 1) * m ≤ s * m := Nat.mul_le_mul_right m (Finset.mem_range.mp hj)
        have h3 := Nat.mod_lt t (show 0 < m from hm)
        rw [add_mul] at h2; omega
      have h2 : ((j * m + t % m : ℕ) : ℝ) ≤ s * m := by exact_mod_cast h1
      have h3 : (((s + j) * m + t % m : ℕ) : ℝ) = s * m + ((j * m + t % m : ℕ) : ℝ) := by push_cast; ring
      rw [h3]
      have h4 : (0 : ℝ) ≤ ((j * m + t % m : ℕ) : ℝ) := Nat.cast_nonneg _
      generalize ((j * m + t % m : ℕ) : ℝ) = i at h2 h4 ⊢
      simp only [shape]
      have e : ((((s + s) * m + 1 : ℕ) : ℝ) - 1) / 2 = s * m := by push_cast; ring
      rw [e, show s * m + i - (s * m : ℝ) = i by ring, abs_div, abs_div, abs_of_pos hp, abs_of_nonneg h4,
        abs_of_nonpos (by linarith)]
      field_simp
      ring
    rw [Finset.sum_congr rfl one]
    simp

/-- **C121.** Triangular frames have no zero ends, so they fit with `R m` points, `R` even, every `m` samples. -/
theorem C121_triangular [Target] {s t : ℕ} (hs : 1 ≤ s) (hm : 1 ≤ m) (hn : 2 * s * m < usizeMod) (ht : (2 * s - 1) * m ≤ t)
    (h : Yields b .triangular (2 * s * m) o) : overlapAdd o m t = s := by
  have hm0 : 0 < m := hm
  set q := t / m with hq
  set r := t % m with hr
  have hrm : r < m := Nat.mod_lt _ hm0
  have htq : t = q * m + r := by rw [hq, hr, mul_comm]; exact (Nat.div_add_mod t m).symm
  have hqR : 2 * s - 1 ≤ q := by rw [hq, Nat.le_div_iff_mul_le hm0]; exact ht
  have low : ∀ j < 2 * s, o (j * m + r) = some (shape .triangular ((2 * s * m : ℕ) : ℝ) ((j * m + r : ℕ) : ℝ)) := by
    intro j hj
    have : (j + 1) * m ≤ 2 * s * m := Nat.mul_le_mul_right m hj
    exact C55_values b _ _ hn o h _ (by rw [add_mul] at this; omega)
  have high : ∀ j, 2 * s - 1 < j → (o (j * m + r)).getD 0 = 0 := by
    intro j hj
    have : 2 * s * m ≤ j * m := Nat.mul_le_mul_right m (by omega)
    rw [getD_none_of_le hn h (by omega)]; rfl
  have hs' : (0 : ℝ) < s := by exact_mod_cast hs
  have hm' : (0 : ℝ) < m := by exact_mod_cast hm
  have hp : (0 : ℝ) < s * m := mul_pos hs' hm'
  rw [htq, overlapAdd_eq o hm0 q r hrm, overlap_terms _ hqR high, ← Finset.sum_range_succ, show 2 * s - 1 + 1 = s + s by omega,
    Finset.sum_range_add, ← Finset.sum_add_distrib]
  have one : ∀ j ∈ Finset.range s, (o (j * m + r)).getD 0 + (o ((s + j) * m + r)).getD 0 = 1 := by
    intro j hj
    have hj' := Finset.mem_range.mp hj
    rw [low j (by omega), low (s + j) (by omega), Option.getD_some, Option.getD_some]
    have h1 : j * m + r + 1 ≤ s * m := by
      have h2 : (j + 1) * m ≤ s * m := Nat.mul_le_mul_right m hj'
      rw [add_mul] at h2; omega
    have h2 : ((j * m + r : ℕ) : ℝ) + 1 ≤ s * m := by exact_mod_cast h1
    have h3 : (((s + j) * m + r : ℕ) : ℝ) = s * m + ((j * m + r : ℕ) : ℝ) := by push_cast; ring
    rw [h3]
    have h4 : (0 : ℝ) ≤ ((j * m + r : ℕ) : ℝ) := Nat.cast_nonneg _
    generalize ((j * m + r : ℕ) : ℝ) = i at h2 h4 ⊢
    simp only [shape]
    rw [show ((2 * s * m : ℕ) : ℝ) = 2 * (s * m) by push_cast; ring, mul_div_cancel_left₀ _ (two_ne_zero' ℝ), abs_div, abs_div, abs_of_pos hp,
      abs_of_nonneg (by linarith : (0 : ℝ) ≤ s * m + i - (2 * (s * m) - 1) / 2),
      abs_of_nonpos (by linarith : i - (2 * (s * m : ℝ) - 1) / 2 ≤ 0)]
    field_simp
    ring
  rw [Finset.sum_congr rfl one]
  simp

/-- **C121.** Windowing twice: the squares overlap to a constant once `R` exceeds twice the order of the window. -/
theorem C121_squares [Target] {R t : ℕ} (hm : 1 ≤ m) (hn : R * m + 1 < usizeMod) (ht : R * m ≤ t) :
    (3 ≤ R → Yields b .hann (R * m + 1) o → overlapAddSq o m t = 0.375 * R) ∧
    (3 ≤ R → Yields b .hamming (R * m + 1) o → overlapAddSq o m t = 0.3974 * R + if t % m = 0 then 0.0064 else 0) ∧
    (5 ≤ R → Yields b .blackman (R * m + 1) o → overlapAddSq o m t = 0.3046 * R) ∧
    (7 ≤ R → Yields b .blackmanHarris (R * m + 1) o →
      overlapAddSq o m t = 0.25796335495 * R + if t % m = 0 then 0.0000000036 else 0) := by
  have poly : ∀ (k : WindowKind) (a : List ℝ), a.length - 1 < R →
      (∀ n i : ℝ, shape k n i ^ 2 = ∑ h ∈ Finset.range (a.length - 1 + 1), a.getD h 0 * Real.cos (h * (2 * Real.pi * i / (n - 1)))) →
      Yields b k (R * m + 1) o →
      overlapAddSq o m t = R * a.getD 0 0 + if t % m = 0 then endValue ((R * m + 1 : ℕ) : ℝ) k ^ 2 else 0 := by
    intro k a hR hs h
    rw [(overlap_shape hm hn h (by omega) ht).2, ← sum_hop R m (t % m) (by omega) hm (fun h => a.getD h 0) _ hR]
    congr 1
    exact Finset.sum_congr rfl fun j _ => hs _ _
  have c4 : ∀ w : ℝ, Real.cos (4 * w) = 2 * (2 * Real.cos w ^ 2 - 1) ^ 2 - 1 := fun w => by
    rw [← Real.cos_two_mul, ← Real.cos_two_mul]; ring_nf
  have c6 : ∀ w : ℝ, Real.cos (6 * w) = 2 * (4 * Real.cos w ^ 3 - 3 * Real.cos w) ^ 2 - 1 := fun w => by
    rw [← Real.cos_three_mul, ← Real.cos_two_mul]; ring_nf
  have c5 : ∀ w : ℝ, Real.cos (5 * w) = 2 * (4 * Real.cos w ^ 3 - 3 * Real.cos w) * (2 * Real.cos w ^ 2 - 1) - Real.cos w := fun w => by
    have h1 := Real.cos_add (3 * w) (2 * w)
    have h2 := Real.cos_sub (3 * w) (2 * w)
    rw [← Real.cos_three_mul, ← Real.cos_two_mul, show 5 * w = 3 * w + 2 * w by ring]
    rw [show 3 * w - 2 * w = w by ring] at h2
    linarith
  refine ⟨fun hR h => ?_, fun hR h => ?_, fun hR h => ?_, fun hR h => ?_⟩
  · rw [poly .hann [0.375, -0.5, 0.125] (by simp; omega) (fun n i => by
      simp [Finset.sum_range_succ, shape, Real.cos_two_mul]; ring) h]
    simp [endValue, mul_comm]
  · rw [poly .hamming [0.3974, -0.4968, 0.1058] (by simp; omega) (fun n i => by
      simp [Finset.sum_range_succ, shape, Real.cos_two_mul]; ring) h]
    simp [endValue, mul_comm]
    norm_num
  · rw [poly .blackman [0.3046, -0.46, 0.1922, -0.04, 0.0032] (by simp; omega) (fun n i => by
      simp [Finset.sum_range_succ, shape, Real.cos_two_mul, Real.cos_three_mul, c4]; ring) h]
    simp [endValue, mul_comm]
  · rw [poly .blackmanHarris [0.25796335495, -0.42098383660, 0.22628518925, -0.0773660112, 0.0156832464, -0.0016501504, 0.0000682112]
      (by simp; omega) (fun n i => by
      simp [Finset.sum_range_succ, shape, Real.cos_two_mul, Real.cos_three_mul, c4, c5, c6]; ring) h]
    simp [endValue, mul_comm]
    norm_num

/-- **C121.** Fewer hops are not enough: at 50% the Blackman window ripples between 0.68 and 1, and so do the squares of the Hann
window between 1/2 and 1. -/
theorem C121_too_few [Target] {t : ℕ} (hm : 1 ≤ m) (hn : 2 * m + 1 < usizeMod) (ht : 2 * m ≤ t) :
    (Yields b .blackman (2 * m + 1) o → overlapAdd o m t = 0.84 + 0.16 * Real.cos (2 * (Real.pi * (t % m : ℕ) / m))) ∧
    (Yields b .hann (2 * m + 1) o → overlapAddSq o m t = (1 + Real.cos (Real.pi * (t % m : ℕ) / m) ^ 2) / 2) := by
  have hm' : (m : ℝ) ≠ 0 := by
    have : m ≠ 0 := by omega
    exact_mod_cast this
  have e0 : 2 * Real.pi * ((0 * m + t % m : ℕ) : ℝ) / (((2 * m + 1 : ℕ) : ℝ) - 1) = Real.pi * (t % m : ℕ) / m := by
    push_cast; field_simp; ring
  have e1 : 2 * Real.pi * ((1 * m + t % m : ℕ) : ℝ) / (((2 * m + 1 : ℕ) : ℝ) - 1) = Real.pi * (t % m : ℕ) / m + Real.pi := by
    push_cast; field_simp; ring
  refine ⟨fun h => ?_, fun h => ?_⟩
  · rw [(overlap_shape hm hn h (by omega) ht).1, Finset.sum_range_succ, Finset.sum_range_one]
    simp only [shape, endValue, ite_self, add_zero, e0, e1, mul_add, Real.cos_add_pi, Real.cos_add_two_pi]
    ring
  · rw [(overlap_shape hm hn h (by omega) ht).2, Finset.sum_range_succ, Finset.sum_range_one]
    simp only [shape, endValue, e0, e1, Real.cos_add_pi]
    norm_num
    ring

/-- **C121.** Even sizes: half-overlapped Hann and Hamming frames of `2 m` points do not add up to a constant, contrary to the
comment on the windows; the sum stays below the constant and falls short of it by up to `sin (π / (4 m - 2))`. -/
theorem C121_even [Target] {t : ℕ} (hm : 1 ≤ m) (hn : 2 * m < usizeMod) (ht : m ≤ t) :
    let ripple := Real.sin (Real.pi / (4 * m - 2)) * Real.cos (2 * Real.pi * ((t % m : ℕ) + m / 2) / (2 * m - 1))
    (Yields b .hann (2 * m) o → overlapAdd o m t = 1 + ripple) ∧
    (Yields b .hamming (2 * m) o → overlapAdd o m t = 1.08 + 0.92 * ripple) ∧
    -Real.sin (Real.pi / (4 * m - 2)) ≤ ripple ∧ ripple < 0 := by
  intro ripple
  have hm0 : 0 < m := hm
  have hm' : (1 : ℝ) ≤ m := by exact_mod_cast hm
  have hd : (0 : ℝ) < 2 * m - 1 := by linarith
  set q := t / m with hq
  set r := t % m with hr
  have hrm : r < m := Nat.mod_lt _ hm0
  have htq : t = q * m + r := by rw [hq, hr, mul_comm]; exact (Nat.div_add_mod t m).symm
  have hqR : 1 ≤ q := by rw [hq, Nat.le_div_iff_mul_le hm0, one_mul]; exact ht
  have two : ∀ k, Yields b k (2 * m) o → overlapAdd o m t =
      shape k ((2 * m : ℕ) : ℝ) (r : ℕ) + shape k ((2 * m : ℕ) : ℝ) ((m + r : ℕ) : ℝ) := by
    intro k h
    rw [htq, overlapAdd_eq o hm0 q r hrm, overlap_terms (R := 1) _ hqR, Finset.sum_range_one, zero_mul, zero_add, one_mul,
      C55_values b k _ hn o h r (by omega), C55_values b k _ hn o h (m + r) (by omega)]
    · rfl
    · intro j hj
      have : 2 * m ≤ j * m := Nat.mul_le_mul_right m (by omega)
      rw [getD_none_of_le hn h (by omega)]; rfl
  have hsum : Real.cos (2 * Real.pi * (r : ℕ) / (((2 * m : ℕ) : ℝ) - 1)) + Real.cos (2 * Real.pi * ((m + r : ℕ) : ℝ) / (((2 * m : ℕ) : ℝ) - 1))
      = -(2 * ripple) := by
    rw [Real.cos_add_cos]
    have e1 : (2 * Real.pi * (r : ℕ) / (((2 * m : ℕ) : ℝ) - 1) + 2 * Real.pi * ((m + r : ℕ) : ℝ) / (((2 * m : ℕ) : ℝ) - 1)) / 2 =
        2 * Real.pi * ((r : ℕ) + m / 2) / (2 * m - 1) := by
      push_cast; ring
    have e2 : (2 * Real.pi * (r : ℕ) / (((2 * m : ℕ) : ℝ) - 1) - 2 * Real.pi * ((m + r : ℕ) : ℝ) / (((2 * m : ℕ) : ℝ) - 1)) / 2 =
        -(Real.pi / (4 * m - 2) + Real.pi / 2) := by
      have h4 : (4 * m - 2 : ℝ) = 2 * (2 * m - 1) := by ring
      have hd' := hd.ne'
      rw [h4]
      push_cast
      field_simp
      ring
    rw [e1, e2, Real.cos_neg, Real.cos_add_pi_div_two]
    simp only [ripple]
    ring
  have hS : 0 < Real.sin (Real.pi / (4 * m - 2)) := by
    apply Real.sin_pos_of_pos_of_lt_pi
    · exact div_pos Real.pi_pos (by linarith)
    · rw [div_lt_iff₀ (by linarith)]
      nlinarith [Real.pi_pos]
  refine ⟨fun h => ?_, fun h => ?_, ?_, ?_⟩
  · rw [two _ h]; simp only [shape]; linarith
  · rw [two _ h]; simp only [shape]; linarith
  · simp only [ripple]
    nlinarith [Real.neg_one_le_cos (2 * Real.pi * ((r : ℕ) + m / 2) / (2 * m - 1))]
  · refine mul_neg_of_pos_of_neg hS (Real.cos_neg_of_pi_div_two_lt_of_lt ?_ ?_)
    · rw [lt_div_iff₀ hd]
      have : (0 : ℝ) ≤ (r : ℕ) := Nat.cast_nonneg _
      nlinarith [Real.pi_pos]
    · rw [div_lt_iff₀ hd]
      have : ((r : ℕ) : ℝ) + 1 ≤ m := by exact_mod_cast hrm
      nlinarith [Real.pi_pos]

/-- The windows and signals above exist: 4 points every 2 samples of an alternating signal. -/
example [Target] (b : Build) : ∃ o : ℕ → Option ℝ, Yields b .hann (2 * 2) o ∧
    ∃ z, OverlapAdds (windowOnce b .hann) (2 * 2) 2 (fun t => (-1 : ℝ) ^ t) z :=
  have hn : 2 * 2 < usizeMod := by have := target; omega
  let ⟨o, ho⟩ := (C55_exactly_size_items (T := ℝ) b .hann (2 * 2) hn).1
  ⟨o, ho, (C121_total b .hann (2 * 2) 2 hn _).1.exists⟩

end exact

/-! ## In floating point -/

section float
open Fl
variable {f : Fmt} {L : Libm f} {k : ℝ}

/-- Adding up approximations. -/
theorem foldl_approx {X e B : ℝ} {F : ℕ} (hX : 0 ≤ X) (he : 0 ≤ e) (hBn : 0 ≤ B) (hB0 : F * (X + (e + f.u * B + f.tiny)) ≤ B) (hB : B ≤ 2 ^ f.emax) {vs : List (Fl L)}
    {ts : List ℝ} (h : List.Forall₂ (fun v t => Approx v t e ∧ |t| ≤ X) vs ts) (s : Fl L) (a : ℝ) (c : ℕ) (hc : c + vs.length ≤ F)
    (hs : Approx s a (c * (e + f.u * B + f.tiny))) (ha : |a| ≤ c * X) :
    Approx (vs.foldl (fun s v => s +. v) s) (ts.foldl (fun s v => s +. v) a) (F * (e + f.u * B + f.tiny)) := by
  have hu := f.u_pos
  have ht := f.tiny_pos
  have hF0 : (0 : ℝ) ≤ F := Nat.cast_nonneg F
  have hδ : 0 ≤ e + f.u * B + f.tiny := by positivity
  induction h generalizing s a c with
  | nil =>
    have : (c : ℝ) ≤ F := by exact_mod_cast (by simpa using hc : c ≤ F)
    exact hs.le (mul_le_mul_of_nonneg_right this hδ)
  | @cons v t vs ts hv _ ih =>
    rw [List.length_cons] at hc
    refine ih (s +. v) (a + t) (c + 1) (by omega) ?_ ?_
    · have hcF : (c : ℝ) + 1 ≤ F := by exact_mod_cast (by omega : c + 1 ≤ F)
      have h1 := abs_add_le a t
      have h2 := mul_le_mul_of_nonneg_right hcF (add_nonneg hX hδ)
      have h3 : 0 ≤ f.u * B := by positivity
      refine hs.add hv.1 (B := B) ?_ hB ?_
      · nlinarith [hv.2]
      · push_cast; nlinarith
    · have h1 := abs_add_le a t
      push_cast
      nlinarith [hv.2]

/-- At most `F` frames cover a time when `n ≤ F hop`. -/
theorem covering_length {T : Type} (g : ℕ → Option T) {n hop F t : ℕ} (hF : n ≤ F * hop) (hg : ∀ j, j * hop + n ≤ t → g j = none) :
    ((List.range (t / hop + 1)).filterMap g).length ≤ F := by
  set q := t / hop with hq
  by_cases h : q + 1 ≤ F
  · exact (List.length_filterMap_le _ _).trans (by simpa using h)
  · obtain ⟨a, ha⟩ : ∃ a, q + 1 = a + F := ⟨q + 1 - F, by omega⟩
    rw [ha, List.range_add, List.filterMap_append, List.length_append]
    have h1 : (List.range a).filterMap g = [] := by
      rw [List.filterMap_eq_nil_iff]
      intro j hj
      rw [List.mem_range] at hj
      apply hg
      have h2 : (j + F) * hop ≤ q * hop := Nat.mul_le_mul_right hop (by omega)
      have h3 := Nat.div_mul_le_self t hop
      rw [add_mul] at h2
      rw [← hq] at h3
      omega
    rw [h1, List.length_nil, zero_add]
    exact (List.length_filterMap_le _ _).trans (by simp)

theorem cover_sum {t hop j : ℕ} (h1 : j ≤ t / hop) : j * hop + (t - j * hop) = t := by
  have h2 := Nat.mul_le_mul_right hop h1
  have h3 := Nat.div_mul_le_self t hop
  omega

/-- What approximate frames add up to. -/
theorem overlap_approx {X e B : ℝ} {F n hop t : ℕ} (h2 : 2 ≤ n) (hF : n ≤ F * hop) (hX0 : 0 ≤ X) (he0 : 0 ≤ e) (hBn : 0 ≤ B)
    (hB0 : F * (X + (e + f.u * B + f.tiny)) ≤ B) (hB : B ≤ 2 ^ f.emax) {Y : ℕ → List (Fl L)} {Y' : ℕ → List ℝ}
    (key : ∀ j ≤ t / hop, (t - j * hop < n → ∃ v w, (Y j)[t - j * hop]? = some v ∧ (Y' j)[t - j * hop]? = some w ∧
      Approx v w e ∧ |w| ≤ X) ∧ (¬ t - j * hop < n → (Y j)[t - j * hop]? = none ∧ (Y' j)[t - j * hop]? = none)) :
    Approx (((List.range (t / hop + 1)).filterMap fun j => (Y j)[t - j * hop]?).foldl (fun s v => s +. v) (zero : Fl L))
      (((List.range (t / hop + 1)).filterMap fun j => (Y' j)[t - j * hop]?).foldl (fun s v => s +. v) (zero : ℝ)) (F * (e + f.u * B + f.tiny)) := by
  have hall : ∀ js : List ℕ, (∀ j ∈ js, j ≤ t / hop) → List.Forall₂ (fun v w => Approx v w e ∧ |w| ≤ X)
      (js.filterMap fun j => (Y j)[t - j * hop]?) (js.filterMap fun j => (Y' j)[t - j * hop]?) := by
    intro js
    induction js with
    | nil => intro _; exact .nil
    | cons j js ih =>
      intro hj
      have ih' := ih fun i hi => hj i (List.mem_cons_of_mem _ hi)
      by_cases hi : t - j * hop < n
      · obtain ⟨v, w, q1, q2, q3⟩ := (key j (hj j List.mem_cons_self)).1 hi
        rw [List.filterMap_cons_some (f := fun j => (Y j)[t - j * hop]?) q1, List.filterMap_cons_some (f := fun j => (Y' j)[t - j * hop]?) q2]
        exact .cons q3 ih'
      · obtain ⟨q1, q2⟩ := (key j (hj j List.mem_cons_self)).2 hi
        rw [List.filterMap_cons_none (f := fun j => (Y j)[t - j * hop]?) q1, List.filterMap_cons_none (f := fun j => (Y' j)[t - j * hop]?) q2]
        exact ih'
  have hlen : ((List.range (t / hop + 1)).filterMap fun j => (Y j)[t - j * hop]?).length ≤ F := by
    have hhop : 0 < hop := by
      rcases Nat.eq_zero_or_pos hop with h0 | h0
      · subst h0; omega
      · exact h0
    refine covering_length _ hF fun j hj => ((key j ?_).2 (by omega)).1
    rw [Nat.le_div_iff_mul_le hhop]; omega
  refine foldl_approx (L := L) (F := F) (B := B) hX0 he0 hBn hB0 hB (hall (List.range (t / hop + 1)) (fun j hj => by
    rw [List.mem_range] at hj; omega)) zero 0 0 (by simpa using hlen) ?_ (by simp)
  rw [Nat.cast_zero, zero_mul]
  exact ⟨zero_finite, by simp⟩

/-- **C121.** In floating point, overlap-add of a signal bounded by `M` with a window of any shape and size from two: when at
most `F` frames overlap, the output is finite and within `F (k + 52 + 2 F)` units of `2^-precision` of the exact output,
relative to the sample, plus a few of the smallest numbers. -/
theorem C121_float [Target] (hf : f.Ordinary) (hL : AccurateCos L k) (hk0 : 0 ≤ k) {F : ℕ} (hk : (k + 120 + 2 * F) * f.u ≤ 1 / 8)
    (b : Build) (kind : WindowKind) (n hop : ℕ) (h2 : 2 ≤ n) (hn : n < usizeMod) (hF : n ≤ F * hop) (x z : ℕ → Fl L) (M : ℝ)
    (hx : ∀ t, (x t).Finite ∧ |(x t).toReal| ≤ M) (hM : 2 * F * (M + 2 * f.tiny) ≤ 2 ^ f.emax)
    (h : OverlapAdds (windowOnce b kind) n hop x z) (z' : ℕ → ℝ)
    (h' : OverlapAdds (windowOnce b kind) n hop (fun t => (x t).toReal) z') (t : ℕ) :
    (z t).Finite ∧ |(z t).toReal - z' t| ≤ F * ((k + 52 + 2 * F) * f.u * |(x t).toReal| + 3 * f.tiny) := by
  have hu := f.u_pos
  have htn := f.tiny_pos
  have hM0 : 0 ≤ M := (abs_nonneg _).trans (hx 0).2
  have hF1 : 1 ≤ F := by
    rcases Nat.eq_zero_or_pos F with h0 | h0
    · subst h0; omega
    · exact h0
  have hF1' : (1 : ℝ) ≤ F := by exact_mod_cast hF1
  have hem : (2 : ℝ) ^ f.emax = 2 * 2 ^ (f.emax - 1) := by
    rw [← zpow_one_add₀ (by norm_num)]; congr 1; ring
  have hM2 : M ≤ 2 ^ (f.emax - 1) := by
    have : M + 2 * f.tiny ≤ F * (M + 2 * f.tiny) := le_mul_of_one_le_left (by positivity) hF1'
    linarith
  obtain ⟨o, ho⟩ := (C55_exactly_size_items (T := ℝ) b kind n hn).1
  obtain ⟨Y, hY, hz⟩ := h
  obtain ⟨Y', hY', hz'⟩ := h'
  set X := |(x t).toReal| with hXdef
  have hX0 : 0 ≤ X := abs_nonneg _
  have hXM : X ≤ M := (hx t).2
  set e := (k + 52) * f.u * X + f.tiny with he
  set B := 2 * F * (X + 2 * f.tiny) with hBdef
  have key : ∀ j ≤ t / hop, (t - j * hop < n → ∃ v w, (Y j)[t - j * hop]? = some v ∧ (Y' j)[t - j * hop]? = some w ∧
      Approx v w e ∧ |w| ≤ X) ∧ (¬ t - j * hop < n → (Y j)[t - j * hop]? = none ∧ (Y' j)[t - j * hop]? = none) := by
    intro j hj
    obtain ⟨ys, g1, g2, g3⟩ := C97_apply hf hL hk0 (by nlinarith) b kind (frameAt x hop n j) (by simpa using h2) (by simpa using hn)
      (fun v hv => by
        obtain ⟨i, -, rfl⟩ := List.mem_map.mp hv
        exact ⟨(hx _).1, (hx _).2.trans hM2⟩)
    obtain ⟨ys', g4, g5, g6⟩ := windowOnce_eq hn ho (frameAt (fun t => (x t).toReal) hop n j) (by simp)
    have e1 : Y j = ys := Except.ok.inj ((hY j).symm.trans g1)
    have e2 : Y' j = ys' := Except.ok.inj ((hY' j).symm.trans g4)
    rw [e1, e2]
    simp only [frameAt_length] at g2 g3
    refine ⟨fun hi => ?_, fun hi => ⟨List.getElem?_eq_none (by omega), List.getElem?_eq_none (by omega)⟩⟩
    obtain ⟨y, q1, q2, q3⟩ := g3 _ hi
    rw [frameAt_getElem, cover_sum hj] at q3
    refine ⟨y, shape kind n ((t - j * hop : ℕ) : ℝ) * (x t).toReal, q1, ?_, ⟨q2, q3⟩, ?_⟩
    · rw [g6, C55_values b kind n hn o ho _ hi, frameAt_get?, if_pos hi, cover_sum hj]; rfl
    · rw [abs_mul]
      exact mul_le_of_le_one_left hX0 (abs_shape_le h2 hi)
  have hk8 : (k + 52 + 2 * F) * f.u ≤ 1 := by nlinarith
  have he0 : 0 ≤ e := by positivity
  have huB : f.u * B = 2 * F * f.u * X + 4 * F * f.u * f.tiny := by rw [hBdef]; ring
  have h4 : 4 * F * f.u * f.tiny ≤ f.tiny := by
    have : 4 * F * f.u ≤ 1 := by nlinarith
    nlinarith
  have hδ : e + f.u * B + f.tiny ≤ (k + 52 + 2 * F) * f.u * X + 3 * f.tiny := by
    rw [huB, he]; nlinarith
  have hδ' : (k + 52 + 2 * F) * f.u * X ≤ X := mul_le_of_le_one_left hX0 hk8
  have main := overlap_approx (B := B) h2 hF hX0 he0 (by positivity) ?_ ?_ key
  · rw [hz t, hz' t]
    exact main.le (mul_le_mul_of_nonneg_left hδ (by positivity))
  · rw [hBdef]
    nlinarith
  · refine le_trans ?_ hM
    rw [hBdef]
    have : X + 2 * f.tiny ≤ M + 2 * f.tiny := by linarith
    exact mul_le_mul_of_nonneg_left this (by positivity)

/-- **C121.** The same with the window applied twice to every frame, before and after processing. -/
theorem C121_float_twice [Target] (hf : f.Ordinary) (hL : AccurateCos L k) (hk0 : 0 ≤ k) {F : ℕ} (hk : (k + 120 + 2 * F) * f.u ≤ 1 / 8)
    (b : Build) (kind : WindowKind) (n hop : ℕ) (h2 : 2 ≤ n) (hn : n < usizeMod) (hF : n ≤ F * hop) (x z : ℕ → Fl L) (M : ℝ)
    (hx : ∀ t, (x t).Finite ∧ |(x t).toReal| ≤ M) (hM : 4 * F * (M + 2 * f.tiny) ≤ 2 ^ f.emax)
    (h : OverlapAdds (windowTwice b kind) n hop x z) (z' : ℕ → ℝ)
    (h' : OverlapAdds (windowTwice b kind) n hop (fun t => (x t).toReal) z') (t : ℕ) :
    (z t).Finite ∧ |(z t).toReal - z' t| ≤ F * ((17 / 8 * (k + 52) + 2 * F) * f.u * |(x t).toReal| + 5 * f.tiny) := by
  have hu := f.u_pos
  have htn := f.tiny_pos
  have hM0 : 0 ≤ M := (abs_nonneg _).trans (hx 0).2
  have hF1 : 1 ≤ F := by
    rcases Nat.eq_zero_or_pos F with h0 | h0
    · subst h0; omega
    · exact h0
  have hF1' : (1 : ℝ) ≤ F := by exact_mod_cast hF1
  have hem : (2 : ℝ) ^ f.emax = 2 * 2 ^ (f.emax - 1) := by
    rw [← zpow_one_add₀ (by norm_num)]; congr 1; ring
  have hM2 : 2 * (M + 2 * f.tiny) ≤ 2 ^ (f.emax - 1) := by
    have : M + 2 * f.tiny ≤ F * (M + 2 * f.tiny) := le_mul_of_one_le_left (by positivity) hF1'
    linarith
  obtain ⟨o, ho⟩ := (C55_exactly_size_items (T := ℝ) b kind n hn).1
  obtain ⟨Y, hY, hz⟩ := h
  obtain ⟨Y', hY', hz'⟩ := h'
  set X := |(x t).toReal| with hXdef
  have hX0 : 0 ≤ X := abs_nonneg _
  have hXM : X ≤ M := (hx t).2
  obtain ⟨c, hc⟩ : ∃ c, c = (k + 52) * f.u := ⟨_, rfl⟩
  have hc0 : 0 ≤ c := by rw [hc]; positivity
  have hc8 : c ≤ 1 / 8 := by rw [hc]; nlinarith
  set e := 17 / 8 * (c * X + f.tiny) with he
  set B := 2 * F * (X + 4 * f.tiny) with hBdef
  have key : ∀ j ≤ t / hop, (t - j * hop < n → ∃ v w, (Y j)[t - j * hop]? = some v ∧ (Y' j)[t - j * hop]? = some w ∧
      Approx v w e ∧ |w| ≤ X) ∧ (¬ t - j * hop < n → (Y j)[t - j * hop]? = none ∧ (Y' j)[t - j * hop]? = none) := by
    intro j hj
    obtain ⟨ys, g1, g2, g3⟩ := C97_apply hf hL hk0 (by nlinarith) b kind (frameAt x hop n j) (by simpa using h2) (by simpa using hn)
      (fun v hv => by
        obtain ⟨i, -, rfl⟩ := List.mem_map.mp hv
        exact ⟨(hx _).1, (hx _).2.trans (by linarith)⟩)
    simp only [frameAt_length] at g2 g3
    have g3' : ∀ i (hi : i < n), ∃ y, ys[i]? = some y ∧ y.Finite ∧
        |y.toReal - shape kind n (i : ℝ) * (x (j * hop + i)).toReal| ≤ c * |(x (j * hop + i)).toReal| + f.tiny := by
      intro i hi
      obtain ⟨y, q1, q2, q3⟩ := g3 i hi
      rw [frameAt_getElem] at q3
      exact ⟨y, q1, q2, by rw [hc]; exact q3⟩
    have hysn : n = ys.length := g2.symm
    have hfin : ∀ v ∈ ys, v.Finite ∧ |v.toReal| ≤ 2 ^ (f.emax - 1) := by
      intro v hv
      obtain ⟨i, hi, rfl⟩ := List.getElem_of_mem hv
      obtain ⟨y, q1, q2, q3⟩ := g3' i (by omega)
      rw [List.getElem?_eq_getElem hi] at q1
      obtain rfl := Option.some.inj q1
      refine ⟨q2, ?_⟩
      have r1 := abs_sub_abs_le_abs_sub (ys[i]).toReal (shape kind n (i : ℝ) * (x (j * hop + i)).toReal)
      have r2 : |shape kind n (i : ℝ) * (x (j * hop + i)).toReal| ≤ |(x (j * hop + i)).toReal| := by
        rw [abs_mul]; exact mul_le_of_le_one_left (abs_nonneg _) (abs_shape_le h2 (by omega))
      have r3 := (hx (j * hop + i)).2
      nlinarith [abs_nonneg (x (j * hop + i)).toReal]
    obtain ⟨zs, g4, g5, g6⟩ := C97_apply hf hL hk0 (by nlinarith) b kind ys (by omega) (by omega) hfin
    obtain ⟨ws, g7, g8, g9⟩ := windowOnce_eq hn ho (frameAt (fun t => (x t).toReal) hop n j) (by simp)
    obtain ⟨vs, g10, g11, g12⟩ := windowOnce_eq hn ho ws (by simpa using g8)
    have e1 : Y j = zs := by
      have := hY j
      unfold windowTwice at this
      rw [show applyWindow b (frameAt x hop n j) (.shaped kind) = .ok ys from g1] at this
      exact Except.ok.inj (this.symm.trans g4)
    have e2 : Y' j = vs := by
      have := hY' j
      unfold windowTwice at this
      rw [show applyWindow b (frameAt (fun t => (x t).toReal) hop n j) (.shaped kind) = .ok ws from g7] at this
      exact Except.ok.inj (this.symm.trans g10)
    rw [e1, e2]
    refine ⟨fun hi => ?_, fun hi => ⟨List.getElem?_eq_none (by omega), List.getElem?_eq_none (by omega)⟩⟩
    obtain ⟨y, q1, q2, q3⟩ := g3' _ hi
    rw [cover_sum hj] at q3
    obtain ⟨v, p1, p2, p3⟩ := g6 (t - j * hop) (by omega)
    have hyv : ys[t - j * hop]'(by omega) = y := by
      have := List.getElem?_eq_getElem (l := ys) (i := t - j * hop) (by omega)
      rw [q1] at this
      exact (Option.some.inj this).symm
    rw [hyv, ← hysn, ← hc] at p3
    set S := shape kind n ((t - j * hop : ℕ) : ℝ) with hS
    have hS1 : |S| ≤ 1 := abs_shape_le h2 hi
    refine ⟨v, S * (S * (x t).toReal), p1, ?_, ⟨p2, ?_⟩, ?_⟩
    · rw [g12, C55_values b kind n hn o ho _ hi, g9, C55_values b kind n hn o ho _ hi, frameAt_get?, if_pos hi, cover_sum hj]; rfl
    · have r1 : |y.toReal| ≤ X + (c * X + f.tiny) := by
        have := abs_sub_abs_le_abs_sub y.toReal (S * (x t).toReal)
        have r2 : |S * (x t).toReal| ≤ X := by rw [abs_mul]; exact mul_le_of_le_one_left hX0 hS1
        linarith
      have r3 : |S * y.toReal - S * (S * (x t).toReal)| ≤ c * X + f.tiny := by
        rw [← mul_sub, abs_mul]
        exact (mul_le_of_le_one_left (abs_nonneg _) hS1).trans q3
      have r4 := mul_le_mul_of_nonneg_left r1 hc0
      have r5 : c * (c * X + f.tiny) ≤ 1 / 8 * (c * X + f.tiny) := mul_le_mul_of_nonneg_right hc8 (by positivity)
      rw [show v.toReal - S * (S * (x t).toReal) = (v.toReal - S * y.toReal) + (S * y.toReal - S * (S * (x t).toReal)) by ring]
      refine (abs_add_le _ _).trans ?_
      rw [he]
      linarith
    · rw [abs_mul, abs_mul]
      exact (mul_le_of_le_one_left (by positivity) hS1).trans (mul_le_of_le_one_left hX0 hS1)
  have he0 : 0 ≤ e := by positivity
  have huB : f.u * B = 2 * F * f.u * X + 8 * F * f.u * f.tiny := by rw [hBdef]; ring
  have hFu : 2 * F * f.u ≤ 1 / 8 := by nlinarith
  have h4 : 8 * F * f.u * f.tiny ≤ 1 / 2 * f.tiny := mul_le_mul_of_nonneg_right (by linarith) htn.le
  have h5 : 2 * F * f.u * X ≤ 1 / 8 * X := mul_le_mul_of_nonneg_right hFu hX0
  have h6 : c * X ≤ 1 / 8 * X := mul_le_mul_of_nonneg_right hc8 hX0
  have main := overlap_approx (B := B) h2 hF hX0 he0 (by positivity) ?_ ?_ key
  · rw [hz t, hz' t]
    refine main.le (mul_le_mul_of_nonneg_left ?_ (by positivity))
    rw [huB, he, hc]
    linarith
  · rw [show B = F * (2 * (X + 4 * f.tiny)) by rw [hBdef]; ring]
    refine mul_le_mul_of_nonneg_left ?_ (by positivity)
    rw [show f.u * (F * (2 * (X + 4 * f.tiny))) = f.u * B by rw [hBdef]; ring, huB, he]
    linarith
  · refine le_trans ?_ hM
    rw [hBdef]
    have : (F : ℝ) * (X + 4 * f.tiny) ≤ F * (2 * (M + 2 * f.tiny)) := mul_le_mul_of_nonneg_left (by linarith) (by positivity)
    linarith

/-- **C121.** Hann frames of `R m + 1` points every `m` samples give back the signal, `R / 2` times as loud, up to rounding. -/
theorem C121_hann [Target] (hf : f.Ordinary) (hL : AccurateCos L k) (hk0 : 0 ≤ k) {R : ℕ} (hR : 2 ≤ R)
    (hk : (k + 122 + 2 * R) * f.u ≤ 1 / 8) (b : Build) (m : ℕ) (hm : 1 ≤ m) (hn : R * m + 1 < usizeMod) (x z : ℕ → Fl L) (M : ℝ)
    (hx : ∀ t, (x t).Finite ∧ |(x t).toReal| ≤ M) (hM : 2 * (R + 1) * (M + 2 * f.tiny) ≤ 2 ^ f.emax)
    (h : OverlapAdds (windowOnce b .hann) (R * m + 1) m x z) (t : ℕ) (ht : R * m ≤ t) :
    (z t).Finite ∧ |(z t).toReal - R / 2 * (x t).toReal| ≤ (R + 1) * ((k + 54 + 2 * R) * f.u * |(x t).toReal| + 3 * f.tiny) := by
  obtain ⟨z', hz', -⟩ := (C121_total b .hann (R * m + 1) m hn (fun t => (x t).toReal)).1
  obtain ⟨o, ho⟩ := (C55_exactly_size_items (T := ℝ) b .hann (R * m + 1) hn).1
  have h1 : 2 * 1 ≤ R * m := Nat.mul_le_mul hR hm
  obtain ⟨g1, g2⟩ := C121_float hf hL hk0 (F := R + 1) (by push_cast; linarith) b .hann (R * m + 1) m (by omega) hn
    (by rw [add_mul, one_mul]; omega) x z M hx (by push_cast; exact hM) h z' hz' t
  rw [(C121_gain hn ho t).1 hz', (C121_constant hm hn ht).1 hR ho] at g2
  refine ⟨g1, g2.trans (le_of_eq ?_)⟩
  push_cast
  ring

/-- **C121.** Hann frames of `R m + 1` points every `m` samples, windowed before and after processing, give back the signal,
`3 R / 8` times as loud, up to rounding. -/
theorem C121_hann_twice [Target] (hf : f.Ordinary) (hL : AccurateCos L k) (hk0 : 0 ≤ k) {R : ℕ} (hR : 3 ≤ R)
    (hk : (k + 122 + 2 * R) * f.u ≤ 1 / 8) (b : Build) (m : ℕ) (hm : 1 ≤ m) (hn : R * m + 1 < usizeMod) (x z : ℕ → Fl L) (M : ℝ)
    (hx : ∀ t, (x t).Finite ∧ |(x t).toReal| ≤ M) (hM : 4 * (R + 1) * (M + 2 * f.tiny) ≤ 2 ^ f.emax)
    (h : OverlapAdds (windowTwice b .hann) (R * m + 1) m x z) (t : ℕ) (ht : R * m ≤ t) :
    (z t).Finite ∧ |(z t).toReal - 3 * R / 8 * (x t).toReal| ≤
      (R + 1) * ((17 / 8 * (k + 52) + 2 * R + 2) * f.u * |(x t).toReal| + 5 * f.tiny) := by
  obtain ⟨z', hz', -⟩ := (C121_total b .hann (R * m + 1) m hn (fun t => (x t).toReal)).2
  obtain ⟨o, ho⟩ := (C55_exactly_size_items (T := ℝ) b .hann (R * m + 1) hn).1
  have h1 : 3 * 1 ≤ R * m := Nat.mul_le_mul hR hm
  obtain ⟨g1, g2⟩ := C121_float_twice hf hL hk0 (F := R + 1) (by push_cast; linarith) b .hann (R * m + 1) m (by omega) hn
    (by rw [add_mul, one_mul]; omega) x z M hx (by push_cast; exact hM) h z' hz' t
  rw [(C121_gain hn ho t).2 hz', (C121_squares hm hn ht).1 hR ho] at g2
  refine ⟨g1, ?_⟩
  rw [show (3 * R / 8 : ℝ) = 0.375 * R by norm_num; ring]
  refine g2.trans (le_of_eq ?_)
  push_cast
  ring

/-- **C121.** In f32, half-overlapped Hann frames of any odd size give back a signal in `[-1, 1]` to within `1.08e-5`. -/
theorem C121_f32 [Target] {L : Libm binary32} (hL : AccurateCos L 2) (b : Build) (m : ℕ) (hm : 1 ≤ m) (hn : 2 * m + 1 < usizeMod)
    (x z : ℕ → Fl L) (hx : ∀ t, (x t).Finite ∧ |(x t).toReal| ≤ 1) (h : OverlapAdds (windowOnce b .hann) (2 * m + 1) m x z) (t : ℕ)
    (ht : 2 * m ≤ t) : (z t).Finite ∧ |(z t).toReal - (x t).toReal| ≤ 1.08e-5 := by
  have hu : binary32.u = 1 / 2 ^ 24 := by simp [Fmt.u, binary32]
  have htn := binary32_ordinary.tiny_le
  rw [hu] at htn
  have hem : (2 : ℝ) ^ (7 : ℤ) ≤ 2 ^ binary32.emax := zpow_le_zpow_right₀ (by norm_num) (by decide)
  obtain ⟨g1, g2⟩ := C121_hann binary32_ordinary hL (by norm_num) (R := 2) le_rfl (by rw [hu]; norm_num) b m hm hn x z 1 hx
    (by norm_num at hem ⊢; linarith) h t ht
  refine ⟨g1, ?_⟩
  rw [hu] at g2
  norm_num at g2 ⊢
  have := (hx t).2
  norm_num at htn
  linarith

/-- **C121.** In f64, to within `2.01e-14`. -/
theorem C121_f64 [Target] {L : Libm binary64} (hL : AccurateCos L 2) (b : Build) (m : ℕ) (hm : 1 ≤ m) (hn : 2 * m + 1 < usizeMod)
    (x z : ℕ → Fl L) (hx : ∀ t, (x t).Finite ∧ |(x t).toReal| ≤ 1) (h : OverlapAdds (windowOnce b .hann) (2 * m + 1) m x z) (t : ℕ)
    (ht : 2 * m ≤ t) : (z t).Finite ∧ |(z t).toReal - (x t).toReal| ≤ 2.01e-14 := by
  have hu : binary64.u = 1 / 2 ^ 53 := by simp [Fmt.u, binary64]
  have htn := binary64_ordinary.tiny_le
  rw [hu] at htn
  have hem : (2 : ℝ) ^ (7 : ℤ) ≤ 2 ^ binary64.emax := zpow_le_zpow_right₀ (by norm_num) (by decide)
  obtain ⟨g1, g2⟩ := C121_hann binary64_ordinary hL (by norm_num) (R := 2) le_rfl (by rw [hu]; norm_num) b m hm hn x z 1 hx
    (by norm_num at hem ⊢; linarith) h t ht
  refine ⟨g1, ?_⟩
  rw [hu] at g2
  norm_num at g2 ⊢
  have := (hx t).2
  norm_num at htn
  linarith

/-- The assumptions hold of a constant signal under a correctly rounded cosine. -/
example [Target] (b : Build) : AccurateCos (Libm.roundedCos binary32) 2 ∧ ∃ z : ℕ → Fl (Libm.roundedCos binary32),
    (∀ _t : ℕ, (one : Fl (Libm.roundedCos binary32)).Finite ∧ |(one : Fl (Libm.roundedCos binary32)).toReal| ≤ 1) ∧
    OverlapAdds (windowOnce b .hann) (2 * 2 + 1) 2 (fun _ => one) z :=
  ⟨Libm.roundedCos_accurate binary32_ordinary, by
    obtain ⟨z, hz, -⟩ := (C121_total b .hann (2 * 2 + 1) 2 (by have := target; omega) (fun _ => (one : Fl (Libm.roundedCos binary32)))).1
    exact ⟨z, fun _ => ⟨one_finite, by simp⟩, hz⟩⟩

end float
end Rasp
