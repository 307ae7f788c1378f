import Verif.Model.Derive
import Verif.Props.Windows

/-!
# C136: comparing, copying and printing windows
-/

namespace Rasp

theorem Window.eq_iff (w v : Window) : w.eq v = true ↔ w = v := by
  rcases w with _ | w <;> rcases v with _ | v <;> (try cases w) <;> (try cases v) <;> simp [Window.eq, Window.discriminant]

/-- The first two values of the windows of four samples. -/
noncomputable def fourPoint : Window → ℝ × ℝ
  | .rectangular => (1, 1)
  | .shaped .triangular => (0.25, 0.75)
  | .shaped .bartlett => (0, 2 / 3)
  | .shaped .hann => (0, 0.75)
  | .shaped .hamming => (0.08, 0.77)
  | .shaped .blackman => (0, 0.63)
  | .shaped .blackmanHarris => (0.00006, 0.520575)

theorem fourPoint_injective {w v : Window} (h : fourPoint w = fourPoint v) : w = v := by
  rcases w with _ | w <;> rcases v with _ | v <;> (try cases w) <;> (try cases v) <;>
    first | rfl | (exfalso; simp only [fourPoint, Prod.mk.injEq] at h; norm_num at h)

theorem shape_four (k : WindowKind) : (shape k 4 0, shape k 4 1) = fourPoint (.shaped k) := by
  have c1 : Real.cos (2 * Real.pi * 1 / (4 - 1)) = -1 / 2 := by
    rw [show 2 * Real.pi * 1 / (4 - 1) = Real.pi - Real.pi / 3 by ring, Real.cos_pi_sub, Real.cos_pi_div_three]; norm_num
  have c2 : Real.cos (2 * (2 * Real.pi * 1 / (4 - 1))) = -1 / 2 := by rw [Real.cos_two_mul, c1]; norm_num
  have c3 : Real.cos (3 * (2 * Real.pi * 1 / (4 - 1))) = 1 := by rw [Real.cos_three_mul, c1]; norm_num
  cases k <;> simp only [shape, fourPoint, c1, c2, c3] <;> norm_num [abs_of_nonneg, abs_of_neg, abs_div]

theorem applyWindow_four [Target] (b : Build) (w : Window) :
    ∃ ys, applyWindow b [(1 : ℝ), 1, 1, 1] w = .ok ys ∧ ys[0]? = some (fourPoint w).1 ∧ ys[1]? = some (fourPoint w).2 := by
  have hn : [(1 : ℝ), 1, 1, 1].length < usizeMod := by have := target; simp only [List.length_cons, List.length_nil]; omega
  rcases w with _ | k
  · exact ⟨_, rfl, rfl, rfl⟩
  · obtain ⟨o, ho⟩ := (C55_exactly_size_items (T := ℝ) b k _ hn).1
    obtain ⟨ys, h1, -, h4⟩ := C57_pointwise b k [(1 : ℝ), 1, 1, 1] hn o ho
    refine ⟨ys, h1, ?_, ?_⟩
    · obtain ⟨g, hg, hy⟩ := h4 0 (by simp)
      rw [C55_values b k _ hn o ho 0 (by simp)] at hg
      rw [hy, ← Option.some.inj hg, ← shape_four]
      simp [real_mul]
    · obtain ⟨g, hg, hy⟩ := h4 1 (by simp)
      rw [C55_values b k _ hn o ho 1 (by simp)] at hg
      rw [hy, ← Option.some.inj hg, ← shape_four]
      simp [real_mul]

/-- **C136**. `==` on windows says whether they do the same to every slice, in exact arithmetic. -/
theorem C136_eq [Target] (b : Build) (w v : Window) : w.eq v = true ↔ ∀ xs : List ℝ, applyWindow b xs w = applyWindow b xs v := by
  rw [Window.eq_iff]
  constructor
  · rintro rfl _; rfl
  · intro h
    obtain ⟨ys, h1, h2, h3⟩ := applyWindow_four b w
    obtain ⟨zs, g1, g2, g3⟩ := applyWindow_four b v
    rw [h, g1] at h1
    obtain rfl := Except.ok.inj h1
    exact fourPoint_injective (Prod.ext (Option.some.inj (h2.symm.trans g2)) (Option.some.inj (h3.symm.trans g3)))

/-- **C136**. `==` is an equivalence (what `Eq` promises), `!=` its opposite, a clone is `==` to the original and does the same to every slice in
any arithmetic, and windows that print alike are `==`. -/
theorem C136_laws [Target] (w v u : Window) : w.eq w = true ∧ (w.eq v = true → v.eq w = true) ∧ (w.eq v = true → v.eq u = true → w.eq u = true) ∧
    (w.ne v = true ↔ ¬ w.eq v = true) ∧ w.clone.eq w = true ∧
    (∀ (T : Type) [FloatOps T] (b : Build) (xs : List T), applyWindow b xs w.clone = applyWindow b xs w) ∧ (w.fmt = v.fmt ↔ w.eq v = true) := by
  simp only [Window.eq_iff, Window.ne, Bool.not_eq_true', Bool.eq_false_iff, Window.clone]
  refine ⟨trivial, Eq.symm, fun a c => a.trans c, by rw [Ne, Window.eq_iff], trivial, fun _ _ _ _ => trivial, ?_, fun h => h ▸ rfl⟩
  intro h
  rcases w with _ | w <;> rcases v with _ | v <;> (try cases w) <;> (try cases v) <;> first | rfl | (exfalso; revert h; decide)

/-- `Hann` and `Hamming` are not `==`, print differently, and differ on four ones. -/
example [Target] (b : Build) : (Window.shaped .hann).eq (.shaped .hamming) = false ∧ (Window.shaped .hann).fmt ≠ (Window.shaped .hamming).fmt ∧
    ∃ xs : List ℝ, applyWindow b xs (.shaped .hann) ≠ applyWindow b xs (.shaped .hamming) := by
  have h : ¬ ∀ xs : List ℝ, applyWindow b xs (.shaped .hann) = applyWindow b xs (.shaped .hamming) := by
    rw [← C136_eq]; decide
  exact ⟨by decide, by decide, by simpa using h⟩

end Rasp
