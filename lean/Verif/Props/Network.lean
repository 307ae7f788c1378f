import Verif.Props.Feedback
import Verif.Props.CombFloat
import Verif.Lemmas.LoopGain
import Verif.Spec.Network
import Mathlib.LinearAlgebra.UnitaryGroup

/-!
# C137: feedback delay networks
-/

namespace Rasp
open Finset FloatOps

section equation
variable {T : Type} [FloatOps T] {b : Build} {N : ℕ}

theorem network_exists [Target] {s : Fin N → Delay T} {d : Fin N → ℕ} (hs : ∀ i, (s i).Inv ∧ (s i).Eff (d i))
    (f : ℕ → (Fin N → T) → (Fin N → T) → Fin N → T) (x : Fin N → ℕ → T) : ∃ u v r, Network b f s x u v r := by
  have step : ∀ (i : Fin N) (t : Delay T), t.Inv ∧ t.Eff (d i) → ∃ w, t.nextOut = .ok w ∧
      ∀ z, ∃ t' y, Processor.process b t z = .ok (t', y) ∧ t'.Inv ∧ t'.Eff (d i) := by
    rintro i t ⟨ht, he⟩
    obtain ⟨y, hy, -⟩ := Delay.nextOut_spec ht he
    refine ⟨y, hy, fun z => ?_⟩
    obtain ⟨s', r, hp, hi, hee, -⟩ := Delay.process_spec (b := b) ht he z
    exact ⟨s', r, hp, hi, hee⟩
  have : Nonempty T := ⟨zero⟩
  have : ∀ i : Fin N, Nonempty (Delay T) := fun i => ⟨s i⟩
  choose! w hn s' y hpr hg using step
  let W : (Fin N → Delay T) → Fin N → T := fun t i => w i (t i)
  let S : ℕ → Fin N → Delay T := fun n => Nat.rec s (fun k t i => s' i (t i) (f k (fun j => x j k) (W t) i)) n
  have key : ∀ n i, (S n i).Inv ∧ (S n i).Eff (d i) := by
    intro n
    induction n with
    | zero => exact hs
    | succ n ih => exact fun i => hg i _ (ih i) _
  exact ⟨fun i n => f n (fun j => x j n) (W (S n)) i, fun i n => W (S n) i, fun i n => y i (S n i) (f n (fun j => x j n) (W (S n)) i), S, rfl,
    fun n i => ⟨hn i _ (key n i), rfl, hpr i _ (key n i) _⟩⟩

theorem network_iff [Target] {s : Fin N → Delay T} {f : ℕ → (Fin N → T) → (Fin N → T) → Fin N → T} {x u v r : Fin N → ℕ → T} :
    Network b f s x u v r ↔ (∀ i, FeedbackLoop b Delay.announce (fun a _ => a) (s i) (u i) (u i) (v i) (r i)) ∧
      ∀ n i, u i n = f n (fun j => x j n) (fun j => v j n) i := by
  constructor
  · rintro ⟨st, h0, h⟩
    refine ⟨fun i => ⟨fun n => st n i, fun n => st n i, congrFun h0 i, fun n => ⟨?_, rfl, (h n i).2.2⟩⟩, fun n i => (h n i).2.1⟩
    unfold Delay.announce
    rw [(h n i).1]; rfl
  · rintro ⟨h, hf⟩
    choose st mid h0 hs using h
    have hm : ∀ n i, (st i n).nextOut = .ok (v i n) ∧ mid i n = st i n := by
      intro n i
      have h1 := (hs i n).1
      unfold Delay.announce at h1
      simp only [Res.bind_ok] at h1
      obtain ⟨y, hy, e⟩ := h1
      obtain ⟨e1, e2⟩ := Prod.mk.inj (Except.ok.inj e)
      exact ⟨e2 ▸ hy, e1.symm⟩
    refine ⟨fun n i => st i n, funext h0, fun n i => ⟨(hm n i).1, hf n i, ?_⟩⟩
    have := (hs i n).2.2
    rwa [(hm n i).2] at this

/-- **C137**. New `Delay`s of lengths `d i ≥ 1` whose outputs are mixed in any way that may depend on the round, in any arithmetic: the network runs
forever, and its streams are exactly those with `v i` the stream `u i`, `d i` rounds ago. -/
theorem C137_equation [Target] {d m : Fin N → ℕ} (hm : ∀ i, Allocatable T (m i)) (hd : ∀ i, 1 ≤ d i) (hdm : ∀ i, d i ≤ m i)
    (f : ℕ → (Fin N → T) → (Fin N → T) → Fin N → T) (x : Fin N → ℕ → T) :
    ∃ s : Fin N → Delay T, (∀ i, Delay.new b (d i) (m i) = .ok (s i)) ∧ (∃ u v r, Network b f s x u v r) ∧
      ∀ u v r, Network b f s x u v r ↔ (∀ i, v i = lag (u i) (d i)) ∧ (∀ n i, u i n = f n (fun j => x j n) (fun j => v j n) i) ∧ r = v := by
  have hn := fun i => Delay.new_spec (b := b) (d := d i) (hm i)
  choose s hn hi he hrest using hn
  refine ⟨s, hn, network_exists (fun i => ⟨hi i, he i⟩) f x, fun u v r => ?_⟩
  have key : ∀ i, FeedbackLoop b Delay.announce (fun a _ => a) (s i) (u i) (u i) (v i) (r i) ↔ v i = lag (u i) (d i) ∧ r i = v i := by
    intro i
    obtain ⟨s', hn', -, hiff⟩ := C92_delay (b := b) (d := d i) (hm i) (fun a _ => a) (u i)
    obtain rfl := Except.ok.inj ((hn i).symm.trans hn')
    have e : min (d i) (m i) = d i := min_eq_left (hdm i)
    have h0 : d i ≠ 0 := by have := hd i; omega
    rw [hiff, e, if_neg h0]
    constructor
    · intro h
      have hv : v i = lag (u i) (d i) := funext fun n => (h n).1
      exact ⟨hv, by rw [hv]; exact funext fun n => (h n).2.2⟩
    · rintro ⟨h1, h2⟩ n
      rw [h2, h1]; exact ⟨rfl, rfl, rfl⟩
  rw [network_iff]
  simp only [key]
  exact ⟨fun ⟨h1, h2⟩ => ⟨fun i => (h1 i).1, h2, funext fun i => (h1 i).2⟩, fun ⟨h1, h2, h3⟩ => ⟨fun i => ⟨h1 i, congrFun h3 i⟩, h2⟩⟩

end equation

/-! ## Energy -/

section energy
variable {N : ℕ} {d : Fin N → ℕ} {u x : Fin N → ℕ → ℝ} {g : ℝ}

theorem lag_self (u : ℕ → ℝ) (n : ℕ) : lag u 0 n = u n := by simp [lag]

/-- What goes in and what comes out. -/
theorem lineEnergy_succ (d : Fin N → ℕ) (u : Fin N → ℕ → ℝ) (n : ℕ) :
    lineEnergy d u (n + 1) = lineEnergy d u n + ∑ i, u i n ^ 2 - ∑ i, lag (u i) (d i) n ^ 2 := by
  unfold lineEnergy
  rw [← sum_add_distrib, ← sum_sub_distrib]
  refine sum_congr rfl fun i _ => ?_
  simp only [lag_succ_succ]
  have h1 := sum_range_succ' (fun k => lag (u i) k n ^ 2) (d i)
  have h2 := sum_range_succ (fun k => lag (u i) k n ^ 2) (d i)
  rw [lag_self] at h1
  linarith

theorem lineEnergy_nonneg (d : Fin N → ℕ) (u : Fin N → ℕ → ℝ) (n : ℕ) : 0 ≤ lineEnergy d u n :=
  sum_nonneg fun _ _ => sum_nonneg fun _ _ => sq_nonneg _

/-- Everything in the lines comes out within `D` rounds. -/
theorem lineEnergy_le_out {D : ℕ} (hD : ∀ i, d i ≤ D) (u : Fin N → ℕ → ℝ) (n : ℕ) :
    lineEnergy d u n ≤ ∑ t ∈ range D, ∑ i, lag (u i) (d i) (n + t) ^ 2 := by
  rw [sum_comm]
  unfold lineEnergy
  refine sum_le_sum fun i _ => ?_
  refine le_trans ?_ (sum_le_sum_of_subset_of_nonneg (range_subset_range.mpr (hD i)) fun _ _ _ => sq_nonneg _)
  rw [← sum_range_reflect]
  refine le_of_eq (sum_congr rfl fun t ht => ?_)
  rw [mem_range] at ht
  unfold lag
  by_cases h : d i - 1 - t + 1 ≤ n
  · rw [if_pos h, if_pos (by omega)]
    congr 2; omega
  · rw [if_neg h, if_neg (by omega)]

theorem lineEnergy_add (d : Fin N → ℕ) (u : Fin N → ℕ → ℝ) (n D : ℕ) :
    lineEnergy d u (n + D) = lineEnergy d u n + ∑ t ∈ range D, (∑ i, u i (n + t) ^ 2 - ∑ i, lag (u i) (d i) (n + t) ^ 2) := by
  induction D with
  | zero => simp
  | succ D ih => rw [← add_assoc, lineEnergy_succ, ih, sum_range_succ]; ring

variable {b : Build} {F : ℕ → (Fin N → ℝ) → Fin N → ℝ}

/-- **C137**. A mixer that keeps energy, as orthogonal matrices do: once the input is over, the energy in the lines never changes. -/
theorem C137_lossless [Target] {m : Fin N → ℕ} (hm : ∀ i, Allocatable ℝ (m i)) (hd : ∀ i, 1 ≤ d i) (hdm : ∀ i, d i ≤ m i) {s : Fin N → Delay ℝ}
    (hs : ∀ i, Delay.new b (d i) (m i) = .ok (s i)) (hF : ∀ n v, ∑ i, F n v i ^ 2 = ∑ i, v i ^ 2) {v r : Fin N → ℕ → ℝ}
    (hn : Network b (fun n x v i => x i + F n v i) s x u v r) {n0 : ℕ} (hx : ∀ i n, n0 ≤ n → x i n = 0) (n : ℕ) (hn0 : n0 ≤ n) :
    lineEnergy d u n = lineEnergy d u n0 := by
  obtain ⟨s', hs', -, hiff⟩ := C137_equation (b := b) hm hd hdm (fun n x v i => x i + F n v i) x
  obtain rfl : s = s' := funext fun i => Except.ok.inj ((hs i).symm.trans (hs' i))
  obtain ⟨hv, hu, -⟩ := (hiff u v r).mp hn
  induction n, hn0 using Nat.le_induction with
  | base => rfl
  | succ n h ih =>
    rw [lineEnergy_succ, ih]
    have e : ∑ i, u i n ^ 2 = ∑ i, lag (u i) (d i) n ^ 2 := by
      simp only [hu n, hx _ n h, zero_add]
      rw [hF]
      exact sum_congr rfl fun i _ => by rw [hv i]
    rw [e]; ring

/-- **C137**. A mixer that keeps at most `g ^ 2` of the energy, and lines of at most `D` samples: once the input is over, every `D` rounds at
most `g ^ 2` of the energy in the lines is left. -/
theorem C137_decay [Target] {m : Fin N → ℕ} (hm : ∀ i, Allocatable ℝ (m i)) (hd : ∀ i, 1 ≤ d i) (hdm : ∀ i, d i ≤ m i) {s : Fin N → Delay ℝ}
    (hs : ∀ i, Delay.new b (d i) (m i) = .ok (s i)) (hF : ∀ n v, ∑ i, F n v i ^ 2 ≤ g ^ 2 * ∑ i, v i ^ 2) (hg : g ^ 2 ≤ 1)
    {v r : Fin N → ℕ → ℝ} (hn : Network b (fun n x v i => x i + F n v i) s x u v r) {n0 D : ℕ} (hD : ∀ i, d i ≤ D)
    (hx : ∀ i n, n0 ≤ n → x i n = 0) (n : ℕ) (hn0 : n0 ≤ n) (k : ℕ) : lineEnergy d u (n + k * D) ≤ (g ^ 2) ^ k * lineEnergy d u n := by
  obtain ⟨s', hs', -, hiff⟩ := C137_equation (b := b) hm hd hdm (fun n x v i => x i + F n v i) x
  obtain rfl : s = s' := funext fun i => Except.ok.inj ((hs i).symm.trans (hs' i))
  obtain ⟨hv, hu, -⟩ := (hiff u v r).mp hn
  have e : ∀ t, n0 ≤ t → ∑ i, u i t ^ 2 ≤ g ^ 2 * ∑ i, lag (u i) (d i) t ^ 2 := by
    intro t ht
    simp only [hu t, hx _ t ht, zero_add]
    refine (hF _ _).trans (le_of_eq ?_)
    congr 1
    exact sum_congr rfl fun i _ => by rw [hv i]
  have one : ∀ t, n0 ≤ t → lineEnergy d u (t + D) ≤ g ^ 2 * lineEnergy d u t := by
    intro t ht
    rw [lineEnergy_add]
    have h1 := lineEnergy_le_out hD u t
    have h2 : ∑ j ∈ range D, (∑ i, u i (t + j) ^ 2 - ∑ i, lag (u i) (d i) (t + j) ^ 2) ≤
        (g ^ 2 - 1) * ∑ j ∈ range D, ∑ i, lag (u i) (d i) (t + j) ^ 2 := by
      rw [mul_sum]
      refine sum_le_sum fun j _ => ?_
      have := e (t + j) (by omega)
      linarith
    nlinarith
  induction k with
  | zero => simp
  | succ k ih =>
    rw [show n + (k + 1) * D = n + k * D + D by ring]
    refine (one _ (by omega)).trans ?_
    rw [pow_succ (g ^ 2) k, mul_comm ((g ^ 2) ^ k), mul_assoc]
    exact mul_le_mul_of_nonneg_left ih (sq_nonneg g)

/-- The root of the energy of `N` streams over the first `M` rounds. -/
noncomputable def jointRoot (M : ℕ) (u : Fin N → ℕ → ℝ) : ℝ := √(∑ i, ∑ n ∈ range M, u i n ^ 2)

theorem jointRoot_sq (M : ℕ) (u : Fin N → ℕ → ℝ) : jointRoot M u ^ 2 = ∑ i, ∑ n ∈ range M, u i n ^ 2 :=
  Real.sq_sqrt (sum_nonneg fun _ _ => sum_nonneg fun _ _ => sq_nonneg _)

theorem jointRoot_eq_norm (M : ℕ) (u : Fin N → ℕ → ℝ) :
    jointRoot M u = ‖(WithLp.toLp 2 fun p : Fin N × Fin M => u p.1 p.2 : EuclideanSpace ℝ (Fin N × Fin M))‖ := by
  rw [EuclideanSpace.norm_eq, jointRoot, Fintype.sum_prod_type]
  simp only [Real.norm_eq_abs, sq_abs]
  congr 1
  exact sum_congr rfl fun i _ => (Fin.sum_univ_eq_sum_range (fun n => u i n ^ 2) M).symm

theorem jointRoot_add (M : ℕ) (x y : Fin N → ℕ → ℝ) : jointRoot M (fun i n => x i n + y i n) ≤ jointRoot M x + jointRoot M y := by
  simp only [jointRoot_eq_norm]
  exact norm_add_le (WithLp.toLp 2 fun p : Fin N × Fin M => x p.1 p.2 : EuclideanSpace ℝ (Fin N × Fin M)) (WithLp.toLp 2 fun p => y p.1 p.2)

/-- **C137**. With `g < 1`, the network never holds more energy than `1 / (1 - g)` squared times that of the input so far. -/
theorem C137_gain [Target] {m : Fin N → ℕ} (hm : ∀ i, Allocatable ℝ (m i)) (hd : ∀ i, 1 ≤ d i) (hdm : ∀ i, d i ≤ m i) {s : Fin N → Delay ℝ}
    (hs : ∀ i, Delay.new b (d i) (m i) = .ok (s i)) (hF : ∀ n v, ∑ i, F n v i ^ 2 ≤ g ^ 2 * ∑ i, v i ^ 2) (hg0 : 0 ≤ g) (hg : g < 1)
    {v r : Fin N → ℕ → ℝ} (hn : Network b (fun n x v i => x i + F n v i) s x u v r) (M : ℕ) :
    ∑ i, ∑ n ∈ range M, u i n ^ 2 ≤ (1 / (1 - g)) ^ 2 * ∑ i, ∑ n ∈ range M, x i n ^ 2 := by
  obtain ⟨s', hs', -, hiff⟩ := C137_equation (b := b) hm hd hdm (fun n x v i => x i + F n v i) x
  obtain rfl : s = s' := funext fun i => Except.ok.inj ((hs i).symm.trans (hs' i))
  obtain ⟨hv, hu, -⟩ := (hiff u v r).mp hn
  have h1 : jointRoot M (fun i n => F n (fun j => v j n) i) ≤ g * jointRoot M u := by
    refine (sq_le_sq₀ (Real.sqrt_nonneg _) (mul_nonneg hg0 (Real.sqrt_nonneg _))).mp ?_
    show jointRoot M _ ^ 2 ≤ (g * jointRoot M u) ^ 2
    rw [mul_pow, jointRoot_sq, jointRoot_sq, sum_comm]
    refine (sum_le_sum fun n _ => hF n fun j => v j n).trans ?_
    rw [← mul_sum, sum_comm]
    refine mul_le_mul_of_nonneg_left (sum_le_sum fun i _ => ?_) (sq_nonneg g)
    rw [hv i, energy_lag]
    exact sum_le_sum_of_subset_of_nonneg (range_subset_range.mpr (Nat.sub_le _ _)) fun _ _ _ => sq_nonneg _
  have h2 : jointRoot M u ≤ jointRoot M x + g * jointRoot M u := by
    have e : u = fun i n => x i n + F n (fun j => v j n) i := by funext i n; exact hu n i
    calc jointRoot M u = jointRoot M fun i n => x i n + F n (fun j => v j n) i := by rw [← e]
      _ ≤ _ := jointRoot_add M x _
      _ ≤ _ := add_le_add le_rfl h1
  have h3 : jointRoot M u ≤ 1 / (1 - g) * jointRoot M x := by
    rw [one_div, ← div_eq_inv_mul, le_div_iff₀ (by linarith)]
    linarith
  rw [← jointRoot_sq, ← jointRoot_sq, ← mul_pow]
  exact pow_le_pow_left₀ (Real.sqrt_nonneg _) h3 2

/-- **C137**. Mixers that keep energy: orthogonal matrices, and the Householder mixer, which subtracts twice the average from every sample. -/
theorem C137_mixers : (∀ A ∈ Matrix.orthogonalGroup (Fin N) ℝ, ∀ v : Fin N → ℝ, ∑ i, (A.mulVec v) i ^ 2 = ∑ i, v i ^ 2) ∧
    ∀ v : Fin N → ℝ, ∑ i, (v i - 2 * ((∑ j, v j) / N)) ^ 2 = ∑ i, v i ^ 2 := by
  refine ⟨fun A hA v => ?_, fun v => ?_⟩
  · have h1 : A.transpose * A = 1 := (Matrix.mem_orthogonalGroup_iff' (Fin N) ℝ).mp hA
    have e : ∀ w : Fin N → ℝ, ∑ i, w i ^ 2 = w ⬝ᵥ w := fun w => sum_congr rfl fun i _ => sq (w i)
    rw [e, e, Matrix.dotProduct_mulVec, ← Matrix.mulVec_transpose, Matrix.mulVec_mulVec, h1, Matrix.one_mulVec]
  · rcases Nat.eq_zero_or_pos N with rfl | hN
    · simp
    · have hN' : (N : ℝ) ≠ 0 := by exact_mod_cast hN.ne'
      have e : ∀ i, (v i - 2 * ((∑ j, v j) / N)) ^ 2 = v i ^ 2 - 4 * ((∑ j, v j) / N) * v i + (2 * ((∑ j, v j) / N)) ^ 2 := fun i => by ring
      simp only [e]
      rw [sum_add_distrib, sum_sub_distrib, ← mul_sum, sum_const, card_univ, Fintype.card_fin, nsmul_eq_mul]
      field_simp
      ring

end energy

/-! ## Echoes in floating point -/

section routing
open Fl
variable {f : Fmt} {L : Libm f} {b : Build} {N : ℕ}

theorem routed_bounded {g X : ℝ} (hg : |g| < 1) {d : Fin N → ℕ} (hd : ∀ i, 1 ≤ d i) {σ : Fin N → Fin N} {x z : Fin N → ℕ → ℝ}
    (hz : ∀ i n, z i n = x i n + g * lag (z (σ i)) (d (σ i)) n) (hX0 : 0 ≤ X) (hx : ∀ i n, |x i n| ≤ X) (n : ℕ) :
    (∀ i, |z i n| ≤ X / (1 - |g|)) ∧ ∀ i, |lag (z i) (d i) n| ≤ X / (1 - |g|) := by
  have h1 : 0 < 1 - |g| := by linarith
  have hB : 0 ≤ X / (1 - |g|) := div_nonneg hX0 h1.le
  induction n using Nat.strong_induction_on with
  | _ n ih =>
    have hl : ∀ i, |lag (z i) (d i) n| ≤ X / (1 - |g|) := by
      intro i
      unfold lag
      split_ifs with h
      · exact (ih (n - d i) (by have := hd i; omega)).1 i
      · rw [real_zero, _root_.abs_zero]; exact hB
    refine ⟨fun i => ?_, hl⟩
    rw [hz i n]
    refine (abs_add_le _ _).trans ?_
    rw [abs_mul]
    have h2 := mul_le_mul_of_nonneg_left (hl (σ i)) (abs_nonneg g)
    have h3 := hx i n
    have h4 : X + |g| * (X / (1 - |g|)) = X / (1 - |g|) := by field_simp; ring
    linarith

/-- **C137**. In floating point: every line is fed its input plus `g` times what line `σ i` announces (with two lines and `σ` exchanging them, a
ping-pong echo). For `|g| ≤ 1 - 2^(4-p)` this runs forever and stays close to the same network in exact arithmetic. -/
theorem C137_echo [Target] {d m : Fin N → ℕ} (hm : ∀ i, Allocatable (Fl L) (m i)) (hd : ∀ i, 1 ≤ d i) (hdm : ∀ i, d i ≤ m i) {g : Fl L}
    (hg : g.Finite) (hg1 : 16 * f.u ≤ 1 - |g.toReal|) {X : ℝ} (hX0 : 0 ≤ X) (hov : (8 * X + 48 * f.tiny) / (1 - |g.toReal|) ≤ 2 ^ f.emax)
    (σ : Fin N → Fin N) {x : Fin N → ℕ → Fl L} (hx : ∀ i n, (x i n).Within X) :
    ∃ s : Fin N → Delay (Fl L), (∀ i, Delay.new b (d i) (m i) = .ok (s i)) ∧
      (∃ u v r, Network b (fun _ x v i => x i +. (g *. v (σ i))) s x u v r) ∧
      ∀ (u v r : Fin N → ℕ → Fl L) (z : Fin N → ℕ → ℝ), Network b (fun _ x v i => x i +. (g *. v (σ i))) s x u v r →
        (∀ i n, z i n = (x i n).toReal + g.toReal * lag (z (σ i)) (d (σ i)) n) → ∀ i, StaysClose (u i) (z i) (combBound f g.toReal X) := by
  obtain ⟨s, hs, he, hiff⟩ := C137_equation (b := b) hm hd hdm (fun _ x v i => x i +. (g *. v (σ i))) x
  refine ⟨s, hs, he, fun u v r z hn hz => ?_⟩
  obtain ⟨hv, hu, -⟩ := (hiff u v r).mp hn
  have hu0 := f.u_pos
  have ht := f.tiny_pos
  have hγ := abs_nonneg g.toReal
  have h1 : 0 < 1 - |g.toReal| := by linarith
  have hb := routed_bounded (g := g.toReal) (by linarith) hd hz hX0 fun i n => (hx i n).2
  have hEn : 0 ≤ combBound f g.toReal X := by unfold combBound; positivity
  have hE : 4 * f.u * ((2 * X + 12 * f.tiny) / (1 - |g.toReal|)) + 3 * f.tiny ≤ (1 - |g.toReal|) * combBound f g.toReal X := by
    unfold combBound
    have e : (1 - |g.toReal|) * (8 * f.u * X / (1 - |g.toReal|) ^ 2 + 6 * f.tiny / (1 - |g.toReal|)) =
        (8 * f.u * X + 6 * f.tiny * (1 - |g.toReal|)) / (1 - |g.toReal|) := by field_simp
    rw [e, show 4 * f.u * ((2 * X + 12 * f.tiny) / (1 - |g.toReal|)) + 3 * f.tiny =
      (4 * f.u * (2 * X + 12 * f.tiny) + 3 * f.tiny * (1 - |g.toReal|)) / (1 - |g.toReal|) by field_simp]
    refine div_le_div_of_nonneg_right ?_ h1.le
    nlinarith
  have hW : X / (1 - |g.toReal|) + combBound f g.toReal X ≤ (2 * X + 12 * f.tiny) / (1 - |g.toReal|) := by
    unfold combBound
    have e : 8 * f.u * X / (1 - |g.toReal|) ^ 2 ≤ X / 2 / (1 - |g.toReal|) := by
      rw [div_le_div_iff₀ (by positivity) h1]
      have := mul_le_mul_of_nonneg_right hg1 (mul_nonneg hX0 h1.le)
      nlinarith
    have e2 : X / (1 - |g.toReal|) + (X / 2 / (1 - |g.toReal|) + 6 * f.tiny / (1 - |g.toReal|)) ≤ (2 * X + 12 * f.tiny) / (1 - |g.toReal|) := by
      rw [← add_div, ← add_div]
      exact div_le_div_of_nonneg_right (by linarith) h1.le
    linarith
  have hη : f.tiny ≤ (2 * X + 12 * f.tiny) / (1 - |g.toReal|) := by
    rw [le_div_iff₀ h1]
    nlinarith
  have hXW : X ≤ (2 * X + 12 * f.tiny) / (1 - |g.toReal|) := by
    rw [le_div_iff₀ h1]
    nlinarith
  have hov' : 4 * ((2 * X + 12 * f.tiny) / (1 - |g.toReal|)) ≤ 2 ^ f.emax := by
    calc 4 * ((2 * X + 12 * f.tiny) / (1 - |g.toReal|)) = (8 * X + 48 * f.tiny) / (1 - |g.toReal|) := by ring
      _ ≤ _ := hov
  have key : ∀ n i, (u i n).Finite ∧ |(u i n).toReal - z i n| ≤ combBound f g.toReal X := by
    intro n
    induction n using Nat.strong_induction_on with
    | _ n ih =>
      intro i
      obtain ⟨v1, v2⟩ := lag_within (u := u (σ i)) (z := z (σ i)) (n := n) hEn (hd (σ i)) fun j hj => ih j hj (σ i)
      have hvW : (lag (u (σ i)) (d (σ i)) n).Within ((2 * X + 12 * f.tiny) / (1 - |g.toReal|)) := by
        refine ⟨v1, ?_⟩
        have := abs_sub_abs_le_abs_sub (lag (u (σ i)) (d (σ i)) n).toReal (lag (z (σ i)) (d (σ i)) n)
        have := (hb n).2 (σ i)
        linarith
      obtain ⟨r1, r2⟩ := comb_round (hx i n) hg hvW hXW hη (by linarith) hov'
      have e0 : u i n = x i n +. (g *. lag (u (σ i)) (d (σ i)) n) := by
        have := hu n i
        beta_reduce at this
        rwa [hv (σ i)] at this
      rw [← e0] at r1 r2
      refine ⟨r1, ?_⟩
      have e : (u i n).toReal - z i n = ((u i n).toReal - ((x i n).toReal + g.toReal * (lag (u (σ i)) (d (σ i)) n).toReal)) +
          g.toReal * ((lag (u (σ i)) (d (σ i)) n).toReal - lag (z (σ i)) (d (σ i)) n) := by
        rw [hz i n]; ring
      rw [e]
      refine (abs_add_le _ _).trans ?_
      rw [abs_mul]
      have := mul_le_mul_of_nonneg_left v2 hγ
      nlinarith
  exact fun i n => key n i

end routing

/-- Two lines of 1 and 2 samples, and the Householder mixer scaled by `g`: after an impulse the lines hold energy 1. -/
example [Target] (g : ℝ) (hm : Allocatable ℝ 4) : (∀ (_ : ℕ) (v : Fin 2 → ℝ), ∑ i, (g * (v i - 2 * ((∑ j, v j) / (2 : ℕ)))) ^ 2 = g ^ 2 * ∑ i, v i ^ 2) ∧
    ∃ s u v r, (∀ i, Delay.new ⟨true⟩ (![1, 2] i) (![4, 4] i) = .ok (s i)) ∧
      Network ⟨true⟩ (fun _ x v i => x i + g * (v i - 2 * ((∑ j, v j) / (2 : ℕ)))) s (fun i n => if i = 0 ∧ n = 0 then (1 : ℝ) else 0) u v r ∧
      lineEnergy ![1, 2] u 1 = 1 := by
  refine ⟨fun _ v => ?_, ?_⟩
  · simp only [mul_pow]
    rw [← mul_sum]
    exact congrArg _ (C137_mixers.2 v)
  · obtain ⟨s, hs, ⟨u, v, r, hn⟩, hiff⟩ := C137_equation (b := ⟨true⟩) (d := ![1, 2]) (m := ![4, 4])
      (fun i => by fin_cases i <;> exact hm) (fun i => by fin_cases i <;> decide) (fun i => by fin_cases i <;> decide)
      (fun _ x v i => x i + g * (v i - 2 * ((∑ j, v j) / (2 : ℕ)))) (fun i n => if i = 0 ∧ n = 0 then (1 : ℝ) else 0)
    refine ⟨s, u, v, r, hs, hn, ?_⟩
    obtain ⟨hv, hu, -⟩ := (hiff u v r).mp hn
    have h0 : ∀ i, v i 0 = 0 := fun i => by rw [hv i]; fin_cases i <;> simp [lag, real_zero]
    have h1 : ∀ i, u i 0 = if i = 0 then 1 else 0 := fun i => by rw [hu 0 i]; simp [h0]
    simp [lineEnergy, Fin.sum_univ_two, lag, h1, real_zero]

/-- A ping-pong echo of half the level, with lines of 700 and 1000 samples. -/
example [Target] (L : Libm binary32) : (∀ i, Allocatable (Fl L) (![700, 1000] i : ℕ)) ∧ ∃ g : Fl L, g.Finite ∧ g.toReal = 1 / 2 ∧
    16 * binary32.u ≤ 1 - |g.toReal| ∧ (8 * 1 + 48 * binary32.tiny) / (1 - |g.toReal|) ≤ 2 ^ binary32.emax ∧ combBound binary32 g.toReal 1 < 1 / 400000 := by
  have hlim : (2 : ℝ) ^ (127 : ℤ) ≤ 2 ^ binary32.emax := le_rfl
  have hl : (1 / 2 : ℝ) < binary32.lim := lt_of_lt_of_le (by norm_num) (hlim.trans (by unfold Fmt.lim; exact (zpow_lt_zpow_right₀ (by norm_num) (by omega)).le))
  have hrep' : IsRep binary32 (1 / 2) := ⟨1, -1, by show |(1 : ℤ)| < 2 ^ 24; norm_num, by show (-149 : ℤ) ≤ -1; norm_num, by norm_num⟩
  obtain ⟨g, h3, h4⟩ := Fl.exists_of_isRep L hrep' (by rw [abs_of_pos (by norm_num)]; exact hl)
  have ht : binary32.tiny ≤ 1 / 2 ^ 100 := by
    unfold Fmt.tiny
    show (2 : ℝ) ^ (-149 : ℤ) ≤ _
    norm_num
  have hu : binary32.u = 1 / 2 ^ 24 := rfl
  have hh : |(1 / 2 : ℝ)| = 1 / 2 := abs_of_pos (by norm_num)
  norm_num at hlim ht
  refine ⟨fun i => ?_, g, h3, h4, ?_, ?_, ?_⟩
  · unfold Allocatable
    have : size (Fl L) = 4 := rfl
    rw [this]; have := target; fin_cases i <;> simp <;> omega
  · rw [h4, hh, hu]; norm_num
  · rw [h4, hh]; norm_num; linarith
  · unfold combBound; rw [h4, hh, hu]; norm_num; linarith

end Rasp
