import Verif.Props.Network

/-!
# C138: bounded inputs and rounding in feedback delay networks
-/

namespace Rasp
open Finset FloatOps

/-! ## What a contracting network makes of bounded perturbations -/

section exact
variable {N D : ℕ} {d : Fin N → ℕ} {g : ℝ}

theorem networkGain_nonneg (hg : g < 1) : 0 ≤ networkGain N D g := div_nonneg (Real.sqrt_nonneg _) (by linarith)

theorem lag_sq_le_lineEnergy (hd : ∀ i, 1 ≤ d i) (u : Fin N → ℕ → ℝ) (n : ℕ) : ∑ i, lag (u i) (d i) n ^ 2 ≤ lineEnergy d u n := by
  refine sum_le_sum fun i _ => ?_
  have := single_le_sum (f := fun k => lag (u i) (k + 1) n ^ 2) (fun _ _ => sq_nonneg _) (mem_range.mpr (show d i - 1 < d i by have := hd i; omega))
  beta_reduce at this
  rwa [show d i - 1 + 1 = d i by have := hd i; omega] at this

theorem lineEnergy_start (d : Fin N → ℕ) (u : Fin N → ℕ → ℝ) : lineEnergy d u 0 = 0 := by
  unfold lineEnergy
  refine sum_eq_zero fun i _ => sum_eq_zero fun k _ => ?_
  rw [lag_succ_zero, real_zero]
  norm_num

/-- Minkowski, over `Fin N × range M`. -/
theorem sum_sq_add_le {M : ℕ} {y z : Fin N → ℕ → ℝ} {A B : ℝ} (hA : 0 ≤ A) (hB : 0 ≤ B) (hy : ∑ i, ∑ n ∈ range M, y i n ^ 2 ≤ A ^ 2)
    (hz : ∑ i, ∑ n ∈ range M, z i n ^ 2 ≤ B ^ 2) : ∑ i, ∑ n ∈ range M, (y i n + z i n) ^ 2 ≤ (A + B) ^ 2 := by
  have h1 : jointRoot M y ≤ A := Real.sqrt_le_iff.mpr ⟨hA, hy⟩
  have h2 : jointRoot M z ≤ B := Real.sqrt_le_iff.mpr ⟨hB, hz⟩
  rw [← jointRoot_sq M fun i n => y i n + z i n]
  exact pow_le_pow_left₀ (Real.sqrt_nonneg _) ((jointRoot_add M y z).trans (add_le_add h1 h2)) 2

/-- `e` is what contracting mixers make of the past of `e`, plus perturbations of at most `ε`. -/
theorem perturbed_energy (hd : ∀ i, 1 ≤ d i) (hD : ∀ i, d i ≤ D) (hg0 : 0 ≤ g) (hg : g < 1) {ε : ℝ} (hε : 0 ≤ ε) {e δ : Fin N → ℕ → ℝ} {n : ℕ}
    (hδ : ∀ t < n, ∀ i, |δ i t| ≤ ε) (hF : ∀ t < n, ∑ i, (e i t - δ i t) ^ 2 ≤ g ^ 2 * ∑ i, lag (e i) (d i) t ^ 2) :
    lineEnergy d e n ≤ (ε * networkGain N D g) ^ 2 := by
  have h1 : 0 < 1 - g := by linarith
  set c : ℝ := ε * √(N * D) with hc
  have hc0 : 0 ≤ c := mul_nonneg hε (Real.sqrt_nonneg _)
  have hK : ε * networkGain N D g = c / (1 - g) := by rw [networkGain, hc]; ring
  rw [hK]
  -- `M ≤ D` rounds from round `t`
  have block : ∀ t M, M ≤ D → t + M ≤ n → ∃ y, 0 ≤ y ∧ y ^ 2 = ∑ j ∈ range M, ∑ i, lag (e i) (d i) (t + j) ^ 2 ∧
      lineEnergy d e (t + M) ≤ lineEnergy d e t + (g * y + c) ^ 2 - y ^ 2 := by
    intro t M hM htM
    have hO : 0 ≤ ∑ j ∈ range M, ∑ i, lag (e i) (d i) (t + j) ^ 2 := sum_nonneg fun _ _ => sum_nonneg fun _ _ => sq_nonneg _
    refine ⟨√(∑ j ∈ range M, ∑ i, lag (e i) (d i) (t + j) ^ 2), Real.sqrt_nonneg _, Real.sq_sqrt hO, ?_⟩
    set y := √(∑ j ∈ range M, ∑ i, lag (e i) (d i) (t + j) ^ 2) with hy
    have hy2 : y ^ 2 = ∑ j ∈ range M, ∑ i, lag (e i) (d i) (t + j) ^ 2 := Real.sq_sqrt hO
    have a1 : ∑ i, ∑ j ∈ range M, (e i (t + j) - δ i (t + j)) ^ 2 ≤ (g * y) ^ 2 := by
      rw [sum_comm, mul_pow, hy2, mul_sum]
      exact sum_le_sum fun j hj => hF _ (by have := mem_range.mp hj; omega)
    have a2 : ∑ i, ∑ j ∈ range M, δ i (t + j) ^ 2 ≤ c ^ 2 := by
      calc ∑ i, ∑ j ∈ range M, δ i (t + j) ^ 2 ≤ ∑ i : Fin N, ∑ j ∈ range M, ε ^ 2 :=
            sum_le_sum fun i _ => sum_le_sum fun j hj => sq_le_sq' (by have := abs_le.mp (hδ (t + j) (by have := mem_range.mp hj; omega) i); linarith)
              (by have := abs_le.mp (hδ (t + j) (by have := mem_range.mp hj; omega) i); linarith)
        _ = N * M * ε ^ 2 := by simp [mul_assoc]
        _ ≤ N * D * ε ^ 2 := by
            have : (M : ℝ) ≤ D := by exact_mod_cast hM
            gcongr
        _ = c ^ 2 := by rw [hc, mul_pow, Real.sq_sqrt (by positivity)]; ring
    have a3 := sum_sq_add_le (mul_nonneg hg0 (Real.sqrt_nonneg _)) hc0 a1 a2
    simp only [sub_add_cancel] at a3
    rw [lineEnergy_add, sum_sub_distrib, ← hy2, sum_comm]
    linarith
  suffices h : ∀ m ≤ n, lineEnergy d e m ≤ (c / (1 - g)) ^ 2 from h n le_rfl
  intro m
  induction m using Nat.strong_induction_on with
  | _ m ih =>
    intro hm
    have hcg : g * (c / (1 - g)) + c = c / (1 - g) := by field_simp; ring
    have hcg0 : 0 ≤ c / (1 - g) := div_nonneg hc0 h1.le
    by_cases hmD : m ≤ D
    · obtain ⟨y, hy0, -, hy⟩ := block 0 m hmD (by omega)
      rw [zero_add, lineEnergy_start, zero_add] at hy
      refine hy.trans ?_
      by_cases hyc : y ≤ c / (1 - g)
      · have : (g * y + c) ^ 2 ≤ (c / (1 - g)) ^ 2 := pow_le_pow_left₀ (by positivity) (by nlinarith) 2
        nlinarith [sq_nonneg y]
      · push Not at hyc
        have : (g * y + c) ^ 2 ≤ y ^ 2 := pow_le_pow_left₀ (by positivity) (by nlinarith) 2
        nlinarith [sq_nonneg (c / (1 - g))]
    · rcases Nat.eq_zero_or_pos D with hD0 | hD0
      · have : N = 0 := by
          by_contra hN
          have h2 := hd ⟨0, Nat.pos_of_ne_zero hN⟩
          have h3 := hD ⟨0, Nat.pos_of_ne_zero hN⟩
          omega
        subst this
        unfold lineEnergy
        rw [univ_eq_empty, sum_empty]
        exact sq_nonneg _
      · obtain ⟨y, hy0, hy2, hy⟩ := block (m - D) D le_rfl (by omega)
        rw [show m - D + D = m by omega] at hy
        have hle := lineEnergy_le_out hD e (m - D)
        rw [← hy2] at hle
        have hm' := ih (m - D) (by omega) (by omega)
        by_cases hyc : y ≤ c / (1 - g)
        · have : (g * y + c) ^ 2 ≤ (c / (1 - g)) ^ 2 := pow_le_pow_left₀ (by positivity) (by nlinarith) 2
          linarith
        · push Not at hyc
          have : (g * y + c) ^ 2 ≤ y ^ 2 := pow_le_pow_left₀ (by positivity) (by nlinarith) 2
          linarith

theorem perturbed_lag (hd : ∀ i, 1 ≤ d i) (hD : ∀ i, d i ≤ D) (hg0 : 0 ≤ g) (hg : g < 1) {ε : ℝ} (hε : 0 ≤ ε) {e δ : Fin N → ℕ → ℝ} {n : ℕ}
    (hδ : ∀ t < n, ∀ i, |δ i t| ≤ ε) (hF : ∀ t < n, ∑ i, (e i t - δ i t) ^ 2 ≤ g ^ 2 * ∑ i, lag (e i) (d i) t ^ 2) (i : Fin N) :
    |lag (e i) (d i) n| ≤ ε * networkGain N D g := by
  refine abs_le_of_sq_le_sq ?_ (mul_nonneg hε (networkGain_nonneg hg))
  refine le_trans ?_ (perturbed_energy hd hD hg0 hg hε hδ hF)
  refine le_trans ?_ (lag_sq_le_lineEnergy hd e n)
  exact single_le_sum (f := fun i => lag (e i) (d i) n ^ 2) (fun _ _ => sq_nonneg _) (mem_univ i)

theorem perturbed_value (hd : ∀ i, 1 ≤ d i) (hD : ∀ i, d i ≤ D) (hg0 : 0 ≤ g) (hg : g < 1) {ε : ℝ} (hε : 0 ≤ ε) {e δ : Fin N → ℕ → ℝ} {n : ℕ}
    (hδ : ∀ t ≤ n, ∀ i, |δ i t| ≤ ε) (hF : ∀ t ≤ n, ∑ i, (e i t - δ i t) ^ 2 ≤ g ^ 2 * ∑ i, lag (e i) (d i) t ^ 2) (i : Fin N) :
    |e i n| ≤ ε * networkGain N D g := by
  refine abs_le_of_sq_le_sq ?_ (mul_nonneg hε (networkGain_nonneg hg))
  refine le_trans ?_ (perturbed_energy (n := n + 1) hd hD hg0 hg hε (fun t ht => hδ t (by omega)) fun t ht => hF t (by omega))
  have h1 := single_le_sum (f := fun k => lag (e i) (k + 1) (n + 1) ^ 2) (fun _ _ => sq_nonneg _) (mem_range.mpr (hd i))
  have h2 := single_le_sum (f := fun i => ∑ k ∈ range (d i), lag (e i) (k + 1) (n + 1) ^ 2) (fun _ _ => sum_nonneg fun _ _ => sq_nonneg _) (mem_univ i)
  beta_reduce at h1 h2
  rw [lag_succ_succ, lag_self] at h1
  exact h1.trans h2

variable {b : Build} {F : ℕ → (Fin N → ℝ) → Fin N → ℝ}

/-- **C138**. Bounded inputs: a mixer that multiplies root energies by at most `g < 1` keeps the network within `√(N D) / (1 - g)` times the
bound of the inputs. -/
theorem C138_bounded [Target] {m : Fin N → ℕ} (hm : ∀ i, Allocatable ℝ (m i)) (hd : ∀ i, 1 ≤ d i) (hdm : ∀ i, d i ≤ m i) {s : Fin N → Delay ℝ}
    (hs : ∀ i, Delay.new b (d i) (m i) = .ok (s i)) (hD : ∀ i, d i ≤ D) (hF : ∀ n v, ∑ i, F n v i ^ 2 ≤ g ^ 2 * ∑ i, v i ^ 2) (hg0 : 0 ≤ g)
    (hg : g < 1) {x u v r : Fin N → ℕ → ℝ} (hn : Network b (fun n x v i => x i + F n v i) s x u v r) {X : ℝ} (hx : ∀ i n, |x i n| ≤ X)
    (i : Fin N) (n : ℕ) : |u i n| ≤ X * networkGain N D g := by
  obtain ⟨s', hs', -, hiff⟩ := C137_equation (b := b) hm hd hdm (fun n x v i => x i + F n v i) x
  obtain rfl : s = s' := funext fun i => Except.ok.inj ((hs i).symm.trans (hs' i))
  obtain ⟨hv, hu, -⟩ := (hiff u v r).mp hn
  refine perturbed_value hd hD hg0 hg ((abs_nonneg _).trans (hx i 0)) (fun t _ j => hx j t) (fun t _ => ?_) i
  simp only [hu t, add_sub_cancel_left]
  refine (hF t _).trans (le_of_eq ?_)
  congr 1
  exact sum_congr rfl fun j _ => by rw [hv j]

end exact

/-! ## Rounding -/

section rounding
open Fl
variable {f : Fmt} {L : Libm f} {b : Build} {N D : ℕ} {d : Fin N → ℕ} {g : ℝ}

theorem toReal_lag (u : ℕ → Fl L) (k n : ℕ) : (lag u k n).toReal = lag (fun n => (u n).toReal) k n := by
  unfold lag
  split_ifs
  · rfl
  · rw [zero_toReal, real_zero]

/-- **C138**. Any floating-point mixing that is off by at most `ε` in a round, for samples up to `(X + ε) √(N D) / (1 - g)`, keeps the network
within `ε √(N D) / (1 - g)` of the exact one, forever, if the exact mixing brings any two states closer by the factor `g < 1`. -/
theorem C138_close [Target] {m : Fin N → ℕ} (hm : ∀ i, Allocatable (Fl L) (m i)) (hd : ∀ i, 1 ≤ d i) (hdm : ∀ i, d i ≤ m i) (hD : ∀ i, d i ≤ D)
    (hg0 : 0 ≤ g) (hg : g < 1) {F : ℕ → (Fin N → ℝ) → Fin N → ℝ} (hF0 : ∀ n i, F n (fun _ => 0) i = 0)
    (hF : ∀ n v w, ∑ i, (F n v i - F n w i) ^ 2 ≤ g ^ 2 * ∑ i, (v i - w i) ^ 2) {c : ℕ → (Fin N → Fl L) → (Fin N → Fl L) → Fin N → Fl L}
    {X ε : ℝ} (hX : 0 ≤ X) (hε : 0 ≤ ε)
    (hc : ∀ n x v, (∀ i, (x i).Within X) → (∀ i, (v i).Within ((X + ε) * networkGain N D g)) →
      ∀ i, (c n x v i).Finite ∧ |(c n x v i).toReal - ((x i).toReal + F n (fun j => (v j).toReal) i)| ≤ ε)
    {x : Fin N → ℕ → Fl L} (hx : ∀ i n, (x i n).Within X) :
    ∃ s : Fin N → Delay (Fl L), (∀ i, Delay.new b (d i) (m i) = .ok (s i)) ∧ (∃ u v r, Network b c s x u v r) ∧
      ∀ (u v r : Fin N → ℕ → Fl L) (z : Fin N → ℕ → ℝ), Network b c s x u v r →
        (∀ i n, z i n = (x i n).toReal + F n (fun j => lag (z j) (d j) n) i) → ∀ i, StaysClose (u i) (z i) (ε * networkGain N D g) := by
  obtain ⟨s, hs, he, hiff⟩ := C137_equation (b := b) hm hd hdm c x
  refine ⟨s, hs, he, fun u v r z hn hz => ?_⟩
  obtain ⟨hv, hu, -⟩ := (hiff u v r).mp hn
  have hFz : ∀ n v, ∑ i, F n v i ^ 2 ≤ g ^ 2 * ∑ i, v i ^ 2 := by
    intro n v
    have := hF n v fun _ => 0
    simpa only [hF0, sub_zero] using this
  have hzl : ∀ n i, |lag (z i) (d i) n| ≤ X * networkGain N D g := by
    intro n i
    refine perturbed_lag (δ := fun i n => (x i n).toReal) hd hD hg0 hg hX (fun t _ j => (hx j t).2) (fun t _ => ?_) i
    simp only [hz _ t, add_sub_cancel_left]
    exact hFz t _
  set e : Fin N → ℕ → ℝ := fun i n => (u i n).toReal - z i n with hee
  set δ : Fin N → ℕ → ℝ := fun i n => (u i n).toReal - ((x i n).toReal + F n (fun j => lag (fun n => (u j n).toReal) (d j) n) i) with hδe
  have hlag : ∀ i n, lag (e i) (d i) n = lag (fun n => (u i n).toReal) (d i) n - lag (z i) (d i) n := by
    intro i n
    unfold lag
    split_ifs
    · rfl
    · simp [real_zero]
  have hFe : ∀ t, ∑ i, (e i t - δ i t) ^ 2 ≤ g ^ 2 * ∑ i, lag (e i) (d i) t ^ 2 := by
    intro t
    have h := hF t (fun j => lag (fun n => (u j n).toReal) (d j) t) fun j => lag (z j) (d j) t
    simp only [hlag]
    refine le_trans (le_of_eq ?_) h
    refine sum_congr rfl fun i _ => ?_
    show ((u i t).toReal - z i t - ((u i t).toReal - _)) ^ 2 = _
    rw [hz i t]; ring
  have key : ∀ n i, (u i n).Finite ∧ |δ i n| ≤ ε := by
    intro n
    induction n using Nat.strong_induction_on with
    | _ n ih =>
      have hvW : ∀ i, (v i n).Within ((X + ε) * networkGain N D g) := by
        intro i
        rw [hv i]
        have h1 := perturbed_lag hd hD hg0 hg hε (fun t ht j => (ih t ht j).2) (fun t _ => hFe t) i
        have h2 := hzl n i
        refine ⟨?_, ?_⟩
        · unfold lag
          split_ifs with h
          · exact (ih (n - d i) (by have := hd i; omega) i).1
          · exact zero_finite
        · rw [toReal_lag, show lag (fun n => (u i n).toReal) (d i) n = lag (e i) (d i) n + lag (z i) (d i) n by rw [hlag]; ring]
          refine (abs_add_le _ _).trans ?_
          linarith
      intro i
      obtain ⟨h1, h2⟩ := hc n (fun j => x j n) (fun j => v j n) (fun j => hx j n) hvW i
      rw [← hu n i] at h1 h2
      refine ⟨h1, ?_⟩
      have e1 : (fun j => (v j n).toReal) = fun j => lag (fun n => (u j n).toReal) (d j) n := by
        funext j
        rw [hv j, toReal_lag]
      rw [e1] at h2
      exact h2
  exact fun i n => ⟨(key n i).1, perturbed_value hd hD hg0 hg hε (fun t _ j => (key t j).2) (fun t _ => hFe t) i⟩

/-! ## Matrices -/

/-- One product added to a partial sum. -/
theorem mac_round {A a v : Fl L} {B W : ℝ} (hA : A.Within B) (ha : a.Finite) (ha1 : |a.toReal| ≤ 1) (hv : v.Within W) (hη : f.tiny ≤ W)
    (hov : B + 3 * W ≤ 2 ^ f.emax) :
    (A +. (a *. v)).Finite ∧ |(A +. (a *. v)).toReal - (A.toReal + a.toReal * v.toReal)| ≤ f.u * (B + 3 * W) + 3 * f.tiny := by
  have hu := f.u_pos
  have hu4 := f.u_le
  have ht := f.tiny_pos
  have hW : 0 ≤ W := ht.le.trans hη
  have hB : 0 ≤ B := (abs_nonneg _).trans hA.2
  have hp : |a.toReal * v.toReal| ≤ W := by
    rw [abs_mul]
    nlinarith [hv.2, abs_nonneg a.toReal, abs_nonneg v.toReal]
  obtain ⟨h1, h2⟩ := mul_val ha hv.1 (noOvf_of_le_emax (hp.trans (by linarith)))
  have e1 := abs_rnd_sub_le_u f (a.toReal * v.toReal)
  rw [← h2] at e1
  have q1 : f.u * |a.toReal * v.toReal| ≤ f.u * W := mul_le_mul_of_nonneg_left hp hu.le
  have q2 : f.u * W ≤ 1 / 4 * W := mul_le_mul_of_nonneg_right hu4 hW
  have q3 : |A.toReal + (a *. v).toReal| ≤ B + W + (f.u * W + f.tiny) := by
    have := abs_add_le A.toReal (a *. v).toReal
    have := abs_sub_abs_le_abs_sub (a *. v).toReal (a.toReal * v.toReal)
    have := hA.2
    linarith
  obtain ⟨h3, h4⟩ := add_val hA.1 h1 (noOvf_of_le_emax (q3.trans (by linarith)))
  refine ⟨h3, ?_⟩
  have e2 := abs_rnd_sub_le_u f (A.toReal + (a *. v).toReal)
  rw [← h4] at e2
  have q4 := mul_le_mul_of_nonneg_left q3 hu.le
  have q5 : f.u * (f.u * W) ≤ 1 / 4 * (f.u * W) := mul_le_mul_of_nonneg_right hu4 (by positivity)
  have q6 : f.u * f.tiny ≤ f.u * W := mul_le_mul_of_nonneg_left hη hu.le
  have q7 : f.u * f.tiny ≤ 1 / 4 * f.tiny := mul_le_mul_of_nonneg_right hu4 ht.le
  have e : (A +. (a *. v)).toReal - (A.toReal + a.toReal * v.toReal) =
      ((A +. (a *. v)).toReal - (A.toReal + (a *. v).toReal)) + ((a *. v).toReal - a.toReal * v.toReal) := by ring
  rw [e]
  refine (abs_add_le _ _).trans ?_
  nlinarith

theorem mix_list {W : ℝ} {M : ℕ} (hW : f.tiny ≤ W) (hM : 8 * ((M : ℝ) + 1) ^ 2 * f.u ≤ 1) (hov : 8 * ((M : ℝ) + 1) * W ≤ 2 ^ f.emax) {a v : Fin N → Fl L}
    (ha : ∀ j, (a j).Finite) (ha1 : ∀ j, |(a j).toReal| ≤ 1) (hv : ∀ j, (v j).Within W) (l : List (Fin N)) (p : ℕ) (hp : p + l.length ≤ M)
    {A : Fl L} {A' : ℝ} (hA : A.Finite) (hAA : |A.toReal - A'| ≤ p * (4 * ((M : ℝ) + 2) * f.u * W + 3 * f.tiny)) (hA' : |A'| ≤ (p + 1) * W) :
    (l.foldl (fun acc j => acc +. (a j *. v j)) A).Finite ∧
      |(l.foldl (fun acc j => acc +. (a j *. v j)) A).toReal - (A' + (l.map fun j => (a j).toReal * (v j).toReal).sum)| ≤
        (p + l.length : ℕ) * (4 * ((M : ℝ) + 2) * f.u * W + 3 * f.tiny) := by
  have hu := f.u_pos
  have ht := f.tiny_pos
  have hW0 : 0 < W := lt_of_lt_of_le ht hW
  induction l generalizing p A A' with
  | nil => simpa using ⟨hA, hAA⟩
  | cons j l ih =>
    rw [List.length_cons] at hp
    have hpM : (p : ℝ) + 1 ≤ M := by exact_mod_cast (by omega : p + 1 ≤ M)
    have hp0 : (0 : ℝ) ≤ p := Nat.cast_nonneg p
    have hAW : A.Within (4 * ((M : ℝ) + 1) * W) := by
      refine ⟨hA, ?_⟩
      have h1 := abs_sub_abs_le_abs_sub A.toReal A'
      have h2 : (p : ℝ) * (4 * ((M : ℝ) + 2) * f.u * W + 3 * f.tiny) ≤ M * (4 * ((M : ℝ) + 2) * f.u * W + 3 * f.tiny) :=
        mul_le_mul_of_nonneg_right (by linarith) (by positivity)
      have h3 : (M : ℝ) * (4 * ((M : ℝ) + 2) * f.u * W) ≤ W / 2 := by
        have : (M : ℝ) * (4 * ((M : ℝ) + 2) * f.u * W) ≤ (4 * ((M : ℝ) + 1) ^ 2 * f.u) * W := by nlinarith [mul_pos hu hW0]
        nlinarith
      have h4 : (M : ℝ) * (3 * f.tiny) ≤ M * (3 * W) := by
        have : (0 : ℝ) ≤ M := Nat.cast_nonneg M
        nlinarith
      have h5 : ((p : ℝ) + 1) * W ≤ M * W := mul_le_mul_of_nonneg_right hpM hW0.le
      linarith
    have hM0 : (0 : ℝ) ≤ M := Nat.cast_nonneg M
    obtain ⟨r1, r2⟩ := mac_round hAW (ha j) (ha1 j) (hv j) hW (by nlinarith)
    have hs : f.u * (4 * ((M : ℝ) + 1) * W + 3 * W) + 3 * f.tiny ≤ 4 * ((M : ℝ) + 2) * f.u * W + 3 * f.tiny := by nlinarith [mul_pos hu hW0]
    have := ih (p + 1) (by omega) (A := A +. (a j *. v j)) (A' := A' + (a j).toReal * (v j).toReal) r1 (by
        have e : (A +. (a j *. v j)).toReal - (A' + (a j).toReal * (v j).toReal) =
          ((A +. (a j *. v j)).toReal - (A.toReal + (a j).toReal * (v j).toReal)) + (A.toReal - A') := by ring
        rw [e]
        refine (abs_add_le _ _).trans ?_
        push_cast
        linarith) (by
        refine (abs_add_le _ _).trans ?_
        have : |(a j).toReal * (v j).toReal| ≤ W := by
          rw [abs_mul]
          nlinarith [(hv j).2, ha1 j, abs_nonneg (a j).toReal, abs_nonneg (v j).toReal]
        push_cast
        linarith)
    rw [List.foldl_cons, List.map_cons, List.sum_cons, ← add_assoc, List.length_cons]
    rwa [show p + 1 + l.length = p + (l.length + 1) by omega] at this

/-- One row of the matrix. -/
theorem mixRow_round {W : ℝ} (hW : f.tiny ≤ W) (hN : 8 * ((N : ℝ) + 1) ^ 2 * f.u ≤ 1) (hov : 8 * ((N : ℝ) + 1) * W ≤ 2 ^ f.emax) {x : Fl L}
    {a v : Fin N → Fl L} (hx : x.Within W) (ha : ∀ j, (a j).Finite) (ha1 : ∀ j, |(a j).toReal| ≤ 1) (hv : ∀ j, (v j).Within W) :
    (mixRow x a v).Finite ∧ |(mixRow x a v).toReal - (x.toReal + ∑ j, (a j).toReal * (v j).toReal)| ≤ 4 * ((N : ℝ) + 1) ^ 2 * f.u * W + 3 * N * f.tiny := by
  have hu := f.u_pos
  have ht := f.tiny_pos
  have hW0 : 0 < W := lt_of_lt_of_le ht hW
  have h := mix_list hW hN hov ha ha1 hv (List.finRange N) 0 (by simp) hx.1 (A' := x.toReal) (by simp) (by simpa using hx.2)
  rw [zero_add, List.length_finRange, ← List.ofFn_eq_map, List.sum_ofFn] at h
  refine ⟨h.1, h.2.trans ?_⟩
  have : (0 : ℝ) ≤ N := Nat.cast_nonneg N
  nlinarith [mul_pos hu hW0]

/-- How far the network may be off: `4 (N + 1)² u (2 X + 6 N tiny) S² + 3 N tiny S`, with `S = √(N D) / (1 - g)`. -/
noncomputable def matrixBound (f : Fmt) (N : ℕ) (S X : ℝ) : ℝ := (4 * ((N : ℝ) + 1) ^ 2 * f.u * ((2 * X + 6 * N * f.tiny) * S) + 3 * N * f.tiny) * S

theorem entry_le {A : Fin N → Fin N → ℝ} (hg0 : 0 ≤ g) (hA : ∀ v : Fin N → ℝ, ∑ i, (∑ j, A i j * v j) ^ 2 ≤ g ^ 2 * ∑ i, v i ^ 2) (i j : Fin N) : |A i j| ≤ g := by
  refine abs_le_of_sq_le_sq ?_ hg0
  have h := hA fun k => if k = j then 1 else 0
  simp only [mul_ite, mul_one, mul_zero, sum_ite_eq', mem_univ, if_true, ite_pow, one_pow, ne_eq, OfNat.ofNat_ne_zero, not_false_eq_true, zero_pow] at h
  exact (single_le_sum (f := fun i => A i j ^ 2) (fun _ _ => sq_nonneg _) (mem_univ i)).trans h

/-- **C138**. Feedback through matrices, added up from the left in floating point: with matrices that multiply root energies by at most `g < 1`, as
`g` times orthogonal matrices do, the network runs forever and stays close to the exact network with the same matrices. -/
theorem C138_matrix [Target] {m : Fin N → ℕ} (hm : ∀ i, Allocatable (Fl L) (m i)) (hd : ∀ i, 1 ≤ d i) (hdm : ∀ i, d i ≤ m i) (hD : ∀ i, d i ≤ D)
    (hN : 1 ≤ N) (hg0 : 0 ≤ g) (hg : g < 1) {A : ℕ → Fin N → Fin N → Fl L} (hAf : ∀ n i j, (A n i j).Finite)
    (hA : ∀ n (v : Fin N → ℝ), ∑ i, (∑ j, (A n i j).toReal * v j) ^ 2 ≤ g ^ 2 * ∑ i, v i ^ 2)
    (hu : 8 * ((N : ℝ) + 1) ^ 2 * f.u * networkGain N D g ≤ 1) {X : ℝ} (hX : 0 ≤ X)
    (hov : 8 * ((N : ℝ) + 1) * ((2 * X + 6 * N * f.tiny) * networkGain N D g) ≤ 2 ^ f.emax) {x : Fin N → ℕ → Fl L} (hx : ∀ i n, (x i n).Within X) :
    ∃ s : Fin N → Delay (Fl L), (∀ i, Delay.new b (d i) (m i) = .ok (s i)) ∧
      (∃ u v r, Network b (fun n x v i => mixRow (x i) (A n i) v) s x u v r) ∧
      ∀ (u v r : Fin N → ℕ → Fl L) (z : Fin N → ℕ → ℝ), Network b (fun n x v i => mixRow (x i) (A n i) v) s x u v r →
        (∀ i n, z i n = (x i n).toReal + ∑ j, (A n i j).toReal * lag (z j) (d j) n) →
        ∀ i, StaysClose (u i) (z i) (matrixBound f N (networkGain N D g) X) := by
  have hu0 := f.u_pos
  have ht := f.tiny_pos
  have hN' : (1 : ℝ) ≤ N := by exact_mod_cast hN
  have hD' : (1 : ℝ) ≤ D := by exact_mod_cast (hd ⟨0, hN⟩).trans (hD ⟨0, hN⟩)
  have hS : 1 ≤ networkGain N D g := by
    unfold networkGain
    rw [le_div_iff₀ (by linarith)]
    have : 1 ≤ √((N : ℝ) * D) := Real.one_le_sqrt.mpr (by nlinarith)
    linarith
  set S := networkGain N D g with hSe
  set W := (2 * X + 6 * N * f.tiny) * S with hW
  have hXW : X ≤ W := by rw [hW]; nlinarith [mul_nonneg (by linarith : (0 : ℝ) ≤ N) ht.le]
  have hη : f.tiny ≤ W := by
    have h1 : f.tiny ≤ 6 * N * f.tiny := by nlinarith
    rw [hW]; nlinarith
  have hW0 : 0 < W := lt_of_lt_of_le ht hη
  have hNu : 8 * ((N : ℝ) + 1) ^ 2 * f.u ≤ 1 := le_trans (le_mul_of_one_le_right (by positivity) hS) hu
  have hle : (X + (4 * ((N : ℝ) + 1) ^ 2 * f.u * W + 3 * N * f.tiny)) * S ≤ W := by
    have h1 : 4 * ((N : ℝ) + 1) ^ 2 * f.u * W * S ≤ W / 2 := by nlinarith
    have h2 : W = 2 * X * S + 6 * N * f.tiny * S := by rw [hW]; ring
    nlinarith
  refine C138_close (F := fun n v i => ∑ j, (A n i j).toReal * v j) (ε := 4 * ((N : ℝ) + 1) ^ 2 * f.u * W + 3 * N * f.tiny) hm hd hdm hD hg0 hg
    (by simp) (fun n v w => ?_) hX (by positivity) (fun n x v hx hv i => ?_) hx
  · have h := hA n fun i => v i - w i
    simp only [mul_sub, sum_sub_distrib] at h
    exact h
  · exact mixRow_round hη hNu hov ⟨(hx i).1, (hx i).2.trans hXW⟩ (hAf n i) (fun j => (entry_le hg0 (hA n) i j).trans hg.le)
      fun j => ⟨(hv j).1, (hv j).2.trans hle⟩

end rounding

/-- Two lines of 700 and 1000 samples, and a rotation by 45 degrees scaled by `√(1/2)`, in binary32. -/
example [Target] (L : Libm binary32) : (∀ i, Allocatable (Fl L) (![700, 1000] i : ℕ)) ∧ ∃ A : Fin 2 → Fin 2 → Fl L, (∀ i j, (A i j).Finite) ∧
    (∀ v : Fin 2 → ℝ, ∑ i, (∑ j, (A i j).toReal * v j) ^ 2 ≤ (3 / 4) ^ 2 * ∑ i, v i ^ 2) ∧ A 0 1 ≠ A 1 0 ∧
    8 * (((2 : ℕ) : ℝ) + 1) ^ 2 * binary32.u * networkGain 2 1000 (3 / 4) ≤ 1 ∧
    8 * (((2 : ℕ) : ℝ) + 1) * ((2 * 1 + 6 * (2 : ℕ) * binary32.tiny) * networkGain 2 1000 (3 / 4)) ≤ 2 ^ binary32.emax ∧
    matrixBound binary32 2 (networkGain 2 1000 (3 / 4)) 1 < 1 / 6 := by
  have hlim : (2 : ℝ) ^ (127 : ℤ) ≤ 2 ^ binary32.emax := le_rfl
  have hl : (1 / 2 : ℝ) < binary32.lim := lt_of_lt_of_le (by norm_num) (hlim.trans (by unfold Fmt.lim; exact (zpow_lt_zpow_right₀ (by norm_num) (by omega)).le))
  obtain ⟨p, h1, h2⟩ := Fl.exists_of_isRep L (f := binary32) (v := 1 / 2) ⟨1, -1, by show |(1 : ℤ)| < 2 ^ 24; norm_num, by show (-149 : ℤ) ≤ -1; norm_num, by norm_num⟩
    (by rw [abs_of_pos (by norm_num)]; exact hl)
  obtain ⟨q, h3, h4⟩ := Fl.exists_of_isRep L (f := binary32) (v := -(1 / 2)) ⟨-1, -1, by show |(-1 : ℤ)| < 2 ^ 24; norm_num, by show (-149 : ℤ) ≤ -1; norm_num, by norm_num⟩
    (by rw [abs_neg, abs_of_pos (by norm_num)]; exact hl)
  have ht : binary32.tiny ≤ 1 / 2 ^ 100 := by
    unfold Fmt.tiny
    show (2 : ℝ) ^ (-149 : ℤ) ≤ _
    norm_num
  have ht0 := binary32.tiny_pos
  have hu : binary32.u = 1 / 2 ^ 24 := rfl
  have hS : networkGain 2 1000 (3 / 4) ≤ 180 := by
    unfold networkGain
    rw [div_le_iff₀ (by norm_num)]
    exact Real.sqrt_le_iff.mpr ⟨by norm_num, by norm_num⟩
  have hS0 : 0 ≤ networkGain 2 1000 (3 / 4) := networkGain_nonneg (by norm_num)
  norm_num at hlim ht
  refine ⟨fun i => ?_, ![![p, p], ![q, p]], fun i j => ?_, fun v => ?_, ?_, ?_, ?_, ?_⟩
  · unfold Allocatable
    have : size (Fl L) = 4 := rfl
    rw [this]; have := target; fin_cases i <;> simp <;> omega
  · fin_cases i <;> fin_cases j <;> simp [h1, h3]
  · simp only [Fin.sum_univ_two, Matrix.cons_val_zero, Matrix.cons_val_one, h2, h4]
    nlinarith [sq_nonneg (v 0), sq_nonneg (v 1)]
  · intro h
    have := congrArg Fl.toReal h
    simp [h2, h4] at this
    norm_num at this
  · rw [hu]; norm_num; linarith
  · push_cast
    nlinarith
  · unfold matrixBound
    rw [hu]
    push_cast
    refine lt_of_le_of_lt (b := (4 * (2 + 1) ^ 2 * (1 / 2 ^ 24) * ((2 * 1 + 6 * 2 * (1 / 1267650600228229401496703205376)) * 180) +
      3 * 2 * (1 / 1267650600228229401496703205376)) * 180) ?_ (by norm_num)
    gcongr

end Rasp
