import Verif.Spec.LimitCycle
import Verif.Props.Periodic
import Verif.Lemmas.LinearStep
import Verif.Props.Delay
import Verif.Props.LinearInt
import Mathlib.SetTheory.Cardinal.Finite
import Mathlib.Data.Fintype.Pigeonhole

/-!
# C124: in floating point every response to a periodic signal ends in an exact cycle
-/

namespace Rasp
open FloatOps Filter Topology

/-! ## The numbers of a format -/

/-- The magnitude with index `i`. -/
noncomputable def magAt (f : Fmt) (i : ℕ) : ℝ :=
  if i < 2 ^ f.p then i * (2 : ℝ) ^ f.emin
  else (2 ^ (f.p - 1) + i % 2 ^ (f.p - 1) : ℕ) * (2 : ℝ) ^ (f.emin + (i / 2 ^ (f.p - 1) : ℕ) - 1)

theorem exists_magAt {f : Fmt} {x : ℝ} (h0 : 0 ≤ x) (hr : IsRep f x) (hl : x < f.lim) :
    ∃ i < 2 ^ (f.p - 1) * (f.emax - f.emin + 3 - f.p).toNat, magAt f i = x := by
  have hp := f.hp
  have hmin := f.hemin
  have hmax := f.hemax
  have hH : 2 ^ f.p = 2 ^ (f.p - 1) * 2 := by rw [← pow_succ]; congr 1; omega
  have hHpos : 0 < 2 ^ (f.p - 1) := by positivity
  have hK : 2 ≤ (f.emax - f.emin + 3 - f.p).toNat := by omega
  by_cases hx0 : x = 0
  · exact ⟨0, Nat.mul_pos hHpos (by omega), by rw [magAt, if_pos (by positivity), hx0]; simp⟩
  obtain ⟨m, hm⟩ := hr.mul_of_le_cexp le_rfl
  obtain ⟨c, hc⟩ : ∃ c, c = cexp f x := ⟨_, rfl⟩
  rw [← hc] at hm
  have hm0 : 0 ≤ m := by
    by_contra hneg
    have h1 : (m : ℝ) < 0 := by exact_mod_cast not_le.mp hneg
    have h2 := two_zpow_pos c
    nlinarith
  obtain ⟨m, rfl⟩ := Int.eq_ofNat_of_zero_le hm0
  have hmlt : m < 2 ^ f.p := by
    have h1 := abs_lt_zpow_cexp f x
    rw [abs_of_nonneg h0, ← hc, zpow_add₀ (by norm_num)] at h1
    rw [hm] at h1
    have h2 := lt_of_mul_lt_mul_right h1 (two_zpow_pos c).le
    rw [zpow_natCast] at h2
    exact_mod_cast h2
  rcases eq_or_lt_of_le (emin_le_cexp f x) with he | he
  · refine ⟨m, ?_, ?_⟩
    · calc m < 2 ^ f.p := hmlt
        _ = 2 ^ (f.p - 1) * 2 := hH
        _ ≤ _ := Nat.mul_le_mul_left _ hK
    · rw [magAt, if_pos hmlt, hm, hc, ← he]; simp
  · rw [← hc] at he
    have hlog : c = Int.log 2 |x| + 1 - f.p := by
      rw [hc] at he ⊢
      unfold cexp at he ⊢
      omega
    have hge := zpow_log_le hx0
    have hge2 : 2 ^ (f.p - 1) ≤ m := by
      rw [abs_of_nonneg h0, show Int.log 2 x = ((f.p - 1 : ℕ) : ℤ) + c by rw [abs_of_nonneg h0] at hlog; omega,
        zpow_add₀ (by norm_num)] at hge
      rw [hm] at hge
      have h2 := le_of_mul_le_mul_right hge (two_zpow_pos c)
      rw [zpow_natCast] at h2
      exact_mod_cast h2
    have hcle : c ≤ f.emax + 1 - f.p := by
      unfold Fmt.lim at hl
      have h1 := lt_of_le_of_lt (zpow_log_le hx0) (by rwa [abs_of_nonneg h0] : |x| < (2 : ℝ) ^ (f.emax + 1))
      rw [zpow_lt_zpow_iff_right₀ (by norm_num)] at h1
      omega
    obtain ⟨k, hk⟩ : ∃ k : ℕ, c = f.emin + k := ⟨(c - f.emin).toNat, by omega⟩
    obtain ⟨r, rfl⟩ := Nat.exists_eq_add_of_le hge2
    have hrlt : r < 2 ^ (f.p - 1) := by omega
    have hk1 : 1 ≤ k := by omega
    refine ⟨r + 2 ^ (f.p - 1) * (k + 1), ?_, ?_⟩
    · have h1 : k + 2 ≤ (f.emax - f.emin + 3 - f.p).toNat := by omega
      calc r + 2 ^ (f.p - 1) * (k + 1) < 2 ^ (f.p - 1) + 2 ^ (f.p - 1) * (k + 1) := by omega
        _ = 2 ^ (f.p - 1) * (k + 2) := by ring
        _ ≤ _ := Nat.mul_le_mul_left _ h1
    · rw [magAt, if_neg, Nat.add_mul_mod_self_left, Nat.add_mul_div_left _ _ hHpos, Nat.mod_eq_of_lt hrlt, Nat.div_eq_of_lt hrlt, hm, hk]
      · push_cast
        congr 2
        ring
      · rw [hH, not_lt]
        calc 2 ^ (f.p - 1) * 2 ≤ 2 ^ (f.p - 1) * (k + 1) := Nat.mul_le_mul_left _ (by omega)
          _ ≤ _ := Nat.le_add_left _ _

/-- Every number is one of `count` many. -/
noncomputable def numAt (f : Fmt) (t : Bool × Fin (2 ^ (f.p - 1) * (f.emax - f.emin + 3 - f.p).toNat + 2)) : FP f :=
  open Classical in
  if t.2.val = 2 ^ (f.p - 1) * (f.emax - f.emin + 3 - f.p).toNat then .nan t.1
  else if t.2.val = 2 ^ (f.p - 1) * (f.emax - f.emin + 3 - f.p).toNat + 1 then .inf t.1
  else if h : 0 ≤ magAt f t.2.val ∧ IsRep f (magAt f t.2.val) ∧ magAt f t.2.val < f.lim then .fin t.1 _ h else .nan t.1

theorem numAt_surjective (f : Fmt) : Function.Surjective (numAt f) := by
  intro v
  match v with
  | .nan s => exact ⟨(s, ⟨_, Nat.lt_add_of_pos_right (by norm_num)⟩), by simp [numAt]⟩
  | .inf s =>
    exact ⟨(s, ⟨2 ^ (f.p - 1) * (f.emax - f.emin + 3 - f.p).toNat + 1, Nat.lt_succ_self _⟩), by
      rw [numAt, if_neg (Nat.succ_ne_self _), if_pos rfl]⟩
  | .fin s a h =>
    obtain ⟨i, hi, rfl⟩ := exists_magAt h.1 h.2.1 h.2.2
    exact ⟨(s, ⟨i, by omega⟩), by
      rw [numAt, if_neg (show i ≠ _ by omega), if_neg (show i ≠ _ by omega), dif_pos h]⟩

instance {f : Fmt} : Finite (FP f) := Finite.of_surjective _ (numAt_surjective f)
instance {f : Fmt} {L : Libm f} : Finite (Fl L) := inferInstanceAs (Finite (FP f))

/-- **C124**, a format has finitely many numbers; `f32` fewer than `2 ^ 32`, `f64` fewer than `2 ^ 64`. -/
theorem C124_count {f : Fmt} (L : Libm f) : Finite (Fl L) ∧ Nat.card (Fl L) ≤ f.count ∧
    Fmt.count binary32 = 2 ^ 32 - (2 ^ 24 - 4) ∧ Fmt.count binary64 = 2 ^ 64 - (2 ^ 53 - 4) := by
  refine ⟨inferInstance, ?_, by decide, by decide⟩
  have := Nat.card_le_card_of_surjective _ (numAt_surjective f)
  rw [Nat.card_prod, Nat.card_fin, Nat.card_eq_fintype_card (α := Bool), Fintype.card_bool] at this
  exact this

/-! ## The pigeonhole -/

section
variable {σ T : Type} [Processor σ T]

/-- The rest of a response is the response of the state reached. -/
theorem responds_tail {b : Build} {st : ℕ → σ} {x y : ℕ → T} (hst : ∀ n, Processor.process b (st n) (x n) = .ok (st (n + 1), y n)) (k : ℕ) :
    Responds b (st k) (fun n => x (k + n)) (fun n => y (k + n)) :=
  ⟨fun n => st (k + n), rfl, fun n => hst (k + n)⟩

/-- If the states after whole periods have the same future whenever their keys agree, and there are at most `C` keys. -/
theorem limitCycle_of_key {s : σ} {C K : ℕ} {κ : Type} [Finite κ] (hC : Nat.card κ ≤ C) (key : σ → κ)
    (hS : ∀ (b : Build) (N : ℕ) (x y : ℕ → T) (st : ℕ → σ), 0 < N → Repeats N x → st 0 = s → (∀ n, Processor.process b (st n) (x n) = .ok (st (n + 1), y n)) →
      ∀ i j, K ≤ i → K ≤ j → key (st (i * N)) = key (st (j * N)) → SameFuture (T := T) (st (i * N)) (st (j * N))) :
    LimitCycle (T := T) s (K + C) := by
  intro b N x y hN hx ⟨st, hst0, hst⟩
  have hxk : ∀ n k, x (k * N + n) = x n := by
    intro n k
    induction k with
    | zero => simp
    | succ k ih => rw [add_mul, one_mul, show k * N + N + n = k * N + n + N by ring, hx, ih]
  have : Fintype κ := Fintype.ofFinite κ
  have hlt : Fintype.card κ < Fintype.card (Fin (C + 1)) := by
    rw [Fintype.card_fin, ← Nat.card_eq_fintype_card]; omega
  obtain ⟨i, j, hij, he⟩ := Fintype.exists_ne_map_eq_of_card_lt (fun i : Fin (C + 1) => key (st ((K + i) * N))) hlt
  have main : ∀ i j : ℕ, i < j → j ≤ C → key (st ((K + i) * N)) = key (st ((K + j) * N)) →
      ∃ M j, 0 < j ∧ M + j ≤ K + C ∧ ∀ n, M * N ≤ n → y (n + j * N) = y n := by
    intro i j hij hj he
    refine ⟨K + i, j - i, by omega, by omega, fun n hn => ?_⟩
    have hsf := hS b N x y st hN hx hst0 hst (K + i) (K + j) (by omega) (by omega) he
    have r1 := responds_tail hst ((K + i) * N)
    have r2 := responds_tail hst ((K + j) * N)
    simp only [hxk] at r1 r2
    have hy := ((hsf b _ _).mp r1).unique r2
    obtain ⟨d, rfl⟩ := Nat.exists_eq_add_of_le hn
    have := congrFun hy d
    rw [this]
    congr 1
    obtain ⟨e, rfl⟩ := Nat.exists_eq_add_of_lt hij
    rw [show i + e + 1 - i = e + 1 by omega]
    ring
  rcases lt_or_gt_of_ne (fun h => hij (Fin.ext h) : i.val ≠ j.val) with h | h
  · exact main i j h (by omega) he
  · exact main j i h (by omega) he.symm

theorem sameFuture_of_process {s t : σ} (h : ∀ b (z : T), Processor.process b s z = Processor.process b t z) : SameFuture (T := T) s t := by
  have key : ∀ {s t : σ}, (∀ b (z : T), Processor.process b s z = Processor.process b t z) → ∀ (b : Build) (x y : ℕ → T),
      Responds b s x y → Responds b t x y := by
    intro s t h b x y ⟨st, h0, hst⟩
    refine ⟨fun n => if n = 0 then t else st n, if_pos rfl, fun n => ?_⟩
    cases n with
    | zero =>
      have h1 := hst 0
      rw [h0, h] at h1
      simpa using h1
    | succ n => simpa using hst (n + 1)
  exact fun b x y => ⟨key h b x y, key (fun b z => (h b z).symm) b x y⟩

/-- **C124**, whatever is built out of such parts: if all states that `s` can reach by `process` lie in a finite set, every
response to a periodic signal ends in a cycle. -/
theorem C124_finite {s : σ} {S : Set σ} (hf : S.Finite) (hs : s ∈ S)
    (hS : ∀ (b : Build) (t u : σ) (x y : T), t ∈ S → Processor.process b t x = .ok (u, y) → u ∈ S) :
    LimitCycle (T := T) s S.ncard := by
  have := hf.to_subtype
  have hmem : ∀ {b : Build} {x y : ℕ → T} {st : ℕ → σ}, st 0 = s →
      (∀ n, Processor.process b (st n) (x n) = .ok (st (n + 1), y n)) → ∀ n, st n ∈ S := by
    intro b x y st h0 hst n
    induction n with
    | zero => rw [h0]; exact hs
    | succ n ih => exact hS b _ _ _ _ ih (hst n)
  have := limitCycle_of_key (s := s) (K := 0) (T := T) (κ := S) (C := S.ncard) le_rfl
    (fun t => open Classical in if h : t ∈ S then ⟨t, h⟩ else ⟨s, hs⟩) (fun b N x y st _ _ h0 hst i j _ _ he => by
      rw [dif_pos (hmem h0 hst _), dif_pos (hmem h0 hst _)] at he
      have := Subtype.mk.inj he
      rw [this]
      exact fun _ _ _ => Iff.rfl)
  simpa using this

/-- A processor whose fixed parameters `par` and memory `mem` determine what it does, the parameters being kept. -/
theorem limitCycle_of_memory {s : σ} {κ π : Type} [Finite κ] (par : σ → π) (mem : σ → κ)
    (hpar : ∀ (b : Build) (t u : σ) (x y : T), Processor.process b t x = .ok (u, y) → par u = par t)
    (hmem : ∀ (b : Build) (t u : σ) (x : T), par t = par u → mem t = mem u → Processor.process b t x = Processor.process b u x) :
    LimitCycle (T := T) s (Nat.card κ) := by
  have := limitCycle_of_key (s := s) (K := 0) (T := T) (κ := κ) (C := Nat.card κ) le_rfl mem (fun b N x y st _ _ h0 hst i j _ _ he => by
    have hp : ∀ n, par (st n) = par s := by
      intro n
      induction n with
      | zero => rw [h0]
      | succ n ih => rw [hpar b _ _ _ _ (hst n), ih]
    exact sameFuture_of_process fun b z => hmem b _ _ z ((hp _).trans (hp _).symm) he)
  simpa using this
end

section
variable {T : Type} [FloatOps T] [Finite T]

theorem OnePole.limitCycle (s : OnePole T) : LimitCycle (T := T) s (Nat.card T) :=
  limitCycle_of_memory (fun s => (s.b0, s.a1)) (fun s => s.y_z1)
    (fun b t u x y h => by obtain ⟨rfl, -⟩ := Prod.mk.inj (Except.ok.inj h); rfl)
    (fun b t u x h h' => by cases t; cases u; simp at h h'; obtain ⟨rfl, rfl⟩ := h; subst h'; rfl)

theorem OneZero.limitCycle (s : OneZero T) : LimitCycle (T := T) s (Nat.card T) :=
  limitCycle_of_memory (fun s => (s.b0, s.b1)) (fun s => s.x_z1)
    (fun b t u x y h => by obtain ⟨rfl, -⟩ := Prod.mk.inj (Except.ok.inj h); rfl)
    (fun b t u x h h' => by cases t; cases u; simp at h h'; obtain ⟨rfl, rfl⟩ := h; subst h'; rfl)

theorem TwoPole.limitCycle (s : TwoPole T) : LimitCycle (T := T) s (Nat.card T ^ 2) := by
  rw [pow_two, ← Nat.card_prod]
  exact limitCycle_of_memory (fun s => (s.b0, s.a1, s.a2)) (fun s => (s.y_z1, s.y_z2))
    (fun b t u x y h => by obtain ⟨rfl, -⟩ := Prod.mk.inj (Except.ok.inj h); rfl)
    (fun b t u x h h' => by cases t; cases u; simp at h h'; obtain ⟨rfl, rfl, rfl⟩ := h; obtain ⟨rfl, rfl⟩ := h'; rfl)

theorem Biquad2.limitCycle (s : Biquad2 T) : LimitCycle (T := T) s (Nat.card T ^ 2) := by
  rw [pow_two, ← Nat.card_prod]
  exact limitCycle_of_memory (fun s => (s.b0, s.b1, s.b2, s.a1, s.a2)) (fun s => (s.z1, s.z2))
    (fun b t u x y h => by obtain ⟨rfl, -⟩ := Prod.mk.inj (Except.ok.inj h); rfl)
    (fun b t u x h h' => by
      cases t; cases u; simp at h h'; obtain ⟨rfl, rfl, rfl, rfl, rfl⟩ := h; obtain ⟨rfl, rfl⟩ := h'; rfl)

theorem Biquad1.limitCycle (s : Biquad1 T) : LimitCycle (T := T) s (2 + Nat.card T ^ 2) := by
  rw [pow_two, ← Nat.card_prod]
  refine limitCycle_of_key (K := 2) le_rfl (fun s => (s.y_z1, s.y_z2)) (fun b N x y st hN hx h0 hst i j hi hj he => ?_)
  have hpar : ∀ n, (st n).b0 = s.b0 ∧ (st n).b1 = s.b1 ∧ (st n).b2 = s.b2 ∧ (st n).a1 = s.a1 ∧ (st n).a2 = s.a2 := by
    intro n
    induction n with
    | zero => rw [h0]; simp
    | succ n ih => rw [← (Prod.mk.inj (Except.ok.inj (hst n))).1]; exact ih
  have hx1 : ∀ n, (st (n + 1)).x_z1 = x n := fun n => by rw [← (Prod.mk.inj (Except.ok.inj (hst n))).1]
  have hx2 : ∀ n, (st (n + 2)).x_z2 = x n := fun n => by
    rw [← (Prod.mk.inj (Except.ok.inj (hst (n + 1)))).1]; exact hx1 n
  have hxk : ∀ n k, x (n + k * N) = x n := by
    intro n k
    induction k with
    | zero => simp
    | succ k ih => rw [add_mul, one_mul, ← add_assoc, hx, ih]
  have at2 : ∀ i, 2 ≤ i → (st (i * N)).x_z1 = x (2 * N - 1) ∧ (st (i * N)).x_z2 = x (2 * N - 2) := by
    intro i hi
    obtain ⟨k, rfl⟩ := Nat.exists_eq_add_of_le hi
    constructor
    · rw [← hxk (2 * N - 1) k, ← hx1]; congr 2; rw [add_mul]; omega
    · rw [← hxk (2 * N - 2) k, ← hx2]; congr 2; rw [add_mul]; omega
  have ext : ∀ {u v : Biquad1 T}, u.x_z1 = v.x_z1 → u.x_z2 = v.x_z2 → u.y_z1 = v.y_z1 → u.y_z2 = v.y_z2 → u.b0 = v.b0 → u.b1 = v.b1 →
      u.b2 = v.b2 → u.a1 = v.a1 → u.a2 = v.a2 → u = v := by
    intro u v
    cases u; cases v
    rintro rfl rfl rfl rfl rfl rfl rfl rfl rfl
    rfl
  have key : st (i * N) = st (j * N) := by
    have p1 := hpar (i * N); have p2 := hpar (j * N)
    have q1 := at2 i hi; have q2 := at2 j hj
    have e1 := (Prod.mk.inj he).1; have e2 := (Prod.mk.inj he).2
    obtain ⟨r1, r2, r3, r4, r5⟩ := p1
    obtain ⟨t1, t2, t3, t4, t5⟩ := p2
    exact ext (q1.1.trans q2.1.symm) (q1.2.trans q2.2.symm) e1 e2 (r1.trans t1.symm) (r2.trans t2.symm) (r3.trans t3.symm) (r4.trans t4.symm)
      (r5.trans t5.symm)
  rw [key]
  exact fun _ _ _ => Iff.rfl

theorem LeakyIntegrator.limitCycle (s : LeakyIntegrator T) : LimitCycle (T := T) s (Nat.card T) :=
  limitCycle_of_memory (fun s => s.alpha) (fun s => s.y_z1)
    (fun b t u x y h => by obtain ⟨rfl, -⟩ := Prod.mk.inj (Except.ok.inj h); rfl)
    (fun b t u x h h' => by cases t; cases u; simp at h h'; subst h; subst h'; rfl)

theorem PeakEnvDetector.limitCycle (s : PeakEnvDetector T) : LimitCycle (T := T) s (Nat.card T) :=
  limitCycle_of_memory (fun s => (s.attack_gain, s.release_gain)) (fun s => s.envelope)
    (fun b t u x y h => by obtain ⟨rfl, -⟩ := Prod.mk.inj (Except.ok.inj h); rfl)
    (fun b t u x h h' => by cases t; cases u; simp at h h'; obtain ⟨rfl, rfl⟩ := h; subst h'; rfl)

theorem RmsEnvDetector.limitCycle (s : RmsEnvDetector T) : LimitCycle (T := T) s (Nat.card T) :=
  limitCycle_of_memory (fun s => (s.attack_gain, s.release_gain)) (fun s => s.envelope)
    (fun b t u x y h => by obtain ⟨rfl, -⟩ := Prod.mk.inj (Except.ok.inj h); rfl)
    (fun b t u x h h' => by cases t; cases u; simp at h h'; obtain ⟨rfl, rfl⟩ := h; subst h'; rfl)
end

theorem LimitCycle.mono {σ T : Type} [Processor σ T] {s : σ} {C C' : ℕ} (h : LimitCycle (T := T) s C) (hC : C ≤ C') : LimitCycle (T := T) s C' := by
  intro b N x y hN hx hy
  obtain ⟨M, j, h1, h2, h3⟩ := h b N x y hN hx hy
  exact ⟨M, j, h1, h2.trans hC, h3⟩

/-! ## C124 -/

section
variable {f : Fmt} (L : Libm f)

/-- **C124.** The six basic filters in any state and with any coefficients, stable or not, NaN and infinities included. -/
theorem C124_filters :
    (∀ s : OnePole (Fl L), LimitCycle (T := Fl L) s f.count) ∧ (∀ s : TwoPole (Fl L), LimitCycle (T := Fl L) s (f.count ^ 2)) ∧
    (∀ s : Biquad1 (Fl L), LimitCycle (T := Fl L) s (2 + f.count ^ 2)) ∧ (∀ s : Biquad2 (Fl L), LimitCycle (T := Fl L) s (f.count ^ 2)) := by
  have h := (C124_count L).2.1
  have h2 := Nat.pow_le_pow_left h 2
  exact ⟨fun s => s.limitCycle.mono h, fun s => s.limitCycle.mono h2, fun s => s.limitCycle.mono (by omega), fun s => s.limitCycle.mono h2⟩

/-- **C124**, the rbj filters. -/
theorem C124_rbj :
    (∀ s : LowPass (Fl L), LimitCycle (T := Fl L) s (f.count ^ 2)) ∧ (∀ s : HighPass (Fl L), LimitCycle (T := Fl L) s (f.count ^ 2)) ∧
    (∀ s : BandPass1 (Fl L), LimitCycle (T := Fl L) s (f.count ^ 2)) ∧ (∀ s : BandPass2 (Fl L), LimitCycle (T := Fl L) s (f.count ^ 2)) ∧
    (∀ s : BandStop (Fl L), LimitCycle (T := Fl L) s (f.count ^ 2)) ∧ (∀ s : AllPass (Fl L), LimitCycle (T := Fl L) s (f.count ^ 2)) ∧
    (∀ s : Peak (Fl L), LimitCycle (T := Fl L) s (f.count ^ 2)) ∧ (∀ s : LowShelf (Fl L), LimitCycle (T := Fl L) s (f.count ^ 2)) ∧
    (∀ s : HighShelf (Fl L), LimitCycle (T := Fl L) s (f.count ^ 2)) := by
  have h := (C124_filters L).2.2.2
  exact ⟨fun s b N x y hN hx hy => h s.biquad b N x y hN hx (s.responds_iff.mp hy), fun s b N x y hN hx hy => h s.biquad b N x y hN hx (s.responds_iff.mp hy),
    fun s b N x y hN hx hy => h s.biquad b N x y hN hx (s.responds_iff.mp hy), fun s b N x y hN hx hy => h s.biquad b N x y hN hx (s.responds_iff.mp hy),
    fun s b N x y hN hx hy => h s.biquad b N x y hN hx (s.responds_iff.mp hy), fun s b N x y hN hx hy => h s.biquad b N x y hN hx (s.responds_iff.mp hy),
    fun s b N x y hN hx hy => h s.biquad b N x y hN hx (s.responds_iff.mp hy), fun s b N x y hN hx hy => h s.biquad b N x y hN hx (s.responds_iff.mp hy),
    fun s b N x y hN hx hy => h s.biquad b N x y hN hx (s.responds_iff.mp hy)⟩

/-- **C124**, the analysis types. -/
theorem C124_analysis :
    (∀ s : LeakyIntegrator (Fl L), LimitCycle (T := Fl L) s f.count) ∧ (∀ s : PeakEnvDetector (Fl L), LimitCycle (T := Fl L) s f.count) ∧
    (∀ s : RmsEnvDetector (Fl L), LimitCycle (T := Fl L) s f.count) := by
  have h := (C124_count L).2.1
  exact ⟨fun s => s.limitCycle.mono h, fun s => s.limitCycle.mono h, fun s => s.limitCycle.mono h⟩
end

section
variable {T : Type} [FloatOps T]

/-- **C124**, without feedback: after one or two samples the output repeats with the input, in every arithmetic. -/
theorem C124_zeros : (∀ s : OneZero T, RepeatsAfter (T := T) s 1) ∧ (∀ s : TwoZero T, RepeatsAfter (T := T) s 2) := by
  refine ⟨fun s b N x y hx hy n hn => ?_, fun s b N x y hx hy n hn => ?_⟩
  · rw [OneZero.responds_iff] at hy
    obtain ⟨n, rfl⟩ := Nat.exists_eq_add_of_le' hn
    rw [hy, hy, hx, show n + 1 + N = n + N + 1 by ring]
    simp only [before, hx n]
  · rw [TwoZero.responds_iff] at hy
    obtain ⟨n, rfl⟩ := Nat.exists_eq_add_of_le' hn
    have h1 := hx (n + 1)
    rw [show n + 1 + N = n + N + 1 by ring] at h1
    rw [hy, hy, hx, show n + 2 + N = n + N + 1 + 1 by ring]
    simp only [before, hx n, h1]

theorem delayedBy_repeats {e N : ℕ} {h : List T} {x : ℕ → T} (hx : Repeats N x) {n : ℕ} (hn : e ≤ n) :
    delayedBy e h x (n + N) = delayedBy e h x n := by
  unfold delayedBy
  rw [if_pos (by omega), if_pos hn, show n + N - e = n - e + N by omega, hx]

/-- **C124**, delay lines: once the delay has passed the output repeats with the input. For `LinearDelay` nothing is assumed
about the delay time or the arithmetic. -/
theorem C124_delays [Target] {D : Type} [FloatOps D] [DelayTime D T] {b : Build} {m : ℕ} (hm : Allocatable T m) :
    (∀ (d : ℕ) (s : Delay T), Delay.new b d m = .ok s → RepeatsAfter (T := T) s (min d m)) ∧
    (∀ (d : D) (s : LinearDelay D T), LinearDelay.new b d m = .ok s → RepeatsAfter (T := T) s m) := by
  refine ⟨fun d s hs b' N x y hx hy n hn => ?_, fun d s hs b' N x y hx hy n hn => ?_⟩
  · obtain ⟨s', hs', hi, he, -⟩ := Delay.new_spec (b := b) (d := d) hm
    obtain rfl := Except.ok.inj (hs.symm.trans hs')
    rw [hy.unique (Delay.responds hi he x)]
    exact delayedBy_repeats hx hn
  · obtain ⟨hmem, hw, hi, hdo, -⟩ := LinearDelay.new_frame hm hs
    have hr : s.read_ptr < s.memory.length := by
      obtain ⟨st, h0, hst⟩ := hy
      have h1 := hst 0
      rw [h0] at h1
      by_contra hc
      have h2 := process_panics (b := b') hi (not_lt.mp hc) hdo (x 0)
      have h3 : s.process b' (x 0) = .ok (st 1, y 0) := h1
      rw [h2] at h3
      exact absurd h3 (by simp)
    obtain ⟨e, he⟩ := LinearDelay.eff_of_lt hi.hw hr
    rw [hy.unique (LinearDelay.responds hi he hdo x)]
    have hl : s.memory.length = m + 1 := by rw [hmem]; simp
    have h1 := he.1
    simp only
    rw [delayedBy_repeats hx (by omega), delayedBy_repeats hx (by unfold older; split_ifs <;> omega)]
end

section
variable {f : Fmt} {L : Libm f} {σ τ : Type} [Processor σ (Fl L)] [Processor τ ℝ]

/-- **C124**, with the rounding bounds (C73, C83): the cycle stays within `E` of the periodic signal that the exact filter
settles into. -/
theorem C124_close {s : σ} {r : τ} {X E : ℝ} {C : ℕ} (h : Tracks (L := L) s r X E) (hl : LimitCycle (T := Fl L) s C) {N : ℕ} (hN : 0 < N)
    {x y : ℕ → Fl L} {Y : ℕ → ℝ} (hx : ∀ n, (x n).Within X) (hp : Repeats N x) (hY : Repeats N Y)
    (hc : ConvergesTo r (fun n => (x n).toReal) Y) {b : Build} (hy : Responds b s x y) :
    ∃ M j, 0 < j ∧ M + j ≤ C ∧ ∀ n, M * N ≤ n → y (n + j * N) = y n ∧ (y n).Finite ∧ |(y n).toReal - Y n| ≤ E := by
  obtain ⟨M, j, hj, hMC, hrep⟩ := hl b N x y hN hp hy
  refine ⟨M, j, hj, hMC, fun n hn => ⟨hrep n hn, ?_⟩⟩
  obtain ⟨z, hz⟩ := h.2.1 b (fun n => (x n).toReal)
  have ht := h.2.2 b x y z hx hy hz
  refine ⟨(ht n).1, ?_⟩
  have hk : ∀ k, y (n + k * (j * N)) = y n ∧ Y (n + k * (j * N)) = Y n := by
    have hYk : ∀ n k, Y (n + k * N) = Y n := by
      intro n k
      induction k with
      | zero => simp
      | succ k ih => rw [add_mul, one_mul, ← add_assoc, hY, ih]
    intro k
    refine ⟨?_, by rw [← mul_assoc, hYk]⟩
    induction k with
    | zero => simp
    | succ k ih => rw [add_mul, one_mul, ← add_assoc, hrep _ (by omega), ih]
  refine le_of_forall_pos_le_add fun ε hε => ?_
  obtain ⟨K, hK⟩ := Metric.tendsto_atTop.mp (hc.2 b z hz) ε hε
  have hjN : 1 ≤ j * N := Nat.mul_pos hj hN
  have h1 := (ht (n + K * (j * N))).2
  have h2 := hK (n + K * (j * N)) (by nlinarith)
  rw [(hk K).1] at h1
  rw [(hk K).2, Real.dist_eq, sub_zero] at h2
  calc |(y n).toReal - Y n| = |((y n).toReal - z (n + K * (j * N))) + (z (n + K * (j * N)) - Y n)| := by congr 1; ring
    _ ≤ _ := (abs_add_le _ _).trans (by linarith)

/-- **C124**, silence: the output of a stable filter ends in a cycle within `E` of zero. -/
theorem C124_silence {s : σ} {r : τ} {X E : ℝ} {C : ℕ} (h : Tracks (L := L) s r X E) (hX : 0 ≤ X) (hl : LimitCycle (T := Fl L) s C)
    (hr : SilenceDecays r) {b : Build} {y : ℕ → Fl L} (hy : Responds b s (fun _ => zero) y) :
    ∃ M j, 0 < j ∧ M + j ≤ C ∧ ∀ n, M ≤ n → y (n + j) = y n ∧ (y n).Finite ∧ |(y n).toReal| ≤ E := by
  obtain ⟨M, j, h1, h2, h3⟩ := C124_close h hl (N := 1) one_pos (Y := fun _ => 0) (fun n => ⟨Fl.zero_finite, by simpa using hX⟩)
    (fun n => rfl) (fun n => rfl) ⟨hr.1, fun b z hz => by simpa using hr.2 b _ z hz ⟨0, fun n _ => by simp⟩⟩ hy
  refine ⟨M, j, h1, h2, fun n hn => ?_⟩
  simpa using h3 n (by omega)

/-- **C124**, sharpness: the cycle need not be silence. A one-pole filter with `a1 = -3/4`, whose output dies away in exact
arithmetic (C35), holding the smallest positive number gives it back forever. -/
theorem C124_stuck (L : Libm f) : ∃ s : OnePole (Fl L), s.b0 = one ∧ s.a1.toReal = -(3 / 4) ∧ s.y_z1.toReal = 2 ^ f.emin ∧
    SilenceDecays s.exact ∧ ∀ b, Responds b s (fun _ => zero) (fun _ => s.y_z1) := by
  have hp := f.hp
  have hemin := f.hemin
  have hemax := f.hemax
  have ht := two_zpow_pos f.emin
  have hl : (2 : ℝ) ^ f.emin < f.lim := by
    unfold Fmt.lim
    rw [zpow_lt_zpow_iff_right₀ (by norm_num)]; omega
  obtain ⟨a, ha, ea⟩ := Fl.exists_of_isRep L (v := -(3 / 4)) (isRep_neg.mpr ⟨3, -2, by
      have : (2 : ℤ) ^ 2 ≤ 2 ^ f.p := pow_le_pow_right₀ (by norm_num) hp
      rw [abs_of_pos (by norm_num)]; omega, by omega, by norm_num⟩) (by
      rw [_root_.abs_neg, abs_of_pos (by norm_num)]
      exact lt_trans (by norm_num) (FP.one_lt_lim f))
  obtain ⟨t, htf, et⟩ := Fl.exists_of_isRep L (v := 2 ^ f.emin) (isRep_two_zpow le_rfl) (by rwa [abs_of_pos ht])
  refine ⟨⟨t, one, a⟩, rfl, ea, et, C35_silence_decays.1 _ ?_, fun b => ?_⟩
  · show |a.toReal| < 1
    rw [ea]; norm_num
  · have hlog : Int.log 2 |(-(3 / 4) : ℝ) * 2 ^ f.emin| = f.emin - 1 := by
      rw [abs_mul, abs_of_pos ht, _root_.abs_neg, abs_of_pos (by norm_num)]
      have h1 : (3 / 4 : ℝ) * 2 ^ f.emin = 3 / 2 * 2 ^ (f.emin - 1) := by
        rw [zpow_sub_one₀ (by norm_num)]; ring
      have h2 := two_zpow_pos (f.emin - 1)
      have h3 := log_eq_of (x := 3 / 4 * 2 ^ f.emin) (k := f.emin - 1) (by rw [abs_of_pos (by positivity), h1]; linarith)
        (by rw [abs_of_pos (by positivity), zpow_add_one₀ (by norm_num), h1]; linarith)
      rwa [abs_of_pos (by positivity)] at h3
    have hr : rnd f (-(3 / 4) * 2 ^ f.emin) = -(2 : ℝ) ^ f.emin := by
      have hc : cexp f ((-(3 / 4) : ℝ) * 2 ^ f.emin) = f.emin := by
        unfold cexp
        rw [hlog]; omega
      unfold rnd
      rw [hc, mul_div_assoc, div_self ht.ne', mul_one, rne_eq_of_lt (n := -1) (by norm_num [abs_lt])]
      push_cast; ring
    have hm := Fl.mul_val ha htf (by
      rw [ea, et]
      refine FP.noOvf_of_le (isRep_two_zpow le_rfl) hl ?_
      rw [abs_mul, abs_of_pos ht, _root_.abs_neg, abs_of_pos (by norm_num)]
      linarith)
    rw [ea, et, hr] at hm
    have h0 := Fl.one_mul_val (L := L) Fl.zero_finite
    rw [Fl.zero_toReal] at h0
    have hs := Fl.sub_val h0.1 hm.1 (by rw [h0.2, hm.2]; simpa [← et] using Fl.noOvf_toReal t)
    rw [h0.2, hm.2, sub_neg_eq_add, zero_add, ← et, rnd_of_isRep t.isRep_toReal] at hs
    have key : (one : Fl L) *. zero -. a *. t = t := Fl.ext_of_ne hs.1 htf hs.2 (by rw [hs.2, et]; exact ht.ne')
    rw [OnePole.responds_iff]
    intro n
    cases n <;> exact key.symm

/-- The states of a one-pole filter with given coefficients: finitely many, and closed under `process`. -/
example (s : OnePole (Fl L)) : LimitCycle (T := Fl L) s (Set.range fun v : Fl L => ({ s with y_z1 := v } : OnePole (Fl L))).ncard :=
  C124_finite (Set.finite_range _) ⟨s.y_z1, rfl⟩ fun b t u x y ht h => by
    obtain ⟨v, rfl⟩ := ht
    obtain ⟨rfl, -⟩ := Prod.mk.inj (Except.ok.inj h)
    exact ⟨_, rfl⟩

/-- With C73, a one-pole filter in `f32` with `a1 = -1/2`: after the input has stopped the output ends in a cycle of numbers no
larger than 0.00011. -/
example {L : Libm binary32} {s : OnePole (Fl L)} (ht : Tracks s s.exact 1 (1793 * 2 ^ (-24 : ℤ))) (e1 : s.a1.toReal = -(1 / 2)) (b : Build) :
    ∃ y, Responds b s (fun _ => zero : ℕ → Fl L) y ∧ ∃ M j, 0 < j ∧ M + j ≤ 2 ^ 32 ∧ ∀ n, M ≤ n → y (n + j) = y n ∧ |(y n).toReal| ≤ 0.00011 := by
  obtain ⟨y, hy⟩ := ht.1 b (fun _ => zero)
  obtain ⟨M, j, h1, h2, h3⟩ := C124_silence ht zero_le_one ((C124_filters L).1 s) (C35_silence_decays.1 s.exact (by
    show |s.a1.toReal| < 1
    rw [e1]; norm_num)) hy
  refine ⟨y, hy, M, j, h1, h2.trans (by rw [(C124_count L).2.2.1]; norm_num), fun n hn => ⟨(h3 n hn).1, (h3 n hn).2.2.trans (by norm_num)⟩⟩
end

end Rasp
