import Verif.Props.Pluck

/-!
# C128: a filter in the feedback path of a fractional delay line, in floating point
-/

namespace Rasp
open FloatOps Fl

variable {f : Fmt} {L : Libm f} {L32 : Libm binary32} {b : Build}

/-! ## The equation of the loop -/

/-- **C128**. A `LinearDelay` with delay at least 2 in any reachable state and any filter `p` in a loop, in IEEE arithmetic: the loop
runs forever, and its streams are exactly, bit for bit, those in which the line answers `u` with `v`, the filter answers `v` with
`w`, and `u[n] = c(x[n], w[n])`. -/
theorem C128_loop [Target] {τ : Type} [Processor τ (Fl L)] {s : LinearDelay (Fl L32) (Fl L)}
    (hs : LinearDelay.ReachableVia b (fun n => n ≤ 2 ^ 24) s) (hd : 2 ≤ s.getDelay.toReal) (hp : NeverPanics τ (T := Fl L)) (p : τ)
    (c : Fl L → Fl L → Fl L) (x : ℕ → Fl L) :
    (∃ u v w r, DampedLoop b (LinearDelay.nextOut b) c s p x u v w r) ∧
    ∀ u v w r, DampedLoop b (LinearDelay.nextOut b) c s p x u v w r ↔
      Responds b s u v ∧ Responds b p v w ∧ (∀ n, u n = c (x n) (w n)) ∧ r = v := by
  constructor
  · obtain ⟨hi, hl, e, he, hfar, -⟩ := hs.finv
    refine damped_exists (fun t => t.WInv ∧ t.Eff e) ?_ hp ⟨hi, he⟩ c p x
    rintro t ⟨ht, hte⟩
    have hr := hte.lt ht.hw
    have hlen := ht.len_le
    have hmod := isizeMax_lt
    obtain ⟨mid, w, h1⟩ : ∃ mid w, t.nextOut b = .ok (mid, w) := by
      cases hdn : t.do_next_out
      · exact ⟨t, t.next_out, by unfold LinearDelay.nextOut; rw [if_neg (by simp [hdn])]⟩
      · obtain ⟨m0, m1, -, -, hn⟩ := LinearDelay.nextOut_eq (b := b) hr hdn (by omega)
        exact ⟨_, _, hn⟩
    refine ⟨mid, w, h1, fun z => ?_⟩
    obtain rfl := LinearDelay.nextOut_frame h1
    obtain ⟨s', hp, hnx⟩ := LinearDelay.process_cached (b := b) (s := { t with next_out := w, do_next_out := false })
      ⟨ht.hw, ht.cap⟩ hr rfl z
    exact ⟨s', w, hp, hnx.winv, hnx.eff e hte⟩
  · intro u v w r
    rw [dampedLoop_iff, (C92_linearDelay_ieee hs hd (fun a _ => a) u).2]
    constructor
    · rintro ⟨⟨h1, -, h2⟩, h3, h4⟩
      exact ⟨h1, h3, h4, h2⟩
    · rintro ⟨h1, h2, h3, h4⟩
      exact ⟨⟨h1, fun _ => rfl, h4⟩, h2, h3⟩

/-! ## Distance from the exact loop -/

/-- The induction behind C128: a line that returns its past with error `lam`, then a filter with error `E` and gain `G`. -/
theorem damped_close {σ τ : Type} [Processor σ (Fl L)] [Processor τ ℝ] {p : σ} {q : τ} {g : Fl L} {X V W E G D lam Z : ℝ}
    (hF : Follows b p q (W + lam) E) (hG : GainAtMost b q G) (hgf : g.Finite) (hg1 : |g.toReal| < 1) (hlam : 0 ≤ lam) (hW : 0 ≤ W)
    (hD0 : 0 ≤ D) (hD : 4 * f.u * V + 3 * f.tiny + |g.toReal| * (E + G * (D + lam)) ≤ D) (hZW : Z + D ≤ W)
    (hWV : G * (W + lam) + E ≤ V) (hXV : X ≤ V) (hη : f.tiny ≤ V) (hov : 4 * V ≤ 2 ^ f.emax)
    {x u v w : ℕ → Fl L} {z zv zw : ℕ → ℝ} (hx : ∀ n, (x n).Within X) (hw : Responds b p v w) (hu : ∀ n, u n = x n +. (g *. w n))
    (hw' : Responds b q zv zw) (hu' : ∀ n, z n = (x n).toReal + g.toReal * zw n) (hz : ∀ n, |z n| ≤ Z) (hzv : ∀ n, |zv n| ≤ Z)
    (hzw : ∀ n, |zw n| ≤ G * Z)
    (hv : ∀ n, (∀ j < n, (u j).Within W) → (∀ j < n, |(u j).toReal - z j| ≤ D) → (v n).Finite ∧ |(v n).toReal - zv n| ≤ D + lam) :
    StaysClose u z D := by
  have hG0 := hG.nonneg
  intro n
  induction n using Nat.strong_induction_on with
  | _ n ih =>
    have hvk : ∀ j ≤ n, (v j).Within (W + lam) ∧ |(v j).toReal - zv j| ≤ D + lam := by
      intro j hj
      have hui : ∀ i < j, (u i).Within W := by
        intro i hi
        obtain ⟨a1, a2⟩ := ih i (by omega)
        refine ⟨a1, ?_⟩
        have := abs_sub_abs_le_abs_sub (u i).toReal (z i)
        have := hz i
        linarith
      obtain ⟨a1, a2⟩ := hv j hui fun i hi => (ih i (by omega)).2
      refine ⟨⟨a1, ?_⟩, a2⟩
      have := abs_sub_abs_le_abs_sub (v j).toReal (zv j)
      have := hzv j
      linarith
    obtain ⟨y, y', hy, hy', hyy⟩ := hF (fun j => if j ≤ n then v j else zero) fun j => by
      split_ifs with hj
      · exact (hvk j hj).1
      · exact ⟨zero_finite, by rw [zero_toReal, _root_.abs_zero]; linarith⟩
    obtain ⟨yz, hyz⟩ := hG.1 fun j => if j ≤ n then zv j else 0
    have e1 : w n = y n := hw.sofar hy n fun j hj => (if_pos hj).symm
    have e2 : zw n = yz n := hw'.sofar hyz n fun j hj => (if_pos hj).symm
    have e3 := hG.2.2 _ _ _ _ (D + lam) hy' hyz (fun j => by
      split_ifs with hj
      · exact (hvk j hj).2
      · rw [zero_toReal, sub_zero, _root_.abs_zero]; linarith) n
    obtain ⟨e4, e5⟩ := hyy n
    rw [← e1] at e4 e5
    rw [← e2] at e3
    have e6 : |(w n).toReal - zw n| ≤ E + G * (D + lam) := by
      rw [show (w n).toReal - zw n = ((w n).toReal - y' n) + (y' n - zw n) by ring]
      exact (abs_add_le _ _).trans (add_le_add e5 e3)
    have e7 : |(w n).toReal| ≤ V := by
      have h1 := abs_sub_abs_le_abs_sub (w n).toReal (zw n)
      have h2 := hzw n
      have h3 := mul_le_mul_of_nonneg_left hZW hG0
      rw [mul_add] at h3
      linarith
    obtain ⟨c1, c2⟩ := comb_round (hx n) hgf ⟨e4, e7⟩ hXV hη hg1 hov
    rw [hu n]
    refine ⟨c1, ?_⟩
    rw [hu' n]
    have c3 : |g.toReal * (w n).toReal - g.toReal * zw n| ≤ |g.toReal| * (E + G * (D + lam)) := by
      rw [← mul_sub, abs_mul]
      exact mul_le_mul_of_nonneg_left e6 (abs_nonneg _)
    rw [show (x n +. g *. w n).toReal - ((x n).toReal + g.toReal * zw n) =
      ((x n +. g *. w n).toReal - ((x n).toReal + g.toReal * (w n).toReal)) + (g.toReal * (w n).toReal - g.toReal * zw n) by ring]
    refine (abs_add_le _ _).trans ?_
    linarith

/-- **C128**. A new `LinearDelay` of at most 2^24 - 1 slots and any filter in its feedback path, with delay `δ ≥ 2` clear of the
rounding of the positions (C78): where `|g| G < 1` and nothing comes near overflow, all samples in the loop are finite and stay
within `D` of the exact loop for ever. `D` is made of the rounding of one round, the filter's own error `E` and the error `lam` of
the interpolation. -/
theorem C128_close [Target] {σ τ : Type} [Processor σ (Fl L)] [Processor τ ℝ] {p : σ} {q : τ} (hp24 : 24 ≤ f.p) (hem : f.emin ≤ -149)
    {m : ℕ} (hm : Allocatable (Fl L) m) (hm' : Allocatable ℝ m) (hl : m + 1 < 2 ^ 24) (hp : NeverPanics σ (T := Fl L))
    (hq : NeverPanics τ (T := ℝ)) {d : Fl L32} (hdf : d.Finite) {δ : ℝ} (hδ : δ = max 0 (min d.toReal m)) (hcl : ClearOf (m + 1) δ)
    (hδ2 : 2 ≤ δ) {g : Fl L} {X V W E G D lam : ℝ} (hE : 0 ≤ E) (hW : 0 ≤ W)
    (hlam : lam = 2 * W * ((m + 1 : ℕ) / 2 ^ 22) + 6 * (f.u * W + f.tiny)) (hF : Follows b p q (W + lam) E) (hG : GainAtMost b q G)
    (hgf : g.Finite) (hg1 : |g.toReal| < 1) (hgG : |g.toReal| * G < 1)
    (hD : D = (4 * f.u * V + 3 * f.tiny + |g.toReal| * (E + G * lam)) / (1 - |g.toReal| * G))
    (hXW : X / (1 - |g.toReal| * G) + D ≤ W) (hWV : G * (W + lam) + E ≤ V) (hXV : X ≤ V) (hη : f.tiny ≤ V)
    (hov : 4 * V ≤ 2 ^ f.emax) (hovW : 4 * (W + f.tiny) ≤ 2 ^ f.emax)
    {x u v w r : ℕ → Fl L} {z zv zw zr : ℕ → ℝ} (hx : ∀ n, (x n).Within X) {s : LinearDelay (Fl L32) (Fl L)} {s' : LinearDelay ℝ ℝ}
    (hs : LinearDelay.new b d m = .ok s) (hs' : LinearDelay.new b δ m = .ok s')
    (hloop : DampedLoop b (LinearDelay.nextOut b) (fun a c => a +. (g *. c)) s p x u v w r)
    (hloop' : DampedLoop b (LinearDelay.nextOut b) (fun a c => a + g.toReal * c) s' q (fun n => (x n).toReal) z zv zw zr) :
    StaysClose u z D := by
  have ht0 := f.tiny_pos
  have hu0 := f.u_pos
  have hX : 0 ≤ X := (abs_nonneg _).trans (hx 0).2
  have hq0 : 0 < 1 - |g.toReal| * G := by linarith
  have hZ : 0 ≤ X / (1 - |g.toReal| * G) := by positivity
  have hV : 0 ≤ V := ht0.le.trans hη
  have hG0 := hG.nonneg
  have hδm : δ ≤ m := by rw [hδ]; exact max_le (by positivity) (min_le_right _ _)
  have hm2 : 2 ≤ m := by exact_mod_cast hδ2.trans hδm
  have hδ1 : 1 ≤ δ := by linarith
  obtain ⟨s₁, hs₁, -, hgd, hacc⟩ := C78_new_accurate (b := b) (L := L) hp24 hem hm hl (X := W) hovW hdf hδ hcl
  obtain rfl := Except.ok.inj (hs.symm.trans hs₁)
  obtain ⟨hmem, -⟩ := LinearDelay.new_frame hm hs
  have hvia : LinearDelay.ReachableVia b (fun n => n ≤ 2 ^ 24) s := .new hm hs (by rw [hmem, List.length_replicate]; omega)
  have hd2 : 2 ≤ s.getDelay.toReal := by rw [hgd]; exact hδ2
  obtain ⟨hsv, hw, hu, -⟩ := ((C128_loop hvia hd2 hp p _ x).2 u v w r).mp hloop
  obtain ⟨s₂, hs₂, -, hiff⟩ := C125_linear_loop (b := b) hm' (by omega) hδ1 hq q (fun a c => a + g.toReal * c) fun n => (x n).toReal
  obtain rfl := Except.ok.inj (hs'.symm.trans hs₂)
  obtain ⟨hv', hw', hu', -⟩ := (hiff z zv zw zr).mp hloop'
  rw [min_eq_left hδm] at hv'
  have hz := fun n => damped_bounded hG hgG hw' hu' (by rw [hv']; exact fun n B hB h => interp_le hδ1 hB h) (fun n => (hx n).2) n
  have hDq : D * (1 - |g.toReal| * G) = 4 * f.u * V + 3 * f.tiny + |g.toReal| * (E + G * lam) := by rw [hD]; field_simp
  have hlam0 : 0 ≤ lam := by rw [hlam]; positivity
  have hD0 : 0 ≤ D := by rw [hD]; positivity
  refine damped_close (Z := X / (1 - |g.toReal| * G)) hF hG hgf hg1 hlam0 hW hD0 (by nlinarith) hXW hWV hXV hη hov hx hw hu hw' hu'
    (fun n => (hz n).1) (fun n => ?_) (fun n => (hz n).2) fun n hwi hc => ?_
  · rw [hv']
    exact interp_le hδ1 hZ fun j _ => (hz j).1
  · let u' : ℕ → Fl L := fun j => if j < n then u j else zero
    obtain ⟨y, hy, hya⟩ := hacc u' fun j => by
      show (if j < n then u j else zero : Fl L).Within W
      split_ifs with hj
      · exact hwi j hj
      · exact ⟨zero_finite, by rw [zero_toReal]; simpa using hW⟩
    have hf := ((C92_linearDelay_ieee hvia hd2 (fun a _ => a) u).2 u v v).mpr ⟨hsv, fun _ => rfl, rfl⟩
    have hf' := ((C92_linearDelay_ieee hvia hd2 (fun a _ => a) u').2 u' y y).mpr ⟨hy, fun _ => rfl, rfl⟩
    have e : v n = y n := hf.causal hf' fun j hj => (if_pos hj).symm
    rw [e]
    refine ⟨(hya n).1, ?_⟩
    have e2 : interp δ [] (fun n => (u' n).toReal) n = interp δ [] (fun n => (u n).toReal) n := interp_congr hδ1 fun j hj => by
      show (if j < n then u j else zero : Fl L).toReal = _
      rw [if_pos hj]
    have a1 := (hya n).2
    rw [e2, ← hlam] at a1
    have a2 := interp_le hδ1 (n := n) (e := fun k => (u k).toReal - z k) hD0 hc
    rw [← interp_sub] at a2
    rw [hv', show (y n).toReal - interp δ [] z n =
      ((y n).toReal - interp δ [] (fun n => (u n).toReal) n) + (interp δ [] (fun n => (u n).toReal) n - interp δ [] z n) by ring]
    refine (abs_add_le _ _).trans ?_
    linarith

/-! ## Cycles -/

/-- What the line returns depends only on the last `m + 1` samples: the loop ends in a cycle. -/
theorem damped_cycle {T τ : Type} [Processor τ T] [Finite T] [Finite τ] {m N : ℕ} (hN : 0 < N) {p : τ} {c : T → T → T}
    {x u v w : ℕ → T} (hx : Repeats N x) (hw : Responds b p v w) (hu : ∀ n, u n = c (x n) (w n))
    (hv : ∀ n n', m + 1 ≤ n → m + 1 ≤ n' → (∀ k, 1 ≤ k → k ≤ m + 1 → u (n - k) = u (n' - k)) → v n = v n') :
    ∃ M j, 0 < j ∧ M + j ≤ m + 1 + Nat.card T ^ (m + 1) * Nat.card τ ∧
      ∀ n, M * N ≤ n → u (n + j * N) = u n ∧ v (n + j * N) = v n ∧ w (n + j * N) = w n := by
  obtain ⟨ft, -, hft⟩ := hw
  have hxk : ∀ n i, x (n + i * N) = x n := by
    intro n i
    induction i with
    | zero => simp
    | succ i ih => rw [add_mul, one_mul, ← add_assoc, hx, ih]
  let key : ℕ → (Fin (m + 1) → T) × τ := fun i => (fun a => u (i * N - 1 - a), ft (i * N))
  have main : ∀ i j : ℕ, m + 1 ≤ i → i < j → key i = key j → ∀ n, i * N ≤ n →
      u (n + (j - i) * N) = u n ∧ v (n + (j - i) * N) = v n ∧ w (n + (j - i) * N) = w n := by
    intro i j hi hij he n hn
    have hiN : i ≤ i * N := Nat.le_mul_of_pos_right i hN
    have hjN : j * N = i * N + (j - i) * N := by rw [← add_mul]; congr 1; omega
    obtain ⟨he1, he2⟩ := Prod.mk.inj he
    have hpast : ∀ a, a ≤ m → u (i * N - 1 - a + (j - i) * N) = u (i * N - 1 - a) := by
      intro a ha
      have := congrFun he1 ⟨a, by omega⟩
      simp only at this
      rw [this, hjN]
      congr 1
      omega
    have hvs : ∀ t, (∀ y, i * N - (m + 1) ≤ y → y < i * N + t → u (y + (j - i) * N) = u y) → v (i * N + t + (j - i) * N) = v (i * N + t) := by
      intro t ht
      refine hv _ _ (by omega) (by omega) fun k h1 h2 => ?_
      rw [show i * N + t + (j - i) * N - k = i * N + t - k + (j - i) * N by omega]
      exact ht _ (by omega) (by omega)
    have all : ∀ t, ft (i * N + t + (j - i) * N) = ft (i * N + t) ∧ ∀ y, i * N - (m + 1) ≤ y → y < i * N + t → u (y + (j - i) * N) = u y := by
      intro t
      induction t with
      | zero =>
        refine ⟨by rw [add_zero, he2, hjN], fun y h1 h2 => ?_⟩
        have := hpast (i * N - 1 - y) (by omega)
        rwa [show i * N - 1 - (i * N - 1 - y) = y by omega] at this
      | succ t ih =>
        obtain ⟨ih1, ih2⟩ := ih
        have h1 := hft (i * N + t + (j - i) * N)
        rw [ih1, hvs t ih2, hft (i * N + t)] at h1
        obtain ⟨h2, h3⟩ := Prod.mk.inj (Except.ok.inj h1)
        refine ⟨by rw [show i * N + (t + 1) + (j - i) * N = i * N + t + (j - i) * N + 1 by omega, ← h2]; rfl, fun y h4 h5 => ?_⟩
        rcases Nat.lt_or_ge y (i * N + t) with h6 | h6
        · exact ih2 y h4 h6
        · obtain rfl : y = i * N + t := by omega
          rw [hu, hu, hxk, ← h3]
    obtain ⟨t, rfl⟩ := Nat.exists_eq_add_of_le hn
    obtain ⟨a3, a4⟩ := all t
    have h1 := hft (i * N + t + (j - i) * N)
    rw [a3, hvs t a4, hft (i * N + t)] at h1
    exact ⟨(all (t + 1)).2 _ (by omega) (by omega), hvs t a4, (Prod.mk.inj (Except.ok.inj h1)).2.symm⟩
  obtain ⟨C, hC⟩ : ∃ C, C = Nat.card T ^ (m + 1) * Nat.card τ := ⟨_, rfl⟩
  have hcard : Nat.card ((Fin (m + 1) → T) × τ) = C := by
    rw [hC, Nat.card_prod, Nat.card_fun, Nat.card_fin]
  have : Fintype ((Fin (m + 1) → T) × τ) := Fintype.ofFinite _
  have hlt : Fintype.card ((Fin (m + 1) → T) × τ) < Fintype.card (Fin (C + 1)) := by
    rw [Fintype.card_fin, ← Nat.card_eq_fintype_card]; omega
  obtain ⟨i, j, hij, he⟩ := Fintype.exists_ne_map_eq_of_card_lt (fun i : Fin (C + 1) => key (m + 1 + i)) hlt
  rw [← hC]
  rcases lt_or_gt_of_ne (fun h => hij (Fin.ext h) : i.val ≠ j.val) with h | h
  · exact ⟨m + 1 + i, m + 1 + j - (m + 1 + i), by omega, by omega, main _ _ (by omega) (by omega) he⟩
  · exact ⟨m + 1 + j, m + 1 + i - (m + 1 + j), by omega, by omega, main _ _ (by omega) (by omega) he.symm⟩

/-- **C128**. A new `LinearDelay` of delay at least 2 with any filter in its feedback path, in IEEE arithmetic: for every periodic input,
whatever the filter, its coefficients and the way of adding the input, the loop ends in an exact cycle. -/
theorem C128_cycle [Target] {τ : Type} [Processor τ (Fl L)] [Finite τ] {m : ℕ} (hm : Allocatable (Fl L) m) (hl : m + 1 ≤ 2 ^ 24)
    (hp : NeverPanics τ (T := Fl L)) {p : τ} {c : Fl L → Fl L → Fl L} {d : Fl L32} {s : LinearDelay (Fl L32) (Fl L)}
    (hs : LinearDelay.new b d m = .ok s) (hd : 2 ≤ s.getDelay.toReal) {N : ℕ} (hN : 0 < N) {x u v w r : ℕ → Fl L} (hx : Repeats N x)
    (hloop : DampedLoop b (LinearDelay.nextOut b) c s p x u v w r) :
    ∃ M j, 0 < j ∧ M + j ≤ m + 1 + f.count ^ (m + 1) * Nat.card τ ∧
      ∀ n, M * N ≤ n → u (n + j * N) = u n ∧ v (n + j * N) = v n ∧ w (n + j * N) = w n := by
  obtain ⟨hmem, hw, hi, hdo, -⟩ := LinearDelay.new_frame hm hs
  have hvia : LinearDelay.ReachableVia b (fun n => n ≤ 2 ^ 24) s := .new hm hs (by rw [hmem, List.length_replicate]; omega)
  obtain ⟨hsv, hw, hu, -⟩ := ((C128_loop hvia hd hp p c x).2 u v w r).mp hloop
  obtain ⟨-, -, e, he, hfar, -⟩ := hvia.finv
  have h2 := hfar hd
  have hlen : s.memory.length = m + 1 := by rw [hmem]; simp
  have hem := he.1
  have hve := hsv.unique (LinearDelay.responds hi he hdo u)
  have := damped_cycle (m := m) hN hx hw hu fun n n' hn hn' h => by
    rw [hve]
    unfold delayedBy older
    simp only [show ¬ e = 0 by omega, if_false]
    rw [if_pos (by omega), if_pos (by omega), if_pos (by omega), if_pos (by omega), h e (by omega) (by omega), h (e - 1) (by omega) (by omega)]
  obtain ⟨M, j, hj, hMj, h⟩ := this
  exact ⟨M, j, hj, hMj.trans (Nat.add_le_add_left (Nat.mul_le_mul_right _ (Nat.pow_le_pow_left (C124_count L).2.1 _)) _), h⟩

/-! Non-vacuity. -/

/-- A smoother and the factor 1/2 in the feedback path of a line of 441.5 samples, of 1001 slots, in single precision: for inputs up
to 1/4 the loop stays within 1/2000 of the exact one. -/
example [Target] {L32 L : Libm binary32} (b : Build) (hm : Allocatable (Fl L) 1000) (hm' : Allocatable ℝ 1000) :
    ∃ (p : OnePole (Fl L)) (g : Fl L) (d : Fl L32) (s : LinearDelay (Fl L32) (Fl L)) (s' : LinearDelay ℝ ℝ),
    g.toReal = 1 / 2 ∧ d.toReal = 883 / 2 ∧ LinearDelay.new b d 1000 = .ok s ∧ LinearDelay.new b (883 / 2 : ℝ) 1000 = .ok s' ∧
    ∀ x : ℕ → Fl L, (∀ n, (x n).Within (1 / 4)) →
      (∃ u v w r, DampedLoop b (LinearDelay.nextOut b) (fun a c => a +. (g *. c)) s p x u v w r) ∧
      (∃ u v w r, DampedLoop b (LinearDelay.nextOut b) (fun a c => a + g.toReal * c) s' p.exact (fun n => (x n).toReal) u v w r) ∧
      ∀ u v w r z zv zw zr, DampedLoop b (LinearDelay.nextOut b) (fun a c => a +. (g *. c)) s p x u v w r →
        DampedLoop b (LinearDelay.nextOut b) (fun a c => a + g.toReal * c) s' p.exact (fun n => (x n).toReal) z zv zw zr →
        StaysClose u z (1 / 2000) := by
  have h1 : (1 / 2 : ℝ) = 2 ^ (-1 : ℤ) := by norm_num
  obtain ⟨v, hv, e⟩ := Fl.exists_of_isRep L (v := 1 / 2) (by rw [h1]; exact isRep_two_zpow (by decide)) (by unfold Fmt.lim; norm_num [binary32])
  have e' : |v.toReal| = 1 / 2 := by rw [e]; norm_num
  have hrep : IsRep binary32 (883 / 2) := ⟨883, -1, by show |(883 : ℤ)| < 2 ^ 24; norm_num, by show (-149 : ℤ) ≤ -1; norm_num, by norm_num⟩
  obtain ⟨d, hd, ed⟩ := Fl.exists_of_isRep L32 hrep (by unfold Fmt.lim; norm_num [binary32, abs_of_pos])
  have hF : Follows b (⟨zero, v, neg v⟩ : OnePole (Fl L)) (OnePole.exact ⟨zero, v, neg v⟩) 1 (1793 * 2 ^ (-24 : ℤ)) := by
    have hQ : errGain (|v.toReal| + |(neg v).toReal|) (1 / 2) 0 = 4 := by
      unfold errGain; rw [Fl.neg_toReal, e]; norm_num [abs_of_pos]
    have key := C73_onePole (s := ⟨zero, v, neg v⟩) (X := 1) (p := 1 / 2) hv (Fl.neg_finite.mpr hv) ⟨Fl.zero_finite, by simp⟩
      ⟨by rw [Fl.neg_toReal, e]; norm_num, by simp, by norm_num, by simp⟩
      (by rw [hQ]; exact ⟨by norm_num [binary32], by simp only [Fmt.tiny, binary32]; norm_num⟩)
    rw [hQ] at key
    refine (key.le ?_).follows b
    simp only [errBound, Fmt.u, Fmt.tiny, binary32]
    norm_num
  have hG : GainAtMost b (OnePole.exact (⟨zero, v, neg v⟩ : OnePole (Fl L))) 1 := by
    have e2 : OnePole.exact ⟨zero, v, neg v⟩ = OnePole.clear ⟨0, 1 / 2, -(1 / 2)⟩ := by
      unfold OnePole.exact; rw [Fl.neg_toReal, Fl.zero_toReal, e]; rfl
    rw [e2]
    refine C112_gain_filter ((C30_cleared_solve_difference_equation.1 ⟨0, 1 / 2, -(1 / 2)⟩).isConvolution b) ?_
    have := (C107_filters b).2.2.1 ⟨0, 1 / 2, -(1 / 2)⟩ (by norm_num [abs_of_pos])
    convert this using 1
    norm_num [abs_of_pos]
  have hcl : ClearOf (1000 + 1) (883 / 2) := .inr (by
    have : ⌊(883 / 2 : ℝ)⌋₊ = 441 := by rw [Nat.floor_eq_iff (by norm_num)]; norm_num
    rw [this]; norm_num)
  have hδ : (883 / 2 : ℝ) = max 0 (min d.toReal (1000 : ℕ)) := by rw [ed]; norm_num
  obtain ⟨s, hs, -, hgd, -⟩ := C78_new_accurate (b := b) (L := L) (L32 := L32) (by decide) (by decide) hm (by norm_num) (X := 1)
    (by simp only [Fmt.tiny, binary32]; norm_num) hd hδ hcl
  have hpf := (C03_filters_and_analysers_never_panic (Fl L)).1
  have hpr := (C03_filters_and_analysers_never_panic ℝ).1
  obtain ⟨s', hs', -, -⟩ := C125_linear_loop (b := b) hm' (by norm_num) (d := 883 / 2) (by norm_num) hpr
    (OnePole.exact (⟨zero, v, neg v⟩ : OnePole (Fl L))) (fun a c => a + v.toReal * c) fun _ => 0
  refine ⟨⟨zero, v, neg v⟩, v, d, s, s', e, ed, hs, hs', fun x hx => ⟨?_, ?_, fun u v' w r z zv zw zr hl hl' => ?_⟩⟩
  · obtain ⟨hmem, -⟩ := LinearDelay.new_frame hm hs
    exact (C128_loop (.new hm hs (by rw [hmem, List.length_replicate]; norm_num)) (by rw [hgd]; norm_num) hpf _ _ x).1
  · obtain ⟨s₂, hs₂, h, -⟩ := C125_linear_loop (b := b) hm' (by norm_num) (d := 883 / 2) (by norm_num) hpr
      (OnePole.exact (⟨zero, v, neg v⟩ : OnePole (Fl L))) (fun a c => a + v.toReal * c) fun n => (x n).toReal
    obtain rfl := Except.ok.inj (hs'.symm.trans hs₂)
    exact h
  · obtain ⟨lam, hlam⟩ : ∃ lam : ℝ, lam = 2 * (3 / 4) * ((1000 + 1 : ℕ) / 2 ^ 22) + 6 * (binary32.u * (3 / 4) + binary32.tiny) := ⟨_, rfl⟩
    have hlam' : lam ≤ 360 / 1000000 := by rw [hlam]; simp only [Fmt.u, Fmt.tiny, binary32]; norm_num
    obtain ⟨D, hD⟩ : ∃ D : ℝ, D = (4 * binary32.u * 2 + 3 * binary32.tiny + |v.toReal| * (1793 * 2 ^ (-24 : ℤ) + 1 * lam)) / (1 - |v.toReal| * 1) := ⟨_, rfl⟩
    have hD' : D ≤ 1 / 2000 := by
      rw [hD, e', div_le_iff₀ (by norm_num)]
      have : 4 * binary32.u * 2 + 3 * binary32.tiny ≤ 1 / 1000000 := by simp only [Fmt.u, Fmt.tiny, binary32]; norm_num
      norm_num at this ⊢
      linarith
    have := C128_close (V := 2) (W := 3 / 4) (X := 1 / 4) (by decide) (by decide) hm hm' (by norm_num) hpf hpr hd hδ hcl (by norm_num) (by norm_num)
      (by norm_num) hlam (fun x hx => hF x fun n => ⟨(hx n).1, (hx n).2.trans (by linarith)⟩) hG hv (by rw [e']; norm_num) (by rw [e']; norm_num) hD
      (by rw [e']; linarith) (by norm_num; linarith) (by norm_num) (by simp only [Fmt.tiny, binary32]; norm_num) (by norm_num [binary32])
      (by simp only [Fmt.tiny, binary32]; norm_num) hx hs hs' hl hl'
    exact fun n => ⟨(this n).1, (this n).2.trans hD'⟩

end Rasp
