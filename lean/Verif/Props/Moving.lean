import Verif.Props.LinearClose
import Verif.Props.Interpolation
import Verif.Props.Capacity
import Mathlib.Data.Nat.Log

/-! # C109: a `LinearDelay` whose delay time moves, in floating point -/

namespace Rasp
open FloatOps
variable {L32 : Libm binary32} {f : Fmt} {L : Libm f} {b : Build}

/-- What the line holds after `n` samples of `x`, starting from silence. -/
private structure Holds [Target] (m : ℕ) (x : ℕ → Fl L) (n : ℕ) (s : LinearDelay (Fl L32) (Fl L)) : Prop where
  winv : s.WInv
  fresh : s.do_next_out = true
  len : s.memory.length = m + 1
  wptr : s.write_ptr = n % (m + 1)
  hist : ∀ k, k < m + 1 → s.hist[k]? = some (past x n k)

private theorem Holds.step [Target] {m : ℕ} (hl : m + 1 ≤ 2 ^ 24) {x : ℕ → Fl L} {n : ℕ} {s : LinearDelay (Fl L32) (Fl L)} (h : Holds m x n s)
    (d : Fl L32) : ∃ s1 s2 e, s.setDelay b d = .ok s1 ∧ s1.Eff e ∧
      s1.process b (x n) = .ok (s2, (delayedBy e [] x n *. s1.om_alpha) +. (delayedBy (older (m + 1) e) [] x n *. s1.alpha)) ∧
      Holds m x (n + 1) s2 := by
  obtain ⟨s1, h1⟩ := setDelay_total (b := b) h.winv d
  obtain ⟨e1, e2, -, e4, -⟩ := LinearDelay.setDelay_frame h1
  have hi1 : s1.WInv := ⟨by rw [e1, e2]; exact h.winv.hw, by rw [e1]; exact h.winv.cap⟩
  have hh : s1.hist = s.hist := by unfold LinearDelay.hist; rw [e1, e2]
  have hl1 : s1.memory.length = m + 1 := by rw [e1]; exact h.len
  have hr := setDelay_in_bounds h.winv (by rw [h.len]; exact isRep32_nat hl) h1
  obtain ⟨e, he⟩ := LinearDelay.eff_of_lt (s := s1) hi1.hw (by rw [hl1, ← h.len]; exact hr)
  obtain ⟨s2, m0, m1, g0, g1, hp, hnx⟩ := LinearDelay.process_spec (b := b) hi1 he (e4.trans h.fresh) (x n)
  have key : ∀ k, k < m + 1 → (x n :: s1.hist.dropLast)[k]? = some (past x (n + 1) k) := by
    intro k hk
    cases k with
    | zero => simp [past]
    | succ k =>
      rw [List.getElem?_cons_succ, List.getElem?_dropLast, if_pos (by simp [hl1]; omega), hh, h.hist k (by omega)]
      unfold past
      congr 1
      by_cases hkn : k < n
      · rw [if_pos hkn, if_pos (by omega)]; congr 1; omega
      · rw [if_neg hkn, if_neg (by omega)]
  have he1 := he.1
  rw [hl1] at he1
  have ho : older s1.memory.length e < m + 1 := by rw [hl1]; unfold older; split <;> omega
  rw [key _ he1] at g0
  rw [key _ ho] at g1
  cases g0
  cases g1
  have hz : ∀ e, past x (n + 1) e = delayedBy e [] x n := fun e => by
    have := congrFun (delayedBy_replicate e 0 x) n
    simpa using this.symm
  rw [hz, hz, hl1] at hp
  refine ⟨s1, s2, e, h1, he, hp, hnx.winv, hnx.fresh, hnx.len.trans hl1, ?_, fun k hk => by rw [hnx.hist]; exact key k hk⟩
  rw [hnx.wptr, e2, hl1, h.wptr, Nat.mod_add_mod]

/-- Just below a whole number `N` up to `2^24` the next `f32` is at least `N/2^25` away. -/
theorem rnd32_just_below {N : ℕ} (h2 : 2 ≤ N) (hN : N ≤ 2 ^ 24) {d : ℝ} (h0 : 0 < d) (h1 : d ≤ N / 2 ^ 26) :
    rnd binary32 (N - d) = N := by
  obtain ⟨k, hk⟩ : ∃ k, k = Nat.clog 2 N := ⟨_, rfl⟩
  have hk1 : N ≤ 2 ^ k := by rw [hk]; exact Nat.le_pow_clog (by norm_num) _
  have hkp : 1 ≤ k := by rw [hk]; exact Nat.clog_pos (by norm_num) h2
  have hk2 : 2 ^ (k - 1) < N := by rw [hk]; exact Nat.pow_pred_clog_lt_self (by norm_num) h2
  have hk24 : k ≤ 24 := by
    by_contra hc
    have : 2 ^ 24 ≤ 2 ^ (k - 1) := Nat.pow_le_pow_right (by norm_num) (by omega)
    omega
  have r1 : (N : ℝ) ≤ 2 ^ (k : ℤ) := by rw [zpow_natCast]; exact_mod_cast hk1
  have r2 : (2 : ℝ) ^ ((k : ℤ) - 1) + 1 ≤ N := by
    rw [show (k : ℤ) - 1 = ((k - 1 : ℕ) : ℤ) by omega, zpow_natCast]
    exact_mod_cast hk2
  have hN24 : (N : ℝ) ≤ 2 ^ 24 := by exact_mod_cast hN
  have hd1 : d < 1 := h1.trans_lt (by rw [div_lt_one (by norm_num)]; exact hN24.trans_lt (by norm_num))
  have hp1 := two_zpow_pos ((k : ℤ) - 1)
  have hlog : Int.log 2 |(N : ℝ) - d| = (k : ℤ) - 1 := by
    apply log_eq_of
    · rw [abs_of_nonneg (by linarith)]; linarith
    · rw [abs_of_nonneg (by linarith), sub_add_cancel]; linarith
  have hc : cexp binary32 ((N : ℝ) - d) = (k : ℤ) - 24 := by
    unfold cexp
    rw [hlog]
    show max ((k : ℤ) - 1 + 1 - 24) (-149) = _
    rw [max_eq_left (by omega)]; ring
  have hp := two_zpow_pos ((k : ℤ) - 24)
  have hs : (N : ℝ) = ((N * 2 ^ (24 - k) : ℕ) : ℝ) * 2 ^ ((k : ℤ) - 24) := by
    push_cast
    rw [mul_assoc, ← zpow_natCast, ← zpow_add₀ (by norm_num), show ((24 - k : ℕ) : ℤ) + ((k : ℤ) - 24) = 0 by omega, zpow_zero, mul_one]
  have h26 : d ≤ 2 ^ ((k : ℤ) - 24) / 4 := by
    refine h1.trans ?_
    have : (2 : ℝ) ^ (k : ℤ) = 2 ^ ((k : ℤ) - 24) * 2 ^ 24 := by
      rw [← zpow_natCast (2 : ℝ) 24, ← zpow_add₀ (by norm_num)]; congr 1; push_cast; ring
    rw [this] at r1
    rw [div_le_div_iff₀ (by norm_num) (by norm_num)]
    norm_num at *
    linarith
  unfold rnd
  rw [hc]
  have : rne (((N : ℝ) - d) / 2 ^ ((k : ℤ) - 24)) = (N * 2 ^ (24 - k) : ℕ) := by
    apply rne_eq_of_lt
    have : ((N : ℝ) - d) / 2 ^ ((k : ℤ) - 24) - (((N * 2 ^ (24 - k) : ℕ) : ℤ) : ℝ) = - (d / 2 ^ ((k : ℤ) - 24)) := by
      rw [Int.cast_natCast]
      conv_lhs => rw [hs]
      field_simp
      ring
    rw [this, abs_neg, abs_of_pos (by positivity), div_lt_iff₀ hp]
    linarith
  rw [this, Int.cast_natCast, ← hs]

/-- `set_delay` with a delay just above the write position: the read pointer wraps to the start and the weight is the number of slots. -/
theorem setDelay_click [Target] (hp : 24 ≤ f.p) {s s' : LinearDelay (Fl L32) (Fl L)} (hi : s.WInv)
    (hl : s.memory.length ≤ 2 ^ 24) {d : Fl L32} (h : s.setDelay b d = .ok s') (hfin : s'.delay.Finite)
    (h0 : (s.write_ptr : ℝ) < s'.delay.toReal) (h1 : s'.delay.toReal - s.write_ptr ≤ s.memory.length / 2 ^ 26) :
    s'.Eff s.write_ptr ∧ s'.alpha.Finite ∧ s'.alpha.toReal = s.memory.length ∧ s'.om_alpha.Finite ∧
      s'.om_alpha.toReal = 1 - s.memory.length := by
  have hw := hi.hw
  have hrep : IsRep binary32 (s.memory.length : ℝ) := isRep32_nat hl
  have hdel : s'.delay = clipDelay d (ofUsize (s.memory.length - 1)) := setDelay_delay (by omega) h
  obtain ⟨m1, m2⟩ := ofUsize_fp (L32 := L32) (n := s.memory.length - 1) (by omega)
  rw [rnd_of_isRep (isRep32_nat (by omega))] at m2
  obtain ⟨hmem, hwp, -⟩ := LinearDelay.setDelay_frame h
  rcases clipDelay_cases d m1 (by rw [m2]; positivity) with ⟨n1, n2⟩ | ⟨c1, c2, c3⟩
  · rw [hdel, n2] at hfin
    exact absurd n1 hfin.not_isNaN
  rw [m2] at c3
  have hrepd : IsRep binary32 s'.delay.toReal := Fl.isRep_toReal _
  rw [hdel] at h0 h1 hrepd
  obtain ⟨δ, hδ⟩ : ∃ δ, δ = (clipDelay d (ofUsize (s.memory.length - 1) : Fl L32)).toReal := ⟨_, rfl⟩
  rw [← hδ] at c2 c3 h0 h1 hrepd
  have h2 : 2 ≤ s.memory.length := by
    by_contra hc
    have : s.memory.length - 1 = 0 := by omega
    rw [this, Nat.cast_zero] at c3
    have : (0 : ℝ) ≤ s.write_ptr := Nat.cast_nonneg _
    linarith
  obtain ⟨pos, hpos, p1, p2, p3, -⟩ := loop_fin (w := s.write_ptr) (n := s.memory.length) hw (by omega) c1
    (by rw [← hδ]; exact c2)
    (by rw [← hδ, rnd_of_isRep (isRep32_nat (by omega))]; exact c3)
  rw [← hδ] at p2
  have hset := LinearDelay.setDelay_eq (b := b) (T := Fl L) (s := s) (by omega) hpos
  rw [h] at hset
  have hrw : IsRep binary32 (s.write_ptr : ℝ) := isRep32_nat (by omega)
  have hp' : pos.toReal = s.memory.length := by
    rw [p2]
    unfold posOf
    simp only
    rw [rnd_of_isRep hrw, rnd_of_isRep hrep]
    have hneg := rnd_sub_neg hrw hrepd h0
    have hge : -((s.memory.length : ℝ) / 2 ^ 26) ≤ rnd binary32 (s.write_ptr - δ) := by
      refine le_rnd_of_le ?_ (by linarith)
      rcases hl.eq_or_lt with hl | hl
      · rw [hl]
        have := (isRep_two_zpow (f := binary32) (e := -2) (by decide)).neg
        norm_num at this ⊢
        exact this
      have h3 : IsRep binary32 (((s.memory.length : ℤ) : ℝ) * 2 ^ (-26 : ℤ)) :=
        ⟨s.memory.length, -26, by
          rw [abs_of_nonneg (by positivity)]
          show (s.memory.length : ℤ) < 2 ^ 24
          exact_mod_cast hl, by show (-149 : ℤ) ≤ -26; norm_num, rfl⟩
      have h4 : ((s.memory.length : ℤ) : ℝ) * 2 ^ (-26 : ℤ) = s.memory.length / 2 ^ 26 := by
        rw [zpow_neg]; push_cast; rfl
      rw [h4] at h3
      exact h3.neg
    rw [if_pos hneg, add_comm, ← sub_neg_eq_add]
    exact rnd32_just_below h2 hl (by linarith) (by linarith)
  have hu : DelayTime.toUsize (Fl L) pos = s.memory.length :=
    toUsize_val p1 (by rw [hp']; positivity) (by have := target; omega) hp'.ge (by rw [hp']; linarith)
  simp only [hu, if_true] at hset
  obtain ⟨r1, r2⟩ := ofUsize_fp (L32 := L32) (n := 0) (by norm_num)
  rw [Nat.cast_zero, rnd_zero] at r2
  obtain ⟨a1, a2⟩ := Fl.sub_val p1 r1 (by rw [hp', r2, sub_zero, ← hp']; exact Fl.noOvf_toReal pos)
  rw [hp', r2, sub_zero, rnd_of_isRep hrep] at a2
  have hp24 : (2 : ℤ) ^ 24 ≤ 2 ^ f.p := pow_le_pow_right₀ (by norm_num) hp
  have hrepN : IsRep f (s.memory.length : ℝ) := isRep_nat (hl.trans (by exact_mod_cast hp24))
  have hrepO : IsRep f (1 - (s.memory.length : ℝ)) := by
    have := isRep_int (f := f) (n := 1 - (s.memory.length : ℤ)) (by rw [abs_le]; constructor <;> omega)
    simpa using this
  have hlim : (s.memory.length : ℝ) < f.lim := by
    have h24 : (s.memory.length : ℝ) ≤ 2 ^ 24 := by exact_mod_cast hl
    refine h24.trans_lt ?_
    unfold Fmt.lim
    have : (2 : ℝ) ^ 24 = 2 ^ (24 : ℤ) := by norm_num
    rw [this]
    exact zpow_lt_zpow_right₀ (by norm_num) (by have := f.hemax; omega)
  have hN0 : (2 : ℝ) ≤ s.memory.length := by exact_mod_cast h2
  obtain ⟨e1, e2⟩ := castTo_val (L := L) a1 (by
    rw [a2]; unfold FP.NoOvf; rw [rnd_of_isRep hrepN, abs_of_nonneg (by positivity)]; exact hlim)
  rw [a2, rnd_of_isRep hrepN] at e2
  obtain ⟨o1, o2⟩ := Fl.sub_val (Fl.one_finite (L := L)) e1 (by
    rw [e2, Fl.one_toReal]; unfold FP.NoOvf; rw [rnd_of_isRep hrepO, abs_of_nonpos (by linarith)]; linarith)
  rw [e2, Fl.one_toReal, rnd_of_isRep hrepO] at o2
  cases hset
  exact ⟨⟨hw, by simp⟩, e1, e2, o1, o2⟩

/-- What every moving-delay run of a new line is made of. -/
private theorem runs [Target] {m : ℕ} (hl : m + 1 ≤ 2 ^ 24) {s : LinearDelay (Fl L32) (Fl L)} {x : ℕ → Fl L} (h0 : Holds m x 0 s) (c : ℕ → Fl L32) :
    (∃ y, Modulated b s c x y) ∧ ∀ y, Modulated b s c x y → ∀ n, ∃ st s1 e, Holds m x n st ∧ st.setDelay b (c n) = .ok s1 ∧ s1.Eff e ∧
      y n = (delayedBy e [] x n *. s1.om_alpha) +. (delayedBy (older (m + 1) e) [] x n *. s1.alpha) := by
  constructor
  · have hstep : ∀ (n : ℕ) (s : LinearDelay (Fl L32) (Fl L)), ∃ (s2 : LinearDelay (Fl L32) (Fl L)) (v : Fl L), Holds m x n s →
        Holds m x (n + 1) s2 ∧ ∃ s1, s.setDelay b (c n) = .ok s1 ∧ s1.process b (x n) = .ok (s2, v) := by
      intro n s
      by_cases h : Holds m x n s
      · obtain ⟨s1, s2, e, h1, -, h2, h3⟩ := h.step (b := b) hl (c n)
        exact ⟨s2, _, fun _ => ⟨h3, s1, h1, h2⟩⟩
      · exact ⟨s, zero, fun h' => absurd h' h⟩
    choose g v hg using hstep
    have hF : ∀ n, Holds m x n (Nat.rec s (fun n s => g n s) n : LinearDelay (Fl L32) (Fl L)) := by
      intro n
      induction n with
      | zero => exact h0
      | succ n ih => exact (hg n _ ih).1
    exact ⟨fun n => v n (Nat.rec s (fun n s => g n s) n), fun n => Nat.rec s (fun n s => g n s) n, rfl, fun n => (hg n _ (hF n)).2⟩
  · rintro y ⟨st, e0, hst⟩ n
    have hF : ∀ n, Holds m x n (st n) := by
      intro n
      induction n with
      | zero => rw [e0]; exact h0
      | succ n ih =>
        obtain ⟨s1, s2, e, h1, -, h2, h3⟩ := ih.step (b := b) hl (c n)
        obtain ⟨s', g1, g2⟩ := hst n
        rw [h1] at g1
        cases g1
        rw [h2] at g2
        rw [← (Prod.mk.inj (Except.ok.inj g2)).1]
        exact h3
    obtain ⟨s1, s2, e, h1, he, h2, -⟩ := (hF n).step (b := b) hl (c n)
    obtain ⟨s', g1, g2⟩ := hst n
    rw [h1] at g1
    cases g1
    rw [h2] at g2
    exact ⟨st n, s1, e, hF n, h1, he, (Prod.mk.inj (Except.ok.inj g2)).2.symm⟩

private theorem holds_new [Target] {m : ℕ} (hm : Allocatable (Fl L) m) {d : Fl L32} {s : LinearDelay (Fl L32) (Fl L)}
    (hs : LinearDelay.new b d m = .ok s) (x : ℕ → Fl L) : Holds m x 0 s := by
  obtain ⟨hmem, hw, hi, hdn, -⟩ := LinearDelay.new_frame hm hs
  refine ⟨hi, hdn, by simp [hmem], by simp [hw], fun k hk => ?_⟩
  unfold LinearDelay.hist
  rw [hmem, histOf_replicate, List.getElem?_replicate, if_pos hk]
  rfl

private theorem Modulated.unique [Target] {D T : Type} [FloatOps D] [FloatOps T] [DelayTime D T] {s : LinearDelay D T} {c : ℕ → D} {x y y' : ℕ → T}
    (h : Modulated b s c x y) (h' : Modulated b s c x y') : y = y' := by
  obtain ⟨st, e0, hst⟩ := h
  obtain ⟨st', e0', hst'⟩ := h'
  have hstep : ∀ n, st n = st' n → st (n + 1) = st' (n + 1) ∧ y n = y' n := by
    intro n e
    obtain ⟨s1, g1, g2⟩ := hst n
    obtain ⟨s2, k1, k2⟩ := hst' n
    rw [e, k1] at g1
    cases g1
    rw [k2] at g2
    obtain ⟨q1, q2⟩ := Prod.mk.inj (Except.ok.inj g2)
    exact ⟨q1.symm, q2.symm⟩
  have hst : ∀ n, st n = st' n := by
    intro n
    induction n with
    | zero => rw [e0, e0']
    | succ n ih => exact (hstep n ih).1
  exact funext fun n => (hstep n (hst n)).2

private theorem asked [Target] {m : ℕ} (hl : m + 1 ≤ 2 ^ 24) {s s1 : LinearDelay (Fl L32) (Fl L)} (hlen : s.memory.length = m + 1) {d : Fl L32}
    (h : s.setDelay b d = .ok s1) (hd : d.Finite) : s1.delay.Finite ∧ s1.delay.toReal = max 0 (min d.toReal m) := by
  obtain ⟨m1, m2⟩ := ofUsize_fp (L32 := L32) (n := m) (by omega)
  rw [rnd_of_isRep (isRep32_nat (by omega))] at m2
  have := clipDelay_fin hd m1 (by rw [m2]; positivity)
  rw [setDelay_delay (by omega) h, hlen, Nat.add_sub_cancel]
  rwa [m2] at this

private theorem eff_inj [Target] {s s1 : LinearDelay (Fl L32) (Fl L)} (hi : s.WInv) {d : Fl L32} (h : s.setDelay b d = .ok s1) {e e' : ℕ}
    (he : s1.Eff e) (he' : s1.Eff e') : e = e' := by
  obtain ⟨e1, e2, -⟩ := LinearDelay.setDelay_frame h
  have hw : s1.write_ptr < s1.memory.length := by rw [e1, e2]; exact hi.hw
  obtain ⟨h1, h2⟩ := he
  obtain ⟨h3, h4⟩ := he'
  rw [h2] at h4
  split_ifs at h4 <;> omega

/-- **C109.** `set_delay` before every sample, in floating point: nothing the delay does, NaN included, panics or spoils later samples, and each
output interpolates the input at its own distance unless that distance lies just above the number of samples since the write pointer was last
at slot zero. -/
theorem C109_moving_delay [Target] (hp : 24 ≤ f.p) (hem : f.emin ≤ -149) {m : ℕ} (hm : Allocatable (Fl L) m) (hl : m + 1 < 2 ^ 24) (d : Fl L32) :
    ∃ s : LinearDelay (Fl L32) (Fl L), LinearDelay.new b d m = .ok s ∧ ∀ (c : ℕ → Fl L32) (x : ℕ → Fl L), ∃ y, Modulated b s c x y ∧
      (∀ y', Modulated b s c x y' → y' = y) ∧
      ∀ X : ℝ, 4 * (X + f.tiny) ≤ 2 ^ f.emax → (∀ n, (x n).Within X) → ∀ (n : ℕ) (δ : ℝ), (c n).Finite → δ = max 0 (min (c n).toReal m) →
        ClearOf (m + 1) δ ∨ ⌊δ⌋₊ ≠ n % (m + 1) →
        (y n).Finite ∧ |(y n).toReal - interp δ [] (fun n => (x n).toReal) n| ≤
          2 * X * ((m + 1 : ℕ) / 2 ^ 22) + 6 * (f.u * X + f.tiny) := by
  obtain ⟨s, hs, -⟩ := (C76_linearDelay_new (b := b) (L := L) (m := m) (by have := target; unfold usizeMax; omega) d).1 hm
  refine ⟨s, hs, fun c x => ?_⟩
  obtain ⟨⟨y, hy⟩, hr⟩ := runs (b := b) hl.le (holds_new hm hs x) c
  refine ⟨y, hy, fun y' hy' => hy'.unique hy, fun X hov hx n δ hc hδ hcl => ?_⟩
  obtain ⟨st, s1, e, hh, h1, he, hv⟩ := hr y hy n
  obtain ⟨a1, a2⟩ := asked hl.le hh.len h1 hc
  rw [← hδ] at a2
  obtain ⟨e', he', b1, b2, b3, b4, b5, b6⟩ := setDelay_near hp hem hh.winv (by rw [hh.len]; exact hl) h1 a1
    (by rw [a2, hh.len, hh.wptr]; exact hcl)
  obtain rfl := eff_inj hh.winv h1 he' he
  rw [a2, hh.len] at b6
  rw [hv]
  have := mix_interp_near (N := m + 1) (h := []) b1 b2 b3 b4 b5 (by rw [hδ]; exact le_max_left _ _) b6 hov (by simp) hx n
  simpa using this

/-- Nearby inputs interpolate nearby. -/
theorem interp_nearby {η : ℝ} {x g : ℕ → ℝ} (h : ∀ n, |x n - g n| ≤ η) {d : ℝ} (hd : 0 ≤ d) (n : ℕ) : |interp d [] x n - interp d [] g n| ≤ η := by
  have h0 : 0 ≤ η := (abs_nonneg _).trans (h 0)
  have hk : ∀ e, |delayedBy e [] x n - delayedBy e [] g n| ≤ η := by
    intro e
    unfold delayedBy
    by_cases he : e ≤ n
    · rw [if_pos he, if_pos he]; exact h _
    · rw [if_neg he, if_neg he]; simpa using h0
  have h1 := Nat.floor_le hd
  have h2 := Nat.lt_floor_add_one d
  have e1 := abs_le.mp (hk ⌊d⌋₊)
  have e2 := abs_le.mp (hk (⌊d⌋₊ + 1))
  unfold interp
  obtain ⟨r, hr⟩ : ∃ r, r = d - (⌊d⌋₊ : ℝ) := ⟨_, rfl⟩
  rw [← hr]
  have r0 : 0 ≤ r := by linarith
  have r1 : 0 ≤ 1 - r := by linarith
  rw [abs_le]
  constructor <;>
  nlinarith [mul_le_mul_of_nonneg_left e1.1 r1, mul_le_mul_of_nonneg_left e1.2 r1, mul_le_mul_of_nonneg_left e2.1 r0, mul_le_mul_of_nonneg_left e2.2 r0]

/-- **C109** on samples of a smooth function, taken with error at most `η`: the output is the function at the delayed time. -/
theorem C109_smooth [Target] (hp : 24 ≤ f.p) (hem : f.emin ≤ -149) {m : ℕ} (hm : Allocatable (Fl L) m) (hl : m + 1 < 2 ^ 24) (d : Fl L32)
    {M η X : ℝ} {F : ℝ → ℝ} (hF : CurvesAtMost M F) {x : ℕ → Fl L} (hov : 4 * (X + f.tiny) ≤ 2 ^ f.emax) (hx : ∀ n, (x n).Within X)
    (hs : ∀ n : ℕ, |(x n).toReal - F n| ≤ η) (c : ℕ → Fl L32) :
    ∃ (s : LinearDelay (Fl L32) (Fl L)) (y : ℕ → Fl L), LinearDelay.new b d m = .ok s ∧ Modulated b s c x y ∧
      ∀ n : ℕ, (c n).Finite → 0 ≤ (c n).toReal → (c n).toReal ≤ m → (c n).toReal ≤ n →
        ClearOf (m + 1) (c n).toReal ∨ ⌊(c n).toReal⌋₊ ≠ n % (m + 1) →
        |(y n).toReal - F (n - (c n).toReal)| ≤ M / 8 + η + 2 * X * ((m + 1 : ℕ) / 2 ^ 22) + 6 * (f.u * X + f.tiny) := by
  obtain ⟨s, hn, h⟩ := C109_moving_delay (b := b) hp hem hm hl d
  obtain ⟨y, hy, -, hb⟩ := h c x
  refine ⟨s, y, hn, hy, fun n hc h0 h1 h2 hcl => ?_⟩
  have hb := (hb X hov hx n _ hc (by rw [min_eq_left h1, max_eq_right h0]) hcl).2
  have e1 := interp_nearby hs h0 n
  have e2 := (interp_smooth hF h0 [] h2).trans (eighth hF.nonneg)
  rw [abs_le] at *
  constructor <;> linarith [hb.1, hb.2, e1.1, e1.2, e2.1, e2.2]

/-- Two samples mixed with the weights `1 - N` and `N`. -/
private theorem mix_click {m0 m1 α om : Fl L} {X N : ℝ} (hN : 1 ≤ N) (h0 : m0.Within X) (h1 : m1.Within X) (ha : α.Finite) (a1 : α.toReal = N)
    (ho : om.Finite) (o1 : om.toReal = 1 - N) (hov : 4 * (N * X + f.tiny) ≤ 2 ^ f.emax) :
    ((m0 *. om) +. (m1 *. α)).Finite ∧
      |((m0 *. om) +. (m1 *. α)).toReal - (m0.toReal + N * (m1.toReal - m0.toReal))| ≤ 6 * (f.u * (N * X) + f.tiny) := by
  have hu := f.u_pos
  have hu4 := f.u_le
  have ht := f.tiny_pos
  have hX : 0 ≤ X := (abs_nonneg _).trans h0.2
  have hp0 : |m0.toReal * om.toReal| ≤ N * X := by
    rw [abs_mul, o1, abs_of_nonpos (show 1 - N ≤ 0 by linarith)]
    have := h0.2
    nlinarith [abs_nonneg m0.toReal]
  have hp1 : |m1.toReal * α.toReal| ≤ N * X := by
    rw [abs_mul, a1, abs_of_nonneg (show 0 ≤ N by linarith), mul_comm]
    exact mul_le_mul_of_nonneg_left h1.2 (by linarith)
  obtain ⟨Y, hY⟩ : ∃ Y, Y = N * X := ⟨_, rfl⟩
  have hY0 : 0 ≤ Y := by rw [hY]; positivity
  rw [← hY] at hp0 hp1 hov ⊢
  obtain ⟨p1, p2⟩ := Fl.mul_val h0.1 ho (Fl.noOvf_of_le_emax (by linarith))
  obtain ⟨q1, q2⟩ := Fl.mul_val h1.1 ha (Fl.noOvf_of_le_emax (by linarith))
  have ep := abs_rnd_sub_le_u f (m0.toReal * om.toReal)
  have eq := abs_rnd_sub_le_u f (m1.toReal * α.toReal)
  rw [← p2] at ep
  rw [← q2] at eq
  have hP : f.u * |m0.toReal * om.toReal| ≤ f.u * Y := mul_le_mul_of_nonneg_left hp0 hu.le
  have hQ : f.u * |m1.toReal * α.toReal| ≤ f.u * Y := mul_le_mul_of_nonneg_left hp1 hu.le
  have huY : f.u * Y ≤ Y / 4 := by nlinarith
  have hut : f.u * f.tiny ≤ f.tiny / 4 := by nlinarith
  rw [abs_le] at ep eq hp0 hp1
  have hsum : |(m0 *. om).toReal + (m1 *. α).toReal| ≤ 2 * Y + 2 * (f.u * Y + f.tiny) := by
    rw [abs_le]; constructor <;> linarith [ep.1, ep.2, eq.1, eq.2, hp0.1, hp0.2, hp1.1, hp1.2]
  obtain ⟨r1, r2⟩ := Fl.add_val p1 q1 (Fl.noOvf_of_le_emax (by linarith))
  refine ⟨r1, ?_⟩
  have er := abs_rnd_sub_le_u f ((m0 *. om).toReal + (m1 *. α).toReal)
  rw [← r2] at er
  have hR : f.u * |(m0 *. om).toReal + (m1 *. α).toReal| ≤ f.u * (2 * Y + 2 * (f.u * Y + f.tiny)) := mul_le_mul_of_nonneg_left hsum hu.le
  have hR2 : f.u * (2 * Y + 2 * (f.u * Y + f.tiny)) ≤ 2.5 * (f.u * Y) + f.tiny / 2 := by
    have : f.u * (f.u * Y) ≤ f.u * Y / 4 := by nlinarith [mul_nonneg hu.le hY0]
    linarith
  have e : m0.toReal + N * (m1.toReal - m0.toReal) = m0.toReal * om.toReal + m1.toReal * α.toReal := by rw [o1, a1]; ring
  have : 0 ≤ f.u * Y := by positivity
  rw [e]
  rw [abs_le] at er ⊢
  constructor <;> linarith [ep.1, ep.2, eq.1, eq.2, er.1, er.2]

/-- **C109**, the exception is real. When the distance lies just above the number of samples since the write pointer was last at slot zero, the
output is an extrapolation by the number of slots: the difference of two neighbouring samples, amplified by `m + 1`. -/
theorem C109_click [Target] (hp : 24 ≤ f.p) {m : ℕ} (hm : Allocatable (Fl L) m) (hl : m + 1 ≤ 2 ^ 24) (d : Fl L32) :
    ∃ s : LinearDelay (Fl L32) (Fl L), LinearDelay.new b d m = .ok s ∧ ∀ (c : ℕ → Fl L32) (x y : ℕ → Fl L), Modulated b s c x y →
      ∀ X : ℝ, 4 * ((m + 1 : ℕ) * X + f.tiny) ≤ 2 ^ f.emax → (∀ n, (x n).Within X) → ∀ (n w : ℕ) (δ : ℝ), (c n).Finite →
        δ = max 0 (min (c n).toReal m) → w = n % (m + 1) → (w : ℝ) < δ → δ - w ≤ (m + 1 : ℕ) / 2 ^ 26 →
        (y n).Finite ∧ |(y n).toReal - ((past x (n + 1) w).toReal + (m + 1 : ℕ) *
          ((past x (n + 1) (if w = 0 then m else w - 1)).toReal - (past x (n + 1) w).toReal))| ≤ 6 * (f.u * ((m + 1 : ℕ) * X) + f.tiny) := by
  obtain ⟨s, hs, -⟩ := (C76_linearDelay_new (b := b) (L := L) (m := m) (by have := target; unfold usizeMax; omega) d).1 hm
  refine ⟨s, hs, fun c x y hy X hov hx n w δ hc hδ hw h0 h1 => ?_⟩
  obtain ⟨st, s1, e, hh, hset, he, hv⟩ := (runs (b := b) hl (holds_new hm hs x) c).2 y hy n
  obtain ⟨a1, a2⟩ := asked hl hh.len hset hc
  rw [← hδ] at a2
  have hwp : st.write_ptr = w := by rw [hh.wptr, hw]
  obtain ⟨he', b1, b2, b3, b4⟩ := setDelay_click hp hh.winv (by rw [hh.len]; exact hl) hset a1 (by rw [a2, hwp]; exact h0)
    (by rw [a2, hwp, hh.len]; exact h1)
  obtain rfl := eff_inj hh.winv hset he' he
  rw [hh.len] at b2 b4
  rw [hwp] at hv
  have hz : ∀ e, delayedBy e [] x n = past x (n + 1) e := fun e => by
    have := congrFun (delayedBy_replicate e 0 x) n
    simpa using this
  have hX : 0 ≤ X := (abs_nonneg _).trans (hx 0).2
  have hpw : ∀ k, (past x (n + 1) k).Within X := fun k => by
    rw [← hz]; exact delayedBy_within hX (by simp) hx k n
  rw [hz, hz] at hv
  rw [hv]
  exact mix_click (by push_cast; linarith [(Nat.cast_nonneg m : (0 : ℝ) ≤ m)]) (hpw _) (hpw _) b1 b2 b3 b4 hov

/-- **C109**, setting the same delay again before every sample. A constant delay just above the whole number `k` is kept, except that once in
every `m + 1` samples the output is the difference of two neighbouring input samples amplified by `m + 1`. -/
theorem C109_steady [Target] (hp : 24 ≤ f.p) (hem : f.emin ≤ -149) {m : ℕ} (hm : Allocatable (Fl L) m) (hl : m + 1 < 2 ^ 24) {d : Fl L32} {k : ℕ}
    (hd : d.Finite) (hk : 1 ≤ k) (hkm : k < m) (h0 : (k : ℝ) < d.toReal) (h1 : d.toReal - k ≤ (m + 1 : ℕ) / 2 ^ 26) :
    ∃ s : LinearDelay (Fl L32) (Fl L), LinearDelay.new b d m = .ok s ∧ ∀ (X : ℝ) (x : ℕ → Fl L), 4 * ((m + 1 : ℕ) * X + f.tiny) ≤ 2 ^ f.emax →
      (∀ n, (x n).Within X) → ∃ y, Modulated b s (fun _ => d) x y ∧
        (∀ n, n % (m + 1) ≠ k → |(y n).toReal - interp d.toReal [] (fun n => (x n).toReal) n| ≤
          2 * X * ((m + 1 : ℕ) / 2 ^ 22) + 6 * (f.u * X + f.tiny)) ∧
        ∀ j, |(y (k + j * (m + 1))).toReal - ((x (j * (m + 1))).toReal + (m + 1 : ℕ) *
          ((x (j * (m + 1) + 1)).toReal - (x (j * (m + 1))).toReal))| ≤ 6 * (f.u * ((m + 1 : ℕ) * X) + f.tiny) := by
  obtain ⟨s, hs, hA⟩ := C109_moving_delay (b := b) hp hem hm hl d
  obtain ⟨s', hs', hB⟩ := C109_click (b := b) hp hm hl.le d
  rw [hs] at hs'
  cases hs'
  refine ⟨s, hs, fun X x hov hx => ?_⟩
  obtain ⟨y, hy, -, hA⟩ := hA (fun _ => d) x
  have hX : 0 ≤ X := (abs_nonneg _).trans (hx 0).2
  have hl' : ((m + 1 : ℕ) : ℝ) < 2 ^ 24 := by exact_mod_cast hl
  have hlt : d.toReal < k + 1 := by
    have : ((m + 1 : ℕ) : ℝ) / 2 ^ 26 < 1 := by rw [div_lt_one (by norm_num)]; exact hl'.trans (by norm_num)
    linarith
  have hkm' : (k : ℝ) + 1 ≤ m := by exact_mod_cast hkm
  have hk0 : (0 : ℝ) ≤ k := Nat.cast_nonneg _
  have hδ : d.toReal = max 0 (min d.toReal m) := by rw [min_eq_left (by linarith), max_eq_right (by linarith)]
  have hfl : ⌊d.toReal⌋₊ = k := by rw [Nat.floor_eq_iff (by linarith)]; exact ⟨h0.le, hlt⟩
  refine ⟨y, hy, fun n hn => ?_, fun j => ?_⟩
  · refine (hA X ?_ hx n _ hd hδ (.inr (by rw [hfl]; exact hn.symm))).2
    have : X ≤ (m + 1 : ℕ) * X := le_mul_of_one_le_left hX (by push_cast; linarith)
    linarith
  · have hm1 : (k + j * (m + 1)) % (m + 1) = k := by rw [Nat.add_mul_mod_self_right, Nat.mod_eq_of_lt (by omega)]
    have := (hB _ x y hy X hov hx (k + j * (m + 1)) k _ hd hδ hm1.symm h0 h1).2
    unfold past at this
    rw [if_neg (show k ≠ 0 by omega), if_pos (by omega), if_pos (by omega)] at this
    rwa [show k + j * (m + 1) + 1 - 1 - k = j * (m + 1) by omega,
      show k + j * (m + 1) + 1 - 1 - (k - 1) = j * (m + 1) + 1 by omega] at this

/-! ## Cases -/

/-- One second at 48 kHz, a delay of `100 + 2^-11` samples, inputs up to one: the hypotheses of `C109_steady`, and the amplification it gives a
sine of 0.0576 radians a sample (440 Hz) is over 2700. -/
example [Target] (L32 L : Libm binary32) : ∃ d : Fl L32, d.Finite ∧ 100 < (47999 : ℕ) ∧ ((100 : ℕ) : ℝ) < d.toReal ∧
    d.toReal - (100 : ℕ) ≤ (47999 + 1 : ℕ) / 2 ^ 26 ∧ Allocatable (Fl L) 47999 ∧ 4 * ((47999 + 1 : ℕ) * 1 + binary32.tiny) ≤ 2 ^ binary32.emax ∧
    (2700 : ℝ) < (47999 + 1 : ℕ) * 0.057 := by
  have hrep : IsRep binary32 (100 + 1 / 2 ^ 11) := ⟨204801, -11, by show |(204801 : ℤ)| < 2 ^ 24; norm_num, by show (-149 : ℤ) ≤ -11; norm_num, by norm_num⟩
  obtain ⟨d, h1, h2⟩ := Fl.exists_of_isRep L32 hrep (by
    rw [abs_of_pos (by norm_num)]
    unfold Fmt.lim
    show _ < (2 : ℝ) ^ (128 : ℤ)
    norm_num)
  have ht : binary32.tiny ≤ 1 / 2 ^ 100 := by
    unfold Fmt.tiny
    show (2 : ℝ) ^ (-149 : ℤ) ≤ _
    norm_num
  refine ⟨d, h1, by norm_num, by rw [h2]; norm_num, by rw [h2]; norm_num, ?_, ?_, by norm_num⟩
  · have := target
    show (47999 + 1) * 4 ≤ _
    omega
  · show _ ≤ (2 : ℝ) ^ (127 : ℤ)
    norm_num at ht ⊢
    linarith

/-- A sine of the size of one, sampled within `2^-24`, curves at most by the square of its frequency; the bound of `C109_smooth` for it. -/
example : CurvesAtMost (|1| * 0.0576 ^ 2) (fun t => 1 * Real.sin (0.0576 * t + 0)) ∧ |(1 : ℝ)| * 0.0576 ^ 2 / 8 + 1 / 2 ^ 24 < 1 / 2000 :=
  ⟨curvesAtMost_sin _ _ _, by norm_num⟩

end Rasp
