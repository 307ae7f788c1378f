import Verif.Props.LinearIEEE

/-!
# C23, and the refutations of C24 (long lines) and C25 (weights in `f32`)
-/

namespace Rasp
open FloatOps

variable {L32 : Libm binary32} {f : Fmt} {L : Libm f} {b : Build}

theorem castTo_val [Target] {x : Fl L32} (hx : x.Finite) (h : FP.NoOvf f x.toReal) :
    (DelayTime.castTo x : Fl L).Finite ∧ (DelayTime.castTo x : Fl L).toReal = rnd f x.toReal := by
  obtain ⟨s, a, ha, rfl⟩ := FP.finite_cases hx
  exact FP.ofReal_of_noOvf h

theorem noOvf_zero : FP.NoOvf f 0 := by
  unfold FP.NoOvf; rw [rnd_zero, abs_zero]; exact FP.lim_pos f

theorem noOvf_one : FP.NoOvf f 1 := by
  have := Fl.noOvf_toReal (one : Fl (⟨id, id, id, id, fun x _ => x⟩ : Libm f))
  simpa using this

theorem setDelay_int [Target] {s : LinearDelay (Fl L32) (Fl L)} (hi : s.WInv) (hl : s.memory.length ≤ 2 ^ 24) {k : ℕ}
    (hk : k < s.memory.length) :
    ∃ s', s.setDelay b (ofUsize k) = .ok s' ∧ s'.Eff k ∧ s'.alpha.Finite ∧ s'.alpha.toReal = 0 ∧
      s'.om_alpha.Finite ∧ s'.om_alpha.toReal = 1 := by
  have hw := hi.hw
  obtain ⟨k1, k2⟩ := ofUsize_fp (L32 := L32) (n := k) (by omega)
  obtain ⟨m1, m2⟩ := ofUsize_fp (L32 := L32) (n := s.memory.length - 1) (by omega)
  rw [rnd_of_isRep (isRep32_nat (by omega))] at k2 m2
  have hclip : clipDelay (ofUsize k : Fl L32) (ofUsize (s.memory.length - 1)) = ofUsize k := by
    unfold clipDelay
    rw [(Fl.lt_false_iff m1 k1).mpr (by rw [k2, m2]; exact_mod_cast (by omega))]
    simp only [Bool.false_eq_true, if_false]
    rw [(Fl.lt_false_iff k1 Fl.zero_finite).mpr (by rw [k2]; simp)]
    rfl
  obtain ⟨pos, hpos, p1, p2, -, -⟩ := loop_fin (w := s.write_ptr) (n := s.memory.length) hw (by omega) k1
    (by rw [k2]; positivity)
    (by rw [k2, rnd_of_isRep (isRep32_nat (by omega))]; exact_mod_cast (by omega))
  rw [k2] at p2
  have hint : ∀ i : ℤ, |i| ≤ 2 ^ 24 → rnd binary32 (i : ℝ) = i := fun i h => rnd_of_isRep (isRep_int (f := binary32) h)
  -- the position is the exact slot
  have hx0 : rnd binary32 ((s.write_ptr : ℝ) - k) = (s.write_ptr : ℝ) - k := by
    have := hint ((s.write_ptr : ℤ) - k) (by rw [abs_le]; constructor <;> omega)
    simpa using this
  have hslot : ∃ r : ℕ, r < s.memory.length ∧ pos.toReal = r ∧
      r = if k ≤ s.write_ptr then s.write_ptr - k else s.memory.length + s.write_ptr - k := by
    unfold posOf at p2
    simp only at p2
    rw [rnd_of_isRep (isRep32_nat (show s.write_ptr ≤ 2 ^ 24 by omega)), hx0] at p2
    by_cases hc : k ≤ s.write_ptr
    · refine ⟨s.write_ptr - k, by omega, ?_, by rw [if_pos hc]⟩
      have : (k : ℝ) ≤ s.write_ptr := by exact_mod_cast hc
      rw [p2, if_neg (by linarith), Nat.cast_sub hc]
    · push Not at hc
      refine ⟨s.memory.length + s.write_ptr - k, by omega, ?_, by rw [if_neg (by omega)]⟩
      have : (s.write_ptr : ℝ) < k := by exact_mod_cast hc
      rw [p2, if_pos (by linarith), rnd_of_isRep (isRep32_nat hl), Nat.cast_sub (by omega)]
      have := hint ((s.write_ptr : ℤ) - k + s.memory.length) (by rw [abs_le]; constructor <;> omega)
      push_cast at this ⊢
      rw [this]; ring
  obtain ⟨r, hr, hpr, hreq⟩ := hslot
  have hu : DelayTime.toUsize (Fl L) pos = r :=
    toUsize_val p1 (by rw [hpr]; positivity) (by have := target; omega) hpr.ge (by rw [hpr]; linarith)
  rw [← hclip] at hpos
  have h := LinearDelay.setDelay_eq (b := b) (T := Fl L) (s := s) (by omega) hpos
  simp only [hu] at h
  rw [if_neg (show ¬ r = s.memory.length by omega)] at h
  obtain ⟨r1, r2⟩ := ofUsize_fp (L32 := L32) (n := r) (by omega)
  rw [rnd_of_isRep (isRep32_nat (by omega))] at r2
  obtain ⟨a1, a2⟩ := Fl.sub_val p1 r1 (by rw [hpr, r2, sub_self]; exact noOvf_zero)
  rw [hpr, r2, sub_self, rnd_zero] at a2
  obtain ⟨c1, c2⟩ := castTo_val (L := L) a1 (by rw [a2]; exact noOvf_zero)
  rw [a2, rnd_zero] at c2
  obtain ⟨o1, o2⟩ := Fl.sub_val (Fl.one_finite (L := L)) c1 (by rw [c2]; simpa using noOvf_one)
  rw [c2, Fl.one_toReal, sub_zero, rnd_of_isRep (isRep_one f)] at o2
  exact ⟨_, h, ⟨hk, hreq⟩, c1, c2, o1, o2⟩

/-- With weights 1 and 0 the interpolation of finite samples is the first sample. -/
theorem interp_int {a c om al : Fl L} (ha : a.Finite) (hc : c.Finite) (ho : om.Finite) (ho1 : om.toReal = 1)
    (hal : al.Finite) (hal0 : al.toReal = 0) : Fl.eq ((a *. om) +. (c *. al)) a = true := by
  obtain ⟨p1, p2⟩ := Fl.mul_val ha ho (by rw [ho1, mul_one]; exact Fl.noOvf_toReal a)
  obtain ⟨q1, q2⟩ := Fl.mul_val hc hal (by rw [hal0, mul_zero]; exact noOvf_zero)
  rw [ho1, mul_one, rnd_of_isRep (Fl.isRep_toReal a)] at p2
  rw [hal0, mul_zero, rnd_zero] at q2
  obtain ⟨r1, r2⟩ := Fl.add_val p1 q1 (by rw [p2, q2, add_zero]; exact Fl.noOvf_toReal a)
  rw [p2, q2, add_zero, rnd_of_isRep (Fl.isRep_toReal a)] at r2
  exact (Fl.eq_iff r1 ha).mpr r2

theorem delayedBy_finite {h : List (Fl L)} (hh : ∀ v ∈ h, v.Finite) {x : ℕ → Fl L} (hx : ∀ n, (x n).Finite) (e n : ℕ) :
    (delayedBy e h x n).Finite := by
  unfold delayedBy
  split
  · exact hx _
  · rw [List.getD_eq_getElem?_getD]
    cases hg : h[e - n - 1]? with
    | none => exact Fl.zero_finite
    | some v => exact hh v (List.mem_of_getElem? hg)

/-- **C23**, for every state: after `set_delay(k)` with an integer `k` (at most `max_delay`), on a line of at most 2^24
slots holding finite samples, the outputs are (`==`) the stored and new samples `k` steps back. -/
theorem C23_setDelay_integer [Target] {s : LinearDelay (Fl L32) (Fl L)} (hs : LinearDelay.Reachable b s)
    (hd : s.do_next_out = true) (hl : s.memory.length ≤ 2 ^ 24) {h : List (Fl L)} (hst : s.Stores b h)
    (hh : ∀ v ∈ h, v.Finite) {k : ℕ} (hk : k < h.length) {x : ℕ → Fl L} (hx : ∀ n, (x n).Finite) :
    ∃ s' y, s.setDelay b (ofUsize k) = .ok s' ∧ Responds b s' x y ∧
      ∀ n, Fl.eq (y n) (delayedBy k h x n) = true := by
  have hi := hs.winv
  obtain rfl := hst.eq hi.stores
  obtain ⟨s', h1, he, a1, a2, o1, o2⟩ := setDelay_int (b := b) hi hl (by simpa using hk)
  obtain ⟨hmem, hw, -, hdn, -⟩ := LinearDelay.setDelay_frame h1
  have hi' : s'.WInv := ⟨by rw [hmem, hw]; exact hi.hw, by rw [hmem]; exact hi.cap⟩
  have hhist : s'.hist = s.hist := by unfold LinearDelay.hist; rw [hmem, hw]
  refine ⟨s', _, h1, LinearDelay.responds (b := b) hi' he (hdn.trans hd) x, fun n => ?_⟩
  rw [hhist]
  exact interp_int (delayedBy_finite hh hx _ _) (delayedBy_finite hh hx _ _) o1 o2 a1 a2

/-- **C23.** A new `LinearDelay` with an integer delay and at most 2^24 slots, fed finite samples, returns outputs equal
(`==`) to those of a new `Delay`. -/
theorem C23_integer_delay_agrees [Target] {m k : ℕ} (hm : Allocatable (Fl L) m) (hm24 : m + 1 ≤ 2 ^ 24) (hk : k ≤ m) :
    ∃ (sd : Delay (Fl L)) (sl : LinearDelay (Fl L32) (Fl L)),
      Delay.new b k m = .ok sd ∧ LinearDelay.new b (ofUsize k) m = .ok sl ∧
      ∀ x : ℕ → Fl L, (∀ n, (x n).Finite) →
        ∃ yd yl, Responds b sd x yd ∧ Responds b sl x yl ∧ ∀ n, Fl.eq (yl n) (yd n) = true := by
  obtain ⟨sd, hsd, hrd⟩ := C07_new_delay_is_pure_delay (b := b) (d := k) hm
  have hm' := hm
  unfold Allocatable at hm'
  obtain ⟨k1, k2⟩ := ofUsize_fp (L32 := L32) (n := k) (by omega)
  obtain ⟨m1, m2⟩ := ofUsize_fp (L32 := L32) (n := m) (by omega)
  rw [rnd_of_isRep (isRep32_nat (by omega))] at k2 m2
  have hclip : clipDelay (ofUsize k : Fl L32) (ofUsize m) = ofUsize k := by
    unfold clipDelay
    rw [(Fl.lt_false_iff m1 k1).mpr (by rw [k2, m2]; exact_mod_cast hk)]
    simp only [Bool.false_eq_true, if_false]
    rw [(Fl.lt_false_iff k1 Fl.zero_finite).mpr (by rw [k2]; simp)]
    rfl
  obtain ⟨sl, h1, he, a1, a2, o1, o2⟩ := setDelay_int (b := b) (L32 := L32)
    (s := { memory := List.replicate (m + 1) (zero : Fl L), output := zero, read_ptr := 0, write_ptr := 0, delay := zero,
            do_next_out := true, next_out := zero, alpha := zero, om_alpha := zero })
    ⟨by simp, by simpa using hm'⟩ (by simpa using hm24) (k := k) (by simp; omega)
  have hnew : LinearDelay.new b (ofUsize k) m = .ok sl := by
    rw [new_eq_setDelay hm, hclip]; exact h1
  obtain ⟨hmem, hw, hi, hdn, -⟩ := LinearDelay.new_frame hm hnew
  refine ⟨sd, sl, hsd, hnew, fun x hx => ⟨_, _, (hrd x _).mpr rfl, LinearDelay.responds (b := b) hi he hdn x, fun n => ?_⟩⟩
  have hh : sl.hist = List.replicate (m + 1) zero := by
    unfold LinearDelay.hist; rw [hmem, histOf_replicate]
  have hfin : ∀ v ∈ sl.hist, v.Finite := by
    rw [hh]; intro v hv
    rw [List.mem_replicate] at hv
    rw [hv.2]; exact Fl.zero_finite
  have hz : delayedBy k sl.hist x n = if min k m ≤ n then x (n - min k m) else zero := by
    rw [hh, delayedBy_replicate, min_eq_left hk]
    unfold past
    show (if k < n + 1 then x (n + 1 - 1 - k) else zero) = _
    by_cases hc : k ≤ n
    · rw [if_pos hc, if_pos (by omega)]; congr 1
    · rw [if_neg hc, if_neg (by omega)]
  have := interp_int (delayedBy_finite hfin hx k n) (delayedBy_finite hfin hx (older sl.memory.length k) n) o1 o2 a1 a2
  rw [hz] at this ⊢
  exact this

/-! ## C24 beyond 2^24 slots -/

theorem rnd32_mid {x : ℝ} (h1 : 2 ^ 24 ≤ x) (h2 : x < 2 ^ 25) : rnd binary32 x = rne (x / 2) * 2 := by
  have hlog : Int.log 2 |x| = 24 := by
    apply log_eq_of
    · rw [abs_of_nonneg (by linarith)]
      rw [show (24 : ℤ) = ((24 : ℕ) : ℤ) from rfl, zpow_natCast]; exact h1
    · rw [abs_of_nonneg (by linarith), show (24 : ℤ) + 1 = ((25 : ℕ) : ℤ) from rfl, zpow_natCast]; exact h2
  have hc : cexp binary32 x = 1 := by
    unfold cexp
    rw [hlog]; decide
  unfold rnd
  rw [hc, zpow_one]

omit f L in
theorem process_panics [Target] {D T : Type} [FloatOps D] [FloatOps T] [DelayTime D T] {s : LinearDelay D T} (hi : s.WInv)
    (hr : s.memory.length ≤ s.read_ptr) (hd : s.do_next_out = true) (x : T) : s.process b x = .error .panic := by
  have hw := hi.hw
  have hlen := hi.len_le
  have hmod := isizeMax_lt
  unfold LinearDelay.process
  rw [idxSet_ok hw, Res.ok_bind, uAdd_ok (by omega), Res.ok_bind, uRem_ok (by rw [List.length_set]; omega), Res.ok_bind]
  unfold LinearDelay.nextOut
  rw [if_pos hd]
  have : idx (s.memory.set s.write_ptr x) s.read_ptr = .error .panic := by
    unfold idx
    rw [List.getElem?_eq_none (by simpa using hr)]
  simp only [this]
  rfl

/-- **C24** refuted beyond 2^24: on a *new* line of 2^24+3 slots with any `f32` delay strictly between 0 and 1, the first
`process` panics (index out of bounds). -/
theorem C24_false_for_long_lines [Target] (hm : Allocatable (Fl L) (2 ^ 24 + 2)) {d : Fl L32} (hd : d.Finite) (h0 : 0 < d.toReal)
    (h1 : d.toReal < 1) :
    ∃ s : LinearDelay (Fl L32) (Fl L), LinearDelay.new b d (2 ^ 24 + 2) = .ok s ∧
      ∀ x, s.process b x = .error .panic := by
  have hm' := hm
  unfold Allocatable at hm'
  obtain ⟨m1, m2⟩ := ofUsize_fp (L32 := L32) (n := 2 ^ 24 + 2) (by norm_num)
  have hM : 1 ≤ (ofUsize (2 ^ 24 + 2) : Fl L32).toReal := by
    rw [m2]; exact le_rnd_of_le (isRep_one _) (by push_cast; norm_num)
  obtain ⟨c1, c2⟩ := clipDelay_fin hd m1 (by linarith)
  rw [min_eq_left (by linarith), max_eq_right h0.le] at c2
  have hlen : rnd binary32 ((2 ^ 24 + 3 : ℕ) : ℝ) = 2 ^ 24 + 4 := by
    rw [rnd32_mid (by push_cast; norm_num) (by push_cast; norm_num)]
    have : rne (((2 ^ 24 + 3 : ℕ) : ℝ) / 2) = 2 ^ 23 + 2 := by
      have hf : ⌊((2 ^ 24 + 3 : ℕ) : ℝ) / 2⌋ = 2 ^ 23 + 1 := by
        rw [Int.floor_eq_iff]; push_cast; norm_num
      have hr : Int.fract (((2 ^ 24 + 3 : ℕ) : ℝ) / 2) = 1 / 2 := by
        rw [Int.fract, hf]; push_cast; norm_num
      unfold rne
      rw [hr, hf, if_neg (lt_irrefl _), if_neg (lt_irrefl _), if_neg (by decide)]
      norm_num
    rw [this]; norm_num
  obtain ⟨pos, hpos, p1, p2, -, -⟩ := loop_fin (w := 0) (n := 2 ^ 24 + 3) (by norm_num) (by norm_num) c1
    (by rw [c2]; exact h0.le) (by
      rw [c2]; exact h1.le.trans (le_rnd_of_le (isRep_one _) (by push_cast; norm_num)))
  have hp : pos.toReal = 2 ^ 24 + 4 := by
    rw [p2, c2]
    unfold posOf
    have hx0 : rnd binary32 (rnd binary32 ((0 : ℕ) : ℝ) - d.toReal) = - d.toReal := by
      rw [Nat.cast_zero, rnd_zero, zero_sub]; exact rnd_of_isRep (Fl.isRep_toReal d).neg
    simp only
    rw [hx0, if_pos (by linarith), hlen, rnd32_mid (by linarith) (by linarith)]
    have : rne ((-d.toReal + (2 ^ 24 + 4)) / 2) = 2 ^ 23 + 2 := by
      apply rne_eq_of_lt
      rw [abs_lt]; push_cast; constructor <;> linarith
    rw [this]; norm_num
  have hu : DelayTime.toUsize (Fl L) pos = 2 ^ 24 + 4 :=
    toUsize_val p1 (by rw [hp]; norm_num) (by have := target; omega) (by rw [hp]; push_cast; norm_num) (by rw [hp]; push_cast; norm_num)
  have hpos' : whileLoop (fun x : Fl L32 => lt x zero) (fun x => x +. ofUsize (2 ^ 24 + 3))
      (ofUsize 0 -. clipDelay (clipDelay d (ofUsize (2 ^ 24 + 2))) (ofUsize (2 ^ 24 + 2))) = .ok pos := by
    rw [clipDelay_idem _ m1 (by linarith)]; exact hpos
  obtain ⟨n, hn⟩ : ∃ n : ℕ, n = 2 ^ 24 + 2 := ⟨_, rfl⟩
  rw [← hn] at hm hm' hpos' ⊢
  have hn3 : 2 ^ 24 + 3 = n + 1 := by omega
  have hn4 : 2 ^ 24 + 4 = n + 2 := by omega
  rw [hn3] at hpos'
  rw [hn4] at hu
  have hsd := LinearDelay.setDelay_eq (b := b) (T := Fl L)
    (s := { memory := List.replicate (n + 1) (zero : Fl L), output := zero, read_ptr := 0,
            write_ptr := 0, delay := zero, do_next_out := true, next_out := zero, alpha := zero, om_alpha := zero })
    (d := clipDelay d (ofUsize n)) (pos := pos) (by simp) (by simpa using hpos')
  simp only [hu, List.length_replicate] at hsd
  rw [if_neg (show ¬ n + 2 = n + 1 by omega)] at hsd
  have hnew := (new_eq_setDelay (b := b) (d := d) hm).trans hsd
  refine ⟨_, hnew, fun x => process_panics ⟨by simp, by simpa using hm'⟩ (by simp) rfl x⟩

/-- The hypotheses are met by `f32` and `f64` samples. -/
example [Target] (L : Libm binary32) : Allocatable (Fl L) (2 ^ 24 + 2) := by
  unfold Allocatable
  have : size (Fl L) = 4 := rfl
  rw [this]; have := target; omega

/-- `f32` powers of two, used as concrete delay times. -/
theorem exists_f32 (L32 : Libm binary32) {e : ℤ} (h1 : -149 ≤ e) (h2 : e ≤ 0) :
    ∃ d : Fl L32, d.Finite ∧ d.toReal = 2 ^ e := by
  have hle : (2 : ℝ) ^ e ≤ 1 := by
    have : (2 : ℝ) ^ e ≤ 2 ^ (0 : ℤ) := zpow_le_zpow_right₀ (by norm_num) h2
    simpa using this
  have := FP.ofReal_exact (f := binary32) (s := false) (x := 2 ^ e) (isRep_two_zpow h1) (by
    rw [abs_of_pos (two_zpow_pos e)]; exact hle.trans_lt (FP.one_lt_lim _))
  exact ⟨_, this⟩

example (L32 : Libm binary32) : ∃ d : Fl L32, d.Finite ∧ 0 < d.toReal ∧ d.toReal < 1 := by
  obtain ⟨d, h1, h2⟩ := exists_f32 L32 (e := -1) (by norm_num) (by norm_num)
  exact ⟨d, h1, by rw [h2]; norm_num, by rw [h2]; norm_num⟩

/-! ## C25 in `f32` -/

/-- Just below `2^k` the spacing of `f32` is `2^(k-24)`. -/
theorem rnd32_below {k : ℕ} (hk : 1 ≤ k) {d : ℝ} (h0 : 0 < d) (h1 : d < 2 ^ (k - 25 : ℤ)) :
    rnd binary32 (2 ^ k - d) = 2 ^ k := by
  have hpow : (2 : ℝ) ^ (k - 25 : ℤ) ≤ 2 ^ ((k : ℤ) - 1) := zpow_le_zpow_right₀ (by norm_num) (by omega)
  have hk2 : (2 : ℝ) ^ k = 2 ^ ((k : ℤ) - 1) * 2 := by
    rw [← zpow_add_one₀ (by norm_num), sub_add_cancel, zpow_natCast]
  have hlog : Int.log 2 |(2 : ℝ) ^ k - d| = (k : ℤ) - 1 := by
    apply log_eq_of
    · rw [abs_of_nonneg (by linarith [two_zpow_pos ((k : ℤ) - 1)])]; linarith
    · rw [abs_of_nonneg (by linarith [two_zpow_pos ((k : ℤ) - 1)]), sub_add_cancel, zpow_natCast]; linarith
  have hc : cexp binary32 ((2 : ℝ) ^ k - d) = (k : ℤ) - 24 := by
    unfold cexp
    rw [hlog]
    show max ((k : ℤ) - 1 + 1 - 24) (-149) = _
    rw [max_eq_left (by omega)]; ring
  have hs : (2 : ℝ) ^ k = 2 ^ 24 * 2 ^ ((k : ℤ) - 24) := by
    rw [← zpow_natCast, ← zpow_natCast, ← zpow_add₀ (by norm_num)]; congr 1; push_cast; ring
  have h25 : (2 : ℝ) ^ (k - 25 : ℤ) = 2 ^ ((k : ℤ) - 24) / 2 := by
    rw [eq_div_iff (by norm_num), ← zpow_add_one₀ (by norm_num)]; congr 1; ring
  unfold rnd
  rw [hc]
  have hp := two_zpow_pos ((k : ℤ) - 24)
  have : rne (((2 : ℝ) ^ k - d) / 2 ^ ((k : ℤ) - 24)) = 2 ^ 24 := by
    apply rne_eq_of_lt
    have : ((2 : ℝ) ^ k - d) / 2 ^ ((k : ℤ) - 24) - ((2 ^ 24 : ℤ) : ℝ) = - (d / 2 ^ ((k : ℤ) - 24)) := by
      rw [hs]; push_cast; field_simp; ring
    rw [this, abs_neg, abs_of_pos (by positivity), div_lt_iff₀ hp]
    linarith
  rw [this, hs]; push_cast; ring

/-- **C25** refuted in floating point: on a new line of `2^k` slots (`1 ≤ k ≤ 24`), any positive delay below `2^(k-25)`
gives the weights `2^k` and `1 - 2^k`; the first output for input 1 is `1 - 2^k`. -/
theorem C25_false_in_f32 [Target] (hf : 24 ≤ f.p) {k : ℕ} (hk1 : 1 ≤ k) (hk : k ≤ 24) (hm : Allocatable (Fl L) (2 ^ k - 1)) {d : Fl L32}
    (hd : d.Finite) (h0 : 0 < d.toReal) (h1 : d.toReal < 2 ^ (k - 25 : ℤ)) :
    ∃ s : LinearDelay (Fl L32) (Fl L), LinearDelay.new b d (2 ^ k - 1) = .ok s ∧
      s.alpha.toReal = 2 ^ k ∧ s.om_alpha.toReal = 1 - 2 ^ k ∧
      ∃ s' y, s.process b one = .ok (s', y) ∧ y.Finite ∧ y.toReal = 1 - 2 ^ k := by
  have hm' := hm
  unfold Allocatable at hm'
  have hpk : 2 ≤ 2 ^ k := by
    calc 2 = 2 ^ 1 := rfl
      _ ≤ 2 ^ k := Nat.pow_le_pow_right (by norm_num) hk1
  have hpk24 : 2 ^ k ≤ 2 ^ 24 := Nat.pow_le_pow_right (by norm_num) hk
  have hd1 : d.toReal < 1 := by
    have : (2 : ℝ) ^ (k - 25 : ℤ) ≤ 2 ^ (0 : ℤ) := zpow_le_zpow_right₀ (by norm_num) (by omega)
    rw [zpow_zero] at this; linarith
  obtain ⟨N, hN⟩ : ∃ N : ℕ, N = 2 ^ k := ⟨_, rfl⟩
  have hNr : (N : ℝ) = 2 ^ k := by rw [hN]; push_cast; rfl
  rw [← hN] at hm hm' hpk hpk24 ⊢
  rw [← hNr]
  obtain ⟨m1, m2⟩ := ofUsize_fp (L32 := L32) (n := N - 1) (by omega)
  have hN1 : (1 : ℝ) ≤ ((N - 1 : ℕ) : ℝ) := by exact_mod_cast (by omega)
  have hM : 1 ≤ (ofUsize (N - 1) : Fl L32).toReal := by
    rw [m2]; exact le_rnd_of_le (isRep_one _) hN1
  obtain ⟨c1, c2⟩ := clipDelay_fin hd m1 (by linarith)
  rw [min_eq_left (by linarith), max_eq_right h0.le] at c2
  obtain ⟨pos, hpos, p1, p2, -, -⟩ := loop_fin (w := 0) (n := N) (by omega) (by omega) c1
    (by rw [c2]; exact h0.le) (by rw [c2]; exact hd1.le.trans (le_rnd_of_le (isRep_one _) hN1))
  have hp : pos.toReal = N := by
    rw [p2, c2]
    unfold posOf
    have hx0 : rnd binary32 (rnd binary32 ((0 : ℕ) : ℝ) - d.toReal) = - d.toReal := by
      rw [Nat.cast_zero, rnd_zero, zero_sub]; exact rnd_of_isRep (Fl.isRep_toReal d).neg
    simp only
    rw [hx0, if_pos (by linarith), rnd_of_isRep (isRep32_nat hpk24), hNr, neg_add_eq_sub]
    exact rnd32_below hk1 h0 h1
  have hu : DelayTime.toUsize (Fl L) pos = N :=
    toUsize_val p1 (by rw [hp]; positivity) (by have := target; omega) hp.ge (by rw [hp]; linarith)
  rw [← clipDelay_idem _ m1 (by linarith)] at hpos
  have hsd := LinearDelay.setDelay_eq (b := b) (T := Fl L)
    (s := { memory := List.replicate (N - 1 + 1) (zero : Fl L), output := zero, read_ptr := 0,
            write_ptr := 0, delay := zero, do_next_out := true, next_out := zero, alpha := zero, om_alpha := zero })
    (d := clipDelay d (ofUsize (N - 1))) (pos := pos) (by simp)
    (by simpa [Nat.sub_add_cancel (show 1 ≤ N by omega)] using hpos)
  have hn1 : N - 1 + 1 = N := by omega
  simp only [hu, List.length_replicate] at hsd
  rw [if_pos hn1.symm] at hsd
  have hnew := (new_eq_setDelay (b := b) (d := d) hm).trans hsd
  -- the weights
  obtain ⟨r1, r2⟩ := ofUsize_fp (L32 := L32) (n := 0) (by norm_num)
  rw [Nat.cast_zero, rnd_zero] at r2
  obtain ⟨a1, a2⟩ := Fl.sub_val p1 r1 (by rw [hp, r2, sub_zero, ← hp]; exact Fl.noOvf_toReal pos)
  rw [hp, r2, sub_zero, rnd_of_isRep (isRep32_nat hpk24)] at a2
  have hp24 : (2 : ℤ) ^ 24 ≤ 2 ^ f.p := pow_le_pow_right₀ (by norm_num) hf
  have hrepN : IsRep f (N : ℝ) := isRep_nat (hpk24.trans (by exact_mod_cast hp24))
  have hrepO : IsRep f (1 - (N : ℝ)) := by
    have := isRep_int (f := f) (n := 1 - (N : ℤ)) (by rw [abs_le]; constructor <;> omega)
    simpa using this
  have hlim : (N : ℝ) < f.lim := by
    have h24 : (N : ℝ) ≤ 2 ^ 24 := by exact_mod_cast hpk24
    refine h24.trans_lt ?_
    unfold Fmt.lim
    have : (2 : ℝ) ^ 24 = 2 ^ (24 : ℤ) := by norm_num
    rw [this]
    exact zpow_lt_zpow_right₀ (by norm_num) (by have := f.hemax; omega)
  have hN0 : (2 : ℝ) ≤ N := by exact_mod_cast hpk
  obtain ⟨e1, e2⟩ := castTo_val (L := L) a1 (by
    rw [a2]; unfold FP.NoOvf; rw [rnd_of_isRep hrepN, abs_of_nonneg (by positivity)]; exact hlim)
  rw [a2, rnd_of_isRep hrepN] at e2
  obtain ⟨o1, o2⟩ := Fl.sub_val (Fl.one_finite (L := L)) e1 (by
    rw [e2, Fl.one_toReal]; unfold FP.NoOvf; rw [rnd_of_isRep hrepO, abs_of_nonpos (by linarith)]; linarith)
  rw [e2, Fl.one_toReal, rnd_of_isRep hrepO] at o2
  refine ⟨_, hnew, e2, o2, ?_⟩
  -- the first output
  obtain ⟨s', z0, z1, g0, g1, hproc, -⟩ := LinearDelay.process_spec (b := b)
    (LinearDelay.Reachable.new hm hnew).winv (e := 0) ⟨by simp, by simp⟩ rfl one
  refine ⟨s', _, hproc, ?_⟩
  obtain ⟨hmem, hw, -⟩ := LinearDelay.new_frame hm hnew
  have hz0 : z0 = one := by simpa using g0.symm
  have hz1 : z1 = zero := by
    have hh : LinearDelay.hist (D := Fl L32) (T := Fl L) { memory := List.replicate (N - 1 + 1) (zero : Fl L), output := zero, read_ptr := 0, write_ptr := 0, delay := clipDelay (clipDelay d (ofUsize (N - 1))) (ofUsize (N - 1)), do_next_out := true, next_out := zero, alpha := DelayTime.castTo (pos -. ofUsize 0), om_alpha := one -. DelayTime.castTo (pos -. ofUsize 0) } = List.replicate (N - 1 + 1) zero := histOf_replicate ..
    simp only [List.length_replicate, Nat.add_sub_cancel] at g1
    unfold older at g1
    rw [if_pos rfl] at g1
    have h2 : N - 1 + 1 - 1 = (N - 2) + 1 := by omega
    rw [h2, List.getElem?_cons_succ] at g1
    have h3 := List.mem_of_getElem? g1
    have h4 := List.dropLast_subset _ h3
    have h5 : z1 ∈ List.replicate (N - 1 + 1) (zero : Fl L) := hh ▸ h4
    exact (List.mem_replicate.mp h5).2
  subst hz0 hz1
  obtain ⟨q1, q2⟩ := Fl.mul_val (Fl.one_finite (L := L)) o1 (by
    rw [Fl.one_toReal, one_mul]; exact Fl.noOvf_toReal _)
  rw [Fl.one_toReal, one_mul, o2, rnd_of_isRep hrepO] at q2
  obtain ⟨t1, t2⟩ := Fl.mul_val (Fl.zero_finite (L := L)) e1 (by
    rw [Fl.zero_toReal, zero_mul]; exact noOvf_zero)
  rw [Fl.zero_toReal, zero_mul, rnd_zero] at t2
  obtain ⟨u1, u2⟩ := Fl.add_val q1 t1 (by
    rw [q2, t2, add_zero]; unfold FP.NoOvf; rw [rnd_of_isRep hrepO, abs_of_nonpos (by linarith)]; linarith)
  rw [q2, t2, add_zero, rnd_of_isRep hrepO] at u2
  exact ⟨u1, u2⟩

/-- Concretely: a 4096-slot `f32` line with delay `2^-30` answers `-4095` to a unit impulse. -/
example [Target] (L32 L : Libm binary32) (b : Build) : ∃ (d : Fl L32) (s s' : LinearDelay (Fl L32) (Fl L)) (y : Fl L),
    d.toReal = 2 ^ (-30 : ℤ) ∧ LinearDelay.new b d 4095 = .ok s ∧ s.process b one = .ok (s', y) ∧ y.toReal = -4095 := by
  obtain ⟨d, h1, h2⟩ := exists_f32 L32 (e := -30) (by norm_num) (by norm_num)
  have hm : Allocatable (Fl L) (2 ^ 12 - 1) := by
    unfold Allocatable
    have : size (Fl L) = 4 := rfl
    rw [this]; have := target; omega
  obtain ⟨s, hs, -, -, s', y, hp, -, hy⟩ := C25_false_in_f32 (b := b) (L := L) (by decide) (k := 12) (by norm_num)
    (by norm_num) hm h1 (by rw [h2]; positivity)
    (by rw [h2]; exact zpow_lt_zpow_right₀ (by norm_num) (by norm_num))
  exact ⟨d, s, s', y, h2, hs, hp, by rw [hy]; norm_num⟩

end Rasp
