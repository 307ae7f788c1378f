import Verif.Props.LinearIEEE
import Verif.Props.DelayGrow

/-!
# C76: maxima that cannot be allocated

`usize::MAX` is special: `max_delay + 1` overflows. A debug build panics there; a release build wraps to 0 and makes an
empty line.
-/

namespace Rasp
open FloatOps

section any
variable {D T : Type} [FloatOps D] [FloatOps T] [DelayTime D T] {b : Build}

/-- `usize::MAX` -/
def usizeMax [Target] : ℕ := usizeMod - 1

theorem not_allocatable_max [Target] : ¬ Allocatable T usizeMax := by
  unfold Allocatable usizeMax
  have ht := target
  have := size_pos (T := T)
  intro h
  have h2 : (usizeMod - 1 + 1) * 1 ≤ (usizeMod - 1 + 1) * size T := Nat.mul_le_mul_left _ this
  omega

theorem vecNew_panic [Target] {z : T} {n : ℕ} (h : ¬ n * size T ≤ isizeMax) : vecNew z n = .error .panic := by
  unfold vecNew; rw [if_neg h]

theorem uAdd_max_debug [Target] (h : b.debug = true) : uAdd b usizeMax 1 = .error .panic := by
  have := target
  unfold uAdd usizeMax
  rw [if_neg (by omega), if_pos h]

theorem uAdd_max_release [Target] (h : b.debug = false) : uAdd b usizeMax 1 = .ok 0 := by
  have := target
  unfold uAdd usizeMax
  rw [if_neg (by omega), h, show usizeMod - 1 + 1 = usizeMod by omega, Nat.mod_self]
  rfl

theorem uSub_zero_release [Target] (h : b.debug = false) : uSub b 0 1 = .ok usizeMax := by
  unfold uSub usizeMax
  rw [if_neg (by omega), h]
  simp

theorem uSub_release [Target] (h : b.debug = false) (x y : ℕ) : ∃ z, uSub b x y = .ok z := by
  unfold uSub
  split
  · exact ⟨_, rfl⟩
  · rw [h]; exact ⟨_, rfl⟩

theorem uAdd_release [Target] (h : b.debug = false) (x y : ℕ) : ∃ z, uAdd b x y = .ok z := by
  unfold uAdd
  split
  · exact ⟨_, rfl⟩
  · rw [h]; exact ⟨_, rfl⟩

theorem iCheck_release [Target] (h : b.debug = false) (i : ℤ) : ∃ j, iCheck b i = .ok j := by
  unfold iCheck
  split
  · exact ⟨_, rfl⟩
  · rw [h]; exact ⟨_, rfl⟩

theorem tapIndex_release [Target] (h : b.debug = false) (w k n : ℕ) : ∃ i, tapIndex b w k n = .ok i := by
  unfold tapIndex iSub iAdd
  obtain ⟨i, hi⟩ := iCheck_release h (asIsize w - asIsize k)
  rw [hi, Res.ok_bind]
  obtain ⟨j, hj⟩ := iCheck_release h (i - 1)
  rw [hj, Res.ok_bind]
  split
  · obtain ⟨l, hl⟩ := iCheck_release h (j + asIsize n)
    rw [hl]; exact ⟨_, rfl⟩
  · exact ⟨_, rfl⟩

/-- A line without slots: it reports the largest maximum, and every call that touches a sample panics. -/
structure Delay.Unusable [Target] (b : Build) (s : Delay T) : Prop where
  max : s.getMaxDelay b = .ok usizeMax
  process : ∀ x, s.process b x = .error .panic
  nextOut : s.nextOut = .error .panic
  tapOut : ∀ k, s.tapOut b k = .error .panic
  tapIn : ∀ v k, s.tapIn b v k = .error .panic
  addTo : ∀ v k, s.addTo b v k = .error .panic

theorem Delay.unusable [Target] (h : b.debug = false) {s : Delay T} (hs : s.memory = []) : s.Unusable b := by
  have ht : ∀ k, ∃ i, tapIndex b s.write_ptr k 0 = .ok i := fun k => tapIndex_release h _ _ _
  refine ⟨?_, fun x => ?_, ?_, fun k => ?_, fun v k => ?_, fun v k => ?_⟩
  · simp only [Delay.getMaxDelay, hs, List.length_nil, uSub_zero_release h]
  · simp [Delay.process, hs, idxSet]
  · simp [Delay.nextOut, hs, idx]
  all_goals obtain ⟨i, hi⟩ := ht k
  · simp [Delay.tapOut, hs, hi, idx]
  · simp [Delay.tapIn, hs, hi, idxSet]
  · simp [Delay.addTo, hs, hi, idx]

/-- Likewise for `LinearDelay`; `next_out` may still return a value cached before. -/
structure LinearDelay.Unusable [Target] (b : Build) (s : LinearDelay D T) : Prop where
  max : s.getMaxDelay b = .ok usizeMax
  process : ∀ x, s.process b x = .error .panic
  nextOut : s.nextOut b = .error .panic ∨ s.nextOut b = .ok (s, s.next_out)
  tapOut : ∀ k, s.tapOut b k = .error .panic
  tapIn : ∀ v k, s.tapIn b v k = .error .panic
  addTo : ∀ v k, s.addTo b v k = .error .panic

omit [FloatOps D] [DelayTime D T] in
theorem LinearDelay.unusable [Target] (h : b.debug = false) {s : LinearDelay D T} (hs : s.memory = []) : s.Unusable b := by
  have ht : ∀ k, ∃ i, tapIndex b s.write_ptr k 0 = .ok i := fun k => tapIndex_release h _ _ _
  refine ⟨?_, fun x => ?_, ?_, fun k => ?_, fun v k => ?_, fun v k => ?_⟩
  · simp only [LinearDelay.getMaxDelay, hs, List.length_nil, uSub_zero_release h]
  · simp [LinearDelay.process, hs, idxSet]
  · unfold LinearDelay.nextOut
    split
    · left; simp [hs, idx]
    · right; rfl
  all_goals obtain ⟨i, hi⟩ := ht k
  · simp [LinearDelay.tapOut, hs, hi, idx]
  · simp [LinearDelay.tapIn, hs, hi, idxSet]
  · simp [LinearDelay.addTo, hs, hi, idx]

/-! ## Delay -/

/-- **C76**, `Delay::new` for every maximum: it succeeds if the line can be allocated and panics otherwise, except that for
`usize::MAX` a release build silently returns an unusable line. -/
theorem C76_delay_new [Target] {d m : ℕ} (hm : m ≤ usizeMax) :
    (Allocatable T m → ∃ s : Delay T, Delay.new b d m = .ok s ∧ s.getMaxDelay b = .ok m ∧ ∀ x, ∃ r, s.process b x = .ok r) ∧
    (¬ Allocatable T m → m ≠ usizeMax ∨ b.debug = true → (Delay.new b d m : Res (Delay T)) = .error .panic) ∧
    (m = usizeMax → b.debug = false → ∃ s : Delay T, Delay.new b d m = .ok s ∧ s.Unusable b) := by
  refine ⟨fun h => ?_, fun h hc => ?_, ?_⟩
  · obtain ⟨s, hn, hi, he, hd, hmem, hw, -⟩ := Delay.new_spec (b := b) (d := d) h
    refine ⟨s, hn, ?_, fun x => ?_⟩
    · unfold Delay.getMaxDelay; rw [hmem, List.length_replicate]; exact uSub_ok (by omega)
    · obtain ⟨s2, y, hp, -⟩ := Delay.process_spec (b := b) hi he x
      exact ⟨_, hp⟩
  · unfold Delay.new
    by_cases hmax : m = usizeMax
    · subst hmax
      rw [uAdd_max_debug (by simpa using hc)]; rfl
    · rw [uAdd_ok (by have := target; unfold usizeMax at hm hmax; omega), Res.ok_bind]
      unfold Allocatable at h
      rw [vecNew_panic h]; rfl
  · rintro rfl hb
    unfold Delay.new
    rw [uAdd_max_release hb, Res.ok_bind]
    unfold vecNew
    rw [if_pos (by simp), Res.ok_bind]
    generalize (if d > usizeMax then usizeMax else d) = d1
    simp only [Delay.setDelay, List.replicate_zero, List.length_nil, uSub_zero_release hb, Res.ok_bind]
    generalize (if d1 > usizeMax then usizeMax else d1) = d2
    split
    · obtain ⟨z, hz⟩ := uSub_release hb 0 d2
      rw [hz]
      exact ⟨_, rfl, Delay.unusable hb rfl⟩
    · rw [uAdd_ok (by have := target; omega), Res.ok_bind]
      obtain ⟨z, hz⟩ := uSub_release hb (0 + 0) d2
      rw [hz]
      exact ⟨_, rfl, Delay.unusable hb rfl⟩

/-- **C76**, `Delay::set_max_delay` for every argument, in every reachable state with slots. In the last case the stored
samples are lost. -/
theorem C76_delay_setMaxDelay [Target] {s : Delay T} (hs : Delay.Reachable b s) {mx m : ℕ} (hmx : s.getMaxDelay b = .ok mx)
    (hm : m ≤ usizeMax) :
    (m ≤ mx → s.setMaxDelay b m = .ok s) ∧
    (mx < m → Allocatable T m → ∃ s', s.setMaxDelay b m = .ok s' ∧ s'.getMaxDelay b = .ok m ∧
      ∀ x, ∃ r, s'.process b x = .ok r) ∧
    (¬ Allocatable T m → m ≠ usizeMax ∨ b.debug = true → mx < m → s.setMaxDelay b m = .error .panic) ∧
    (m = usizeMax → b.debug = false → ∃ s', s.setMaxDelay b m = .ok s' ∧ s'.Unusable b) := by
  obtain ⟨hi, e, he, -⟩ := hs.inv
  have hl : s.memory.length = mx + 1 := by
    have := hi.hw
    unfold Delay.getMaxDelay at hmx
    rw [uSub_ok (by omega)] at hmx
    have := Except.ok.inj hmx
    omega
  refine ⟨fun h => Delay.setMaxDelay_small (by omega), fun h ha => ?_, fun h hc hlt => ?_, ?_⟩
  · obtain ⟨s', h1, hi', hl', -, he', -⟩ := Delay.grow_spec (b := b) hi he (by omega : _ ≤ m) ha
    refine ⟨s', h1, ?_, fun x => ?_⟩
    · unfold Delay.getMaxDelay; rw [hl']; exact uSub_ok (by omega)
    · obtain ⟨s2, y, hp, -⟩ := Delay.process_spec (b := b) hi' he' x
      exact ⟨_, hp⟩
  · unfold Delay.setMaxDelay
    rw [if_neg (by omega)]
    by_cases hmax : m = usizeMax
    · subst hmax
      rw [uAdd_max_debug (by simpa using hc)]; rfl
    · rw [uAdd_ok (by have := target; unfold usizeMax at hm hmax; omega), Res.ok_bind]
      unfold vecResize
      unfold Allocatable at h
      rw [if_neg (by omega), if_neg h]; rfl
  · rintro rfl hb
    have := hi.len_le
    unfold Delay.setMaxDelay
    rw [if_neg (by unfold usizeMax; have := target; omega), uAdd_max_release hb, Res.ok_bind]
    unfold vecResize
    rw [if_pos (by omega), Res.ok_bind]
    exact ⟨_, rfl, Delay.unusable hb (by simp)⟩

end any

/-! ## LinearDelay -/

section ieee
variable {L32 : Libm binary32} {f : Fmt} {L : Libm f} {b : Build}

/-- The loop of `set_delay` on an empty line: adding 0 never makes a negative position non-negative. -/
theorem loop_empty_diverges {x : Fl L32} (hx : x.Finite) (h0 : x.toReal < 0) :
    whileLoop (fun x : Fl L32 => lt x zero) (fun x => x +. ofUsize 0) x = .error .diverge := by
  have hz := ofUsize_fp (L32 := L32) (n := 0) (by omega)
  have hz0 : (ofUsize 0 : Fl L32).toReal = 0 := by rw [hz.2]; simp [rnd_zero]
  have key : ∀ n : ℕ, ((fun x : Fl L32 => x +. ofUsize 0)^[n] x).Finite ∧
      ((fun x : Fl L32 => x +. ofUsize 0)^[n] x).toReal = x.toReal := by
    intro n
    induction n with
    | zero => exact ⟨hx, rfl⟩
    | succ n ih =>
      rw [Function.iterate_succ_apply']
      obtain ⟨a, c⟩ := Fl.add_zero_val ih.1 hz.1 hz0
      exact ⟨a, c.trans ih.2⟩
  unfold whileLoop
  rw [dif_neg]
  rintro ⟨n, hn⟩
  obtain ⟨a, c⟩ := key n
  rw [Fl.lt_false_iff a Fl.zero_finite, c, Fl.zero_toReal] at hn
  linarith

/-- Different floating point numbers have a nonzero floating point difference. -/
theorem rnd_sub_neg {f : Fmt} {x y : ℝ} (hx : IsRep f x) (hy : IsRep f y) (h : x < y) : rnd f (x - y) < 0 := by
  have key : ∀ z, IsRep f z → ∃ k : ℤ, z = k * (2 : ℝ) ^ f.emin := by
    rintro z ⟨m, e, -, he, rfl⟩
    obtain ⟨n, hn⟩ := Int.eq_ofNat_of_zero_le (sub_nonneg.mpr he)
    refine ⟨m * 2 ^ n, ?_⟩
    push_cast
    rw [mul_assoc, ← zpow_natCast, ← zpow_add₀ (by norm_num), show (n : ℤ) + f.emin = e by omega]
  obtain ⟨i, rfl⟩ := key x hx
  obtain ⟨j, rfl⟩ := key y hy
  have hp := two_zpow_pos f.emin
  have hij : i < j := by
    have := lt_of_mul_lt_mul_right h hp.le
    exact_mod_cast this
  have hle : (i : ℝ) - j ≤ -1 := by
    have : i - j ≤ -1 := by omega
    exact_mod_cast this
  have : rnd f (i * (2 : ℝ) ^ f.emin - j * (2 : ℝ) ^ f.emin) ≤ -(2 : ℝ) ^ f.emin :=
    rnd_le_of_le (isRep_two_zpow le_rfl).neg (by rw [← sub_mul]; nlinarith)
  linarith

theorem usizeMax_fp [Target] : (ofUsize usizeMax : Fl L32).Finite ∧ 3 / 2 * (isizeMod : ℝ) ≤ (ofUsize usizeMax : Fl L32).toReal := by
  have ht := target
  obtain ⟨h1, h2⟩ := ofUsize_fp (L32 := L32) (n := usizeMax) (by unfold usizeMax; omega)
  refine ⟨h1, ?_⟩
  rw [h2]
  have hM : ∃ e : ℕ, e ≤ 62 ∧ isizeMod = 2 * 2 ^ e := by
    rcases ht.2.2 with h | h
    · exact ⟨30, by norm_num, h⟩
    · exact ⟨62, by norm_num, h⟩
  obtain ⟨e, he, hM⟩ := hM
  have hrep : IsRep binary32 (((3 : ℤ) : ℝ) * (2 : ℝ) ^ (e : ℤ)) := isRep_of_le (by decide) ((show binary32.emin ≤ 0 by decide).trans (by omega))
  have h3 : ((3 : ℤ) : ℝ) * (2 : ℝ) ^ (e : ℤ) = 3 / 2 * (isizeMod : ℝ) := by rw [hM, zpow_natCast]; push_cast; ring
  rw [h3] at hrep
  refine le_rnd_of_le hrep ?_
  have : 3 * isizeMod ≤ 2 * usizeMax := by unfold usizeMax; omega
  have : (3 : ℝ) * isizeMod ≤ 2 * usizeMax := by exact_mod_cast this
  linarith

theorem isizeMod_rep [Target] : IsRep binary32 (isizeMod : ℝ) := by
  rcases (target).2.2 with h | h <;> rw [h]
  · exact_mod_cast isRep_two_zpow (f := binary32) (e := 31) (by decide)
  · exact_mod_cast isRep_two_zpow (f := binary32) (e := 63) (by decide)

/-- What `set_delay` does on a line without slots (release build): it returns if the position `write_ptr - d` is not
negative and loops forever otherwise. -/
theorem setDelay_empty [Target] (hb : b.debug = false) {s : LinearDelay (Fl L32) (Fl L)} (hs : s.memory = []) {d : Fl L32} :
    (∀ pos, whileLoop (fun x : Fl L32 => lt x zero) (fun x => x +. ofUsize 0)
        (ofUsize s.write_ptr -. clipDelay d (ofUsize usizeMax)) = .ok pos → ∃ s', s.setDelay b d = .ok s' ∧ s'.memory = []) ∧
    (whileLoop (fun x : Fl L32 => lt x zero) (fun x => x +. ofUsize 0)
        (ofUsize s.write_ptr -. clipDelay d (ofUsize usizeMax)) = .error .diverge → s.setDelay b d = .error .diverge) := by
  refine ⟨fun pos h => ?_, fun h => ?_⟩
  · unfold LinearDelay.setDelay
    simp only [hs, List.length_nil]
    rw [uSub_zero_release hb, Res.ok_bind, h, Res.ok_bind]
    exact ⟨_, rfl, rfl⟩
  · unfold LinearDelay.setDelay
    simp only [hs, List.length_nil]
    rw [uSub_zero_release hb, Res.ok_bind, h]
    rfl

/-- The start position of the loop is negative when the clipped delay exceeds the write position. -/
theorem start_neg {w : ℕ} (hw : w ≤ 2 ^ 63) {d : Fl L32} (hd : d.Finite) (h : (ofUsize w : Fl L32).toReal < d.toReal)
    (hM : d.toReal ≤ 2 ^ 65) : (ofUsize w -. d : Fl L32).Finite ∧ (ofUsize w -. d : Fl L32).toReal < 0 := by
  obtain ⟨w1, w2⟩ := ofUsize_fp (L32 := L32) (n := w) (by omega)
  have h63 := rnd32_le hw
  have h0 : 0 ≤ rnd binary32 (w : ℝ) := rnd_nonneg (by positivity)
  obtain ⟨x1, x2⟩ := Fl.sub_val (x := (ofUsize w : Fl L32)) (y := d) w1 hd (by
    rw [w2] at h ⊢; apply noOvf32; rw [abs_le]; constructor <;> linarith)
  exact ⟨x1, by rw [x2]; exact rnd_sub_neg (Fl.isRep_toReal _) (Fl.isRep_toReal _) h⟩

theorem usizeMax_le [Target] : (ofUsize usizeMax : Fl L32).toReal ≤ 2 ^ 65 := by
  rw [(ofUsize_fp (L32 := L32) (n := usizeMax) (by have := target; unfold usizeMax; omega)).2]
  have h : rnd binary32 (usizeMax : ℝ) ≤ (2 : ℝ) ^ (65 : ℤ) := rnd_le_of_le (isRep_two_zpow (by decide)) (by
    have : usizeMax ≤ 2 ^ 65 := by have := target; unfold usizeMax; omega
    rw [show (65 : ℤ) = ((65 : ℕ) : ℤ) from rfl, zpow_natCast]; exact_mod_cast this)
  rwa [show (65 : ℤ) = ((65 : ℕ) : ℤ) from rfl, zpow_natCast] at h

/-- A delay argument above `v`, infinity included. -/
def Above (d : Fl L32) (v : ℝ) : Prop := d = Fl.inf L32 false ∨ (d.Finite ∧ v < d.toReal)

/-- On a line without slots `set_delay` loops forever for a delay above the write position. -/
theorem setDelay_empty_diverges [Target] (hb : b.debug = false) {s : LinearDelay (Fl L32) (Fl L)} (hs : s.memory = [])
    (hw : s.write_ptr ≤ isizeMod) {d : Fl L32} (hd : Above d (ofUsize s.write_ptr : Fl L32).toReal) :
    s.setDelay b d = .error .diverge := by
  refine (setDelay_empty hb hs).2 ?_
  have ht := target
  have h0 : (0 : ℝ) < isizeMod := by exact_mod_cast (by omega : 0 < isizeMod)
  obtain ⟨hM, hM0⟩ := usizeMax_fp (L32 := L32)
  have hM1 := usizeMax_le (L32 := L32)
  have hwM : (ofUsize s.write_ptr : Fl L32).toReal < (ofUsize usizeMax : Fl L32).toReal := by
    rw [(ofUsize_fp (L32 := L32) (n := s.write_ptr) (by omega)).2]
    have : rnd binary32 (s.write_ptr : ℝ) ≤ isizeMod := rnd_le_of_le isizeMod_rep (by exact_mod_cast hw)
    linarith
  have hw0 : 0 ≤ (ofUsize s.write_ptr : Fl L32).toReal := ofUsize_nonneg (by omega)
  rcases hd with rfl | ⟨hd, hlt⟩
  · rw [clipDelay_pinf hM (by linarith)]
    obtain ⟨h1, h2⟩ := start_neg (show s.write_ptr ≤ 2 ^ 63 by omega) hM hwM hM1
    exact loop_empty_diverges h1 h2
  · obtain ⟨c1, c2⟩ := clipDelay_fin hd hM (by linarith)
    obtain ⟨h1, h2⟩ := start_neg (show s.write_ptr ≤ 2 ^ 63 by omega) c1 (by rw [c2]; exact lt_max_of_lt_right (lt_min hlt hwM)) (by
      rw [c2]; exact max_le (by positivity) ((min_le_right _ _).trans hM1))
    exact loop_empty_diverges h1 h2

/-- On a line without slots and at write position 0 `set_delay` returns for NaN and for a delay that is not positive. -/
theorem setDelay_empty_returns [Target] (hb : b.debug = false) {s : LinearDelay (Fl L32) (Fl L)} (hs : s.memory = [])
    (hw : s.write_ptr = 0) {d : Fl L32} (hd : ¬ Above d 0) : ∃ s', s.setDelay b d = .ok s' ∧ s'.memory = [] := by
  obtain ⟨hM, hM0⟩ := usizeMax_fp (L32 := L32)
  obtain ⟨z1, z2⟩ := ofUsize_fp (L32 := L32) (n := 0) (by omega)
  have z3 : (ofUsize 0 : Fl L32).toReal = 0 := by rw [z2]; simp [rnd_zero]
  have key : ∀ c : Fl L32, c.Finite → c.toReal = 0 → lt (ofUsize 0 -. c : Fl L32) zero = false := by
    intro c hc hc0
    obtain ⟨x1, x2⟩ := Fl.sub_zero_val z1 hc hc0
    rw [Fl.lt_false_iff x1 Fl.zero_finite, x2, z3, Fl.zero_toReal]
  rcases Fl.cases d with ⟨t, rfl⟩ | ⟨t, rfl⟩ | hf
  · rw [← hw] at *
    have hn : (ofUsize s.write_ptr -. clipDelay (Fl.nan L32 t) (ofUsize usizeMax) : Fl L32).IsNaN := by
      rw [clipDelay_nan (d := Fl.nan L32 t) trivial]
      exact Fl.sub_nan_right (y := Fl.nan L32 t) trivial
    exact (setDelay_empty hb hs).1 _ (whileLoop_zero (Fl.lt_nan_left hn))
  · cases t with
    | false => exact absurd (.inl rfl) hd
    | true =>
      refine (setDelay_empty hb hs).1 _ (whileLoop_zero ?_)
      rw [clipDelay_ninf hM, hw]
      exact key _ Fl.zero_finite Fl.zero_toReal
  · have hle : d.toReal ≤ 0 := not_lt.mp fun h => hd (.inr ⟨hf, h⟩)
    obtain ⟨c1, c2⟩ := clipDelay_fin hf hM (le_trans (by positivity) hM0)
    refine (setDelay_empty hb hs).1 _ (whileLoop_zero ?_)
    rw [hw]
    exact key _ c1 (by rw [c2]; exact max_eq_left ((min_le_left _ _).trans hle))

/-- Clipping to the largest maximum twice is clipping once, as far as `Above` goes. -/
theorem above_clip [Target] (d : Fl L32) : Above (clipDelay d (ofUsize usizeMax)) 0 ↔ Above d 0 := by
  obtain ⟨hM, hM0⟩ := usizeMax_fp (L32 := L32)
  have hMp : 0 < (ofUsize usizeMax : Fl L32).toReal := by
    have ht := target
    have : (0 : ℝ) < isizeMod := by exact_mod_cast (by omega : 0 < isizeMod)
    linarith
  rcases Fl.cases d with ⟨t, rfl⟩ | ⟨t, rfl⟩ | hf
  · rw [clipDelay_nan (d := Fl.nan L32 t) trivial]
  · cases t with
    | false =>
      rw [clipDelay_pinf hM hMp.le]
      exact ⟨fun _ => .inl rfl, fun _ => .inr ⟨hM, hMp⟩⟩
    | true =>
      rw [clipDelay_ninf hM]
      constructor
      · rintro (h | ⟨-, h⟩)
        · exact absurd (h ▸ Fl.zero_finite (L := L32)) (Fl.inf_not_finite false)
        · rw [Fl.zero_toReal] at h; exact absurd h (lt_irrefl _)
      · rintro (h | ⟨h, -⟩)
        · exact FP.noConfusion rfl (heq_of_eq h) (fun h => by cases h)
        · exact absurd h (Fl.inf_not_finite true)
  · obtain ⟨c1, c2⟩ := clipDelay_fin hf hM hMp.le
    constructor
    · rintro (h | ⟨-, h⟩)
      · exact absurd (h ▸ c1) (Fl.inf_not_finite false)
      · rw [c2] at h
        refine .inr ⟨hf, ?_⟩
        by_contra hn
        rw [max_eq_left ((min_le_left _ _).trans (not_lt.mp hn))] at h
        exact lt_irrefl _ h
    · rintro (h | ⟨-, h⟩)
      · exact absurd (h ▸ hf) (Fl.inf_not_finite false)
      · exact .inr ⟨c1, by rw [c2]; exact lt_max_of_lt_right (lt_min h hMp)⟩

/-- **C76**, `LinearDelay::new` for every maximum. As for `Delay`, but for `usize::MAX` a release build loops forever if
the delay is positive (or infinite). -/
theorem C76_linearDelay_new [Target] {m : ℕ} (hm : m ≤ usizeMax) (d : Fl L32) :
    (Allocatable (Fl L) m → ∃ s : LinearDelay (Fl L32) (Fl L), LinearDelay.new b d m = .ok s ∧ s.getMaxDelay b = .ok m) ∧
    (¬ Allocatable (Fl L) m → m ≠ usizeMax ∨ b.debug = true →
      (LinearDelay.new b d m : Res (LinearDelay (Fl L32) (Fl L))) = .error .panic) ∧
    (m = usizeMax → b.debug = false → Above d 0 →
      (LinearDelay.new b d m : Res (LinearDelay (Fl L32) (Fl L))) = .error .diverge) ∧
    (m = usizeMax → b.debug = false → ¬ Above d 0 →
      ∃ s : LinearDelay (Fl L32) (Fl L), LinearDelay.new b d m = .ok s ∧ s.Unusable b) := by
  refine ⟨fun h => ?_, fun h hc => ?_, ?_, ?_⟩
  · obtain ⟨s, hn, -⟩ := C21_new_clips (b := b) h d
    obtain ⟨h1, -⟩ := LinearDelay.new_frame h hn
    refine ⟨s, hn, ?_⟩
    unfold LinearDelay.getMaxDelay; rw [h1, List.length_replicate]; exact uSub_ok (by omega)
  · unfold LinearDelay.new
    by_cases hmax : m = usizeMax
    · subst hmax
      rw [uAdd_max_debug (by simpa using hc)]; rfl
    · rw [uAdd_ok (by have := target; unfold usizeMax at hm hmax; omega), Res.ok_bind]
      unfold Allocatable at h
      rw [vecNew_panic h]; rfl
  · rintro rfl hb hd
    unfold LinearDelay.new
    rw [uAdd_max_release hb, Res.ok_bind]
    unfold vecNew
    rw [if_pos (by simp), Res.ok_bind]
    refine setDelay_empty_diverges hb rfl (by simp) ?_
    have z3 : (ofUsize 0 : Fl L32).toReal = 0 := by rw [(ofUsize_fp (L32 := L32) (n := 0) (by omega)).2]; simp [rnd_zero]
    rw [z3]
    exact (above_clip d).mpr hd
  · rintro rfl hb hd
    unfold LinearDelay.new
    rw [uAdd_max_release hb, Res.ok_bind]
    unfold vecNew
    rw [if_pos (by simp), Res.ok_bind]
    obtain ⟨s', h1, h2⟩ := setDelay_empty_returns (b := b) hb (s := ({
      memory := List.replicate 0 zero, output := zero, read_ptr := 0, write_ptr := 0, delay := zero,
      do_next_out := true, next_out := zero, alpha := zero, om_alpha := zero } : LinearDelay (Fl L32) (Fl L)))
      rfl rfl (d := clipDelay d (ofUsize usizeMax)) (fun h => hd ((above_clip d).mp h))
    exact ⟨s', h1, LinearDelay.unusable hb h2⟩

/-- **C76**, `LinearDelay::set_max_delay` for every argument, in every reachable state. In the last case the stored samples
are lost, and a following `set_delay` above the old maximum loops forever. -/
theorem C76_linearDelay_setMaxDelay [Target] {s : LinearDelay (Fl L32) (Fl L)} (hs : LinearDelay.Reachable b s) {mx m : ℕ}
    (hmx : s.getMaxDelay b = .ok mx) (hm : m ≤ usizeMax) :
    (m ≤ mx → s.setMaxDelay b m = .ok s) ∧
    (mx < m → Allocatable (Fl L) m → ∃ s', s.setMaxDelay b m = .ok s' ∧ s'.getMaxDelay b = .ok m) ∧
    (¬ Allocatable (Fl L) m → m ≠ usizeMax ∨ b.debug = true → mx < m → s.setMaxDelay b m = .error .panic) ∧
    (m = usizeMax → b.debug = false → ∃ s', s.setMaxDelay b m = .ok s' ∧ s'.Unusable b ∧
      ∀ d : Fl L32, Above d (ofUsize mx : Fl L32).toReal → s'.setDelay b d = .error .diverge) := by
  have hi := hs.winv
  have hl : s.memory.length = mx + 1 := by
    have := hi.hw
    unfold LinearDelay.getMaxDelay at hmx
    rw [uSub_ok (by omega)] at hmx
    have := Except.ok.inj hmx
    omega
  refine ⟨fun h => LinearDelay.setMaxDelay_small (by omega), fun h ha => ?_, fun h hc hlt => ?_, ?_⟩
  · refine ⟨_, LinearDelay.setMaxDelay_grow (by omega) ha, ?_⟩
    unfold LinearDelay.getMaxDelay
    simp only [List.length_append, List.length_replicate]
    rw [uSub_ok (by omega)]
    congr 1; omega
  · unfold LinearDelay.setMaxDelay
    rw [if_neg (by omega)]
    by_cases hmax : m = usizeMax
    · subst hmax
      rw [uAdd_max_debug (by simpa using hc)]; rfl
    · rw [uAdd_ok (by have := target; unfold usizeMax at hm hmax; omega), Res.ok_bind]
      unfold vecResize
      unfold Allocatable at h
      rw [if_neg (by omega), if_neg h]; rfl
  · rintro rfl hb
    have hlen := hi.len_le
    have hw := hi.hw
    unfold LinearDelay.setMaxDelay
    rw [if_neg (by unfold usizeMax; have := target; omega), uAdd_max_release hb, Res.ok_bind]
    unfold vecResize
    rw [if_pos (by omega), Res.ok_bind]
    refine ⟨_, rfl, LinearDelay.unusable hb (by simp), fun d hd => ?_⟩
    refine setDelay_empty_diverges hb (by simp) (by have := target; simp only; omega) ?_
    rcases hd with h | ⟨h1, h2⟩
    · exact .inl h
    · refine .inr ⟨h1, lt_of_le_of_lt ?_ h2⟩
      have ht := target
      rw [(ofUsize_fp (L32 := L32) (n := s.write_ptr) (by omega)).2, (ofUsize_fp (L32 := L32) (n := mx) (by omega)).2]
      exact rnd_mono (by exact_mod_cast (by omega : s.write_ptr ≤ mx))

/-- Non-vacuity: a maximum of each kind for `f32`-sized samples. -/
example [Target] : (5 ≤ usizeMax ∧ (5 + 1) * 4 ≤ isizeMax) ∧ (isizeMax ≤ usizeMax ∧ ¬ (isizeMax + 1) * 4 ≤ isizeMax ∧ isizeMax ≠ usizeMax) := by
  have := target
  unfold usizeMax; omega

end ieee
end Rasp
