import Verif.Spec.Linear
import Verif.Lemmas.Ring
import Verif.Lemmas.Stream

/-! # What the calls on a `LinearDelay` do to its memory, for arbitrary number types -/

namespace Rasp
open FloatOps
variable {D T : Type} [FloatOps D] [FloatOps T] [DelayTime D T] {b : Build}

/-- Write position in range, memory within the allocation limit. -/
structure LinearDelay.WInv [Target] (s : LinearDelay D T) : Prop where
  hw : s.write_ptr < s.memory.length
  cap : s.memory.length * size T ≤ isizeMax

/-- Stored samples, newest first. -/
def LinearDelay.hist (s : LinearDelay D T) : List T := histOf s.memory s.write_ptr

omit [FloatOps D] [FloatOps T] [DelayTime D T] in
@[simp] theorem LinearDelay.hist_length (s : LinearDelay D T) : s.hist.length = s.memory.length := histOf_length

omit [FloatOps D] [DelayTime D T] in
theorem LinearDelay.WInv.len_le [Target] {s : LinearDelay D T} (h : s.WInv) : s.memory.length ≤ isizeMax :=
  le_isizeMax_of_mul size_pos h.cap

/-- `set_delay` touches only `delay`, `read_ptr` and the weights. -/
theorem LinearDelay.setDelay_frame [Target] {s s' : LinearDelay D T} {d : D} (h : s.setDelay b d = .ok s') :
    s'.memory = s.memory ∧ s'.write_ptr = s.write_ptr ∧ s'.output = s.output ∧ s'.do_next_out = s.do_next_out ∧
      s'.next_out = s.next_out := by
  unfold LinearDelay.setDelay at h
  simp only [Res.bind_ok] at h
  obtain ⟨_, _, _, _, h⟩ := h
  cases h
  exact ⟨rfl, rfl, rfl, rfl, rfl⟩

omit [FloatOps D] [DelayTime D T] in
/-- `next_out` touches only its cache. -/
theorem LinearDelay.nextOut_frame [Target] {s s' : LinearDelay D T} {y : T} (h : s.nextOut b = .ok (s', y)) :
    s' = { s with next_out := y, do_next_out := false } := by
  unfold LinearDelay.nextOut at h
  split at h
  · simp only [Res.bind_ok] at h
    obtain ⟨_, _, _, _, h⟩ := h
    split at h <;> simp only [Res.bind_ok] at h
    · obtain ⟨_, _, _, _, h⟩ := h
      cases h; rfl
    · obtain ⟨_, _, h⟩ := h
      cases h; rfl
  · next hc =>
    cases h
    have : s.do_next_out = false := by simpa using hc
    cases s; simp_all

omit [FloatOps D] [DelayTime D T] in
theorem LinearDelay.process_frame [Target] {s s' : LinearDelay D T} {x y : T} (hi : s.WInv) (h : s.process b x = .ok (s', y)) :
    s'.hist = x :: s.hist.dropLast ∧ s'.WInv ∧ s'.memory.length = s.memory.length ∧
      s'.delay = s.delay ∧ s'.output = y := by
  have hw := hi.hw
  have hlen := hi.len_le
  have hmod := isizeMax_lt
  unfold LinearDelay.process at h
  rw [idxSet_ok hw, Res.ok_bind, uAdd_ok (by omega), Res.ok_bind, uRem_ok (by rw [List.length_set]; omega), Res.ok_bind] at h
  simp only [Res.bind_ok] at h
  obtain ⟨⟨s1, o⟩, h1, _, -, _, -, h⟩ := h
  obtain rfl := LinearDelay.nextOut_frame h1
  cases h
  refine ⟨?_, ⟨?_, ?_⟩, by simp, rfl, rfl⟩
  · show histOf (s.memory.set s.write_ptr x) ((s.write_ptr + 1) % (s.memory.set s.write_ptr x).length) = _
    rw [List.length_set]
    exact histOf_push hw x
  · simpa using Nat.mod_lt _ (by omega)
  · simpa using hi.cap

theorem LinearDelay.new_frame [Target] {d : D} {m : ℕ} {s : LinearDelay D T} (hm : Allocatable T m)
    (h : LinearDelay.new b d m = .ok s) :
    s.memory = List.replicate (m + 1) zero ∧ s.write_ptr = 0 ∧ s.WInv ∧ s.do_next_out = true ∧ s.output = zero := by
  unfold Allocatable at hm
  have hlen : m + 1 ≤ isizeMax := le_isizeMax_of_mul (size_pos (T := T)) hm
  unfold LinearDelay.new at h
  rw [uAdd_ok (by have := isizeMax_lt; omega), Res.ok_bind] at h
  unfold vecNew at h
  rw [if_pos hm, Res.ok_bind] at h
  obtain ⟨h1, h2, h3, h4, -⟩ := LinearDelay.setDelay_frame h
  exact ⟨h1, h2, ⟨by rw [h1, h2]; simp, by rw [h1]; simpa using hm⟩, h4, h3⟩

omit [FloatOps D] [DelayTime D T] in
theorem LinearDelay.setMaxDelay_small [Target] {s : LinearDelay D T} {m : ℕ} (h : m < s.memory.length) :
    s.setMaxDelay b m = .ok s := by
  unfold LinearDelay.setMaxDelay; rw [if_pos h]

omit [FloatOps D] [DelayTime D T] in
theorem LinearDelay.setMaxDelay_grow [Target] {s : LinearDelay D T} {m : ℕ} (h : s.memory.length ≤ m)
    (hm : Allocatable T m) :
    s.setMaxDelay b m = .ok { s with memory := s.memory ++ List.replicate (m + 1 - s.memory.length) zero } := by
  unfold Allocatable at hm
  have hlen : m + 1 ≤ isizeMax := le_isizeMax_of_mul (size_pos (T := T)) hm
  unfold LinearDelay.setMaxDelay
  rw [if_neg (by omega), uAdd_ok (by have := isizeMax_lt; omega), Res.ok_bind]
  unfold vecResize
  rw [if_neg (by omega), if_pos hm, Res.ok_bind]

omit [FloatOps D] [DelayTime D T] in
theorem LinearDelay.tapOut_spec [Target] {s : LinearDelay D T} (h : s.WInv) {k : ℕ} (hk : k < s.memory.length) :
    ∃ y, s.tapOut b k = .ok y ∧ s.hist[k]? = some y := by
  unfold LinearDelay.tapOut
  rw [tapIndex_ok h.hw hk h.len_le, Res.ok_bind, idx_ok (slot_lt h.hw hk)]
  exact ⟨_, rfl, by unfold LinearDelay.hist; rw [histOf_get? h.hw hk, List.getElem?_eq_getElem (slot_lt h.hw hk)]⟩

omit [FloatOps D] [DelayTime D T] in
theorem LinearDelay.tapIn_spec [Target] {s : LinearDelay D T} (h : s.WInv) {k : ℕ} (hk : k < s.memory.length) (v : T) :
    ∃ m, s.tapIn b v k = .ok { s with memory := m } ∧ histOf m s.write_ptr = s.hist.set k v ∧
      m.length = s.memory.length := by
  unfold LinearDelay.tapIn
  rw [tapIndex_ok h.hw hk h.len_le, Res.ok_bind, idxSet_ok (slot_lt h.hw hk), Res.ok_bind]
  exact ⟨_, rfl, histOf_set h.hw hk v, by simp⟩

omit [FloatOps D] [DelayTime D T] in
theorem LinearDelay.addTo_spec [Target] {s : LinearDelay D T} (h : s.WInv) {k : ℕ} (hk : k < s.memory.length) (v : T) :
    ∃ m y, s.hist[k]? = some y ∧ s.addTo b v k = .ok ({ s with memory := m }, y +. v) ∧
      histOf m s.write_ptr = s.hist.set k (y +. v) ∧ m.length = s.memory.length := by
  have hs := slot_lt h.hw hk
  unfold LinearDelay.addTo
  rw [tapIndex_ok h.hw hk h.len_le, Res.ok_bind, idx_ok hs, Res.ok_bind, idxSet_ok hs, Res.ok_bind,
    idx_ok (by simpa using hs), Res.ok_bind]
  simp only [List.getElem_set_self]
  exact ⟨_, _, by unfold LinearDelay.hist; rw [histOf_get? h.hw hk, List.getElem?_eq_getElem hs], rfl,
    histOf_set h.hw hk _, by simp⟩

theorem LinearDelay.Reachable.winv [Target] {s : LinearDelay D T} (h : LinearDelay.Reachable b s) : s.WInv := by
  induction h with
  | new hm h => exact (LinearDelay.new_frame hm h).2.2.1
  | step hs ho h ih =>
    rename_i s s' op o
    cases op with
    | process x =>
      simp only [LinearDelay.step, Res.bind_ok] at h
      obtain ⟨⟨s1, y⟩, h1, h⟩ := h
      cases h
      exact (LinearDelay.process_frame ih h1).2.1
    | setDelay d =>
      simp only [LinearDelay.step, Res.bind_ok] at h
      obtain ⟨s1, h1, h⟩ := h
      cases h
      obtain ⟨hm, hw, -⟩ := LinearDelay.setDelay_frame h1
      exact ⟨by rw [hm, hw]; exact ih.hw, by rw [hm]; exact ih.cap⟩
    | setMaxDelay m =>
      simp only [LinearDelay.step, Res.bind_ok] at h
      obtain ⟨s1, h1, h⟩ := h
      cases h
      by_cases hc : m < s.memory.length
      · rw [LinearDelay.setMaxDelay_small hc] at h1
        cases h1; exact ih
      · rw [LinearDelay.setMaxDelay_grow (by omega) ho] at h1
        cases h1
        refine ⟨by have := ih.hw; simp; omega, ?_⟩
        have hm : Allocatable T m := ho
        unfold Allocatable at hm
        simp only [List.length_append, List.length_replicate]
        rwa [show s.memory.length + (m + 1 - s.memory.length) = m + 1 by omega]
    | nextOut =>
      simp only [LinearDelay.step, Res.bind_ok] at h
      obtain ⟨⟨s1, y⟩, h1, h⟩ := h
      cases h
      obtain rfl := LinearDelay.nextOut_frame h1
      exact ⟨ih.hw, ih.cap⟩
    | tapOut k =>
      simp only [LinearDelay.step, Res.bind_ok] at h
      obtain ⟨_, _, h⟩ := h
      cases h; exact ih
    | tapIn v k =>
      obtain ⟨m, h1, -, hl⟩ := LinearDelay.tapIn_spec (b := b) ih (k := k) ho v
      simp only [LinearDelay.step, h1, Res.ok_bind] at h
      cases h
      exact ⟨by simpa [hl] using ih.hw, by simpa [hl] using ih.cap⟩
    | addTo v k =>
      obtain ⟨m, y, -, h1, -, hl⟩ := LinearDelay.addTo_spec (b := b) ih (k := k) ho v
      simp only [LinearDelay.step, h1, Res.ok_bind] at h
      cases h
      exact ⟨by simpa [hl] using ih.hw, by simpa [hl] using ih.cap⟩
    | clear =>
      simp only [LinearDelay.step] at h
      cases h
      exact ⟨by simpa [LinearDelay.clear] using ih.hw, by simpa [LinearDelay.clear] using ih.cap⟩

/-! ## Out-of-range taps -/

theorem tapIndex_alias [Target] {w k n : ℕ} (hw : w < n) (hk : n ≤ k) (hkw : k < n + w) (hn : 4 * n ≤ isizeMax) :
    tapIndex b w k n = .ok (slot n w (k - n)) := by
  have ht := target
  unfold tapIndex
  rw [asIsize_of_lt (by omega), asIsize_of_lt (by omega), asIsize_of_lt (by omega)]
  unfold iSub iAdd
  rw [iCheck_ok (by omega) (by omega), Res.ok_bind, iCheck_ok (by omega) (by omega), Res.ok_bind]
  rw [if_pos (by omega), iCheck_ok (by omega) (by omega), Res.ok_bind, asUsize_of_nonneg (by omega) (by omega)]
  unfold slot
  rw [if_pos (by omega)]
  congr 1; omega

theorem asIsize_of_ge [Target] {n : ℕ} (h1 : isizeMod ≤ n) (h2 : n < usizeMod) : asIsize n = (n : ℤ) - usizeMod := by
  have := target
  exact wrapI_down (by omega) (by omega)

theorem tapIndex_wrap [Target] {w k n : ℕ} (hw : w < n) (hk : usizeMod - (n - w) ≤ k) (hk2 : k < usizeMod)
    (hn : 4 * n ≤ isizeMax) : tapIndex b w k n = .ok (slot n w (n + k - usizeMod)) := by
  have ht := target
  unfold tapIndex
  rw [asIsize_of_lt (by omega), asIsize_of_ge (by omega) hk2, asIsize_of_lt (by omega)]
  unfold iSub iAdd
  rw [iCheck_ok (by omega) (by omega), Res.ok_bind, iCheck_ok (by omega) (by omega), Res.ok_bind]
  rw [if_neg (by omega), asUsize_of_nonneg (by omega) (by omega)]
  unfold slot
  rw [if_neg (by omega)]
  exact congrArg _ (by omega)

theorem tapIndex_reject [Target] {w k n : ℕ} (hw : w < n) (hk : n + w ≤ k) (hk2 : k < usizeMod - (n - w))
    (hn : 4 * n ≤ isizeMax) : tapIndex b w k n = .error .panic ∨ ∃ i, n ≤ i ∧ tapIndex b w k n = .ok i := by
  have ht := target
  unfold tapIndex
  rw [asIsize_of_lt (show w < isizeMod by omega), asIsize_of_lt (show n < isizeMod by omega)]
  unfold iSub iAdd
  by_cases hk3 : k < isizeMod
  · rw [asIsize_of_lt hk3]
    rw [iCheck_ok (by omega) (by omega), Res.ok_bind, iCheck_ok (by omega) (by omega), Res.ok_bind]
    rw [if_pos (by omega), iCheck_ok (by omega) (by omega), Res.ok_bind]
    refine .inr ⟨_, ?_, rfl⟩
    rw [asUsize_of_neg (by omega) (by omega)]; omega
  · rw [asIsize_of_ge (by omega) (by omega)]
    by_cases ho : (w : ℤ) - ((k : ℤ) - usizeMod) < isizeMod
    · rw [iCheck_ok (by omega) (by omega), Res.ok_bind, iCheck_ok (by omega) (by omega), Res.ok_bind]
      rw [if_neg (by omega)]
      refine .inr ⟨_, ?_, rfl⟩
      rw [asUsize_of_nonneg (by omega) (by omega)]; omega
    · rcases b with ⟨_ | _⟩
      · have h1 : iCheck ⟨false⟩ ((w : ℤ) - ((k : ℤ) - usizeMod)) = .ok ((w : ℤ) - k) := by
          unfold iCheck
          rw [if_neg (by omega)]
          simp only [Bool.false_eq_true, if_false]
          exact congrArg _ ((wrapI_down (by omega) (by omega)).trans (by omega))
        rw [h1, Res.ok_bind]
        by_cases ho2 : -(isizeMod : ℤ) ≤ (w : ℤ) - k - 1
        · rw [iCheck_ok (by omega) (by omega), Res.ok_bind, if_pos (by omega), iCheck_ok (by omega) (by omega),
            Res.ok_bind]
          refine .inr ⟨_, ?_, rfl⟩
          rw [asUsize_of_neg (by omega) (by omega)]; omega
        · have h2 : iCheck ⟨false⟩ ((w : ℤ) - k - 1) = .ok (isizeMod - 1) := by
            unfold iCheck
            rw [if_neg (by omega)]
            simp only [Bool.false_eq_true, if_false]
            exact congrArg _ ((wrapI_up (by omega) (by omega)).trans (by omega))
          rw [h2, Res.ok_bind, if_neg (by omega)]
          refine .inr ⟨_, ?_, rfl⟩
          rw [asUsize_of_nonneg (by omega) (by omega)]; omega
      · left
        unfold iCheck
        rw [if_neg (by omega)]
        rfl

end Rasp
