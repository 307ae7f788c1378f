import Verif.Lemmas.Res
import Verif.Spec.Line
import Mathlib.Data.List.Rotate

/-!
# Ring buffers

`histOf mem w`: the contents of the ring `mem` with write position `w`, newest first. Shared by `Delay` and
`LinearDelay`.
-/

namespace Rasp
open FloatOps
variable {T : Type}

/-- Newest first: `mem[w-1], mem[w-2], …, mem[0], mem[len-1], …, mem[w]`. -/
def histOf (mem : List T) (w : ℕ) : List T := (mem.take w).reverse ++ (mem.drop w).reverse

@[simp] theorem histOf_length {mem : List T} {w : ℕ} : (histOf mem w).length = mem.length := by
  simp [histOf]; omega

/-- Position in memory of the `k`-th most recent sample. -/
def slot (n w k : ℕ) : ℕ := if k < w then w - 1 - k else w + n - 1 - k

theorem slot_lt {n w k : ℕ} (hw : w < n) (hk : k < n) : slot n w k < n := by
  unfold slot; split <;> omega

theorem slot_inj {n w k j : ℕ} (hk : k < n) (hj : j < n) (h : slot n w k = slot n w j) : k = j := by
  unfold slot at h; split at h <;> split at h <;> omega

theorem histOf_get? {mem : List T} {w k : ℕ} (hw : w < mem.length) (hk : k < mem.length) :
    (histOf mem w)[k]? = mem[slot mem.length w k]? := by
  unfold histOf slot
  split
  · next h =>
    rw [List.getElem?_append_left (by simp; omega), List.getElem?_reverse (by simp; omega)]
    simp only [List.length_take]
    rw [Nat.min_eq_left hw.le, List.getElem?_take]
    rw [if_pos (by omega)]
  · next h =>
    rw [List.getElem?_append_right (by simp; omega)]
    simp only [List.length_reverse, List.length_take, Nat.min_eq_left hw.le]
    rw [List.getElem?_reverse (by simp; omega), List.getElem?_drop]
    congr 1
    simp only [List.length_drop]
    omega

theorem list_ext_get? {a c : List T} (hl : a.length = c.length) (h : ∀ k, k < a.length → a[k]? = c[k]?) : a = c := by
  apply List.ext_getElem?
  intro k
  by_cases hk : k < a.length
  · exact h k hk
  · rw [List.getElem?_eq_none (by omega), List.getElem?_eq_none (by omega)]

theorem succ_mod {w n : ℕ} (hw : w < n) : (w + 1) % n = if w + 1 = n then 0 else w + 1 := by
  split
  · next h => rw [h, Nat.mod_self]
  · next h => exact Nat.mod_eq_of_lt (by omega)

/-- Writing at the write position and advancing it pushes a sample at the front and drops the oldest. -/
theorem histOf_push {mem : List T} {w : ℕ} (hw : w < mem.length) (x : T) :
    histOf (mem.set w x) ((w + 1) % mem.length) = x :: (histOf mem w).dropLast := by
  have hw' : (w + 1) % mem.length < mem.length := Nat.mod_lt _ (by omega)
  apply list_ext_get?
  · simp; omega
  · intro k hk
    simp only [histOf_length, List.length_set] at hk
    rw [histOf_get? (by simpa using hw') (by simpa using hk)]
    simp only [List.length_set]
    rw [List.getElem?_set]
    cases k with
    | zero =>
      simp only [List.getElem?_cons_zero]
      have : w = slot mem.length ((w + 1) % mem.length) 0 := by
        rw [succ_mod hw]; unfold slot; split <;> split <;> omega
      rw [if_pos this, if_pos hw]
    | succ k =>
      simp only [List.getElem?_cons_succ]
      have h1 : slot mem.length ((w + 1) % mem.length) (k + 1) = slot mem.length w k := by
        rw [succ_mod hw]; unfold slot; split <;> split <;> split <;> omega
      have h2 : w ≠ slot mem.length w k := by
        unfold slot; split <;> omega
      rw [h1, if_neg h2, List.getElem?_dropLast, histOf_length, if_pos (by omega), histOf_get? hw (by omega)]

theorem histOf_set {mem : List T} {w k : ℕ} (hw : w < mem.length) (hk : k < mem.length) (v : T) :
    histOf (mem.set (slot mem.length w k) v) w = (histOf mem w).set k v := by
  apply list_ext_get?
  · simp
  · intro j hj
    simp only [histOf_length, List.length_set] at hj
    rw [histOf_get? (by simpa using hw) (by simpa using hj), List.getElem?_set, List.getElem?_set]
    simp only [List.length_set, histOf_length]
    by_cases h : k = j
    · subst h
      rw [if_pos rfl, if_pos rfl, if_pos (slot_lt hw hk), if_pos hk]
    · rw [if_neg h, if_neg (fun h' => h (slot_inj hk hj h')), histOf_get? hw hj]

/-- Appending `z`s to the memory splices them into the history at the write position. -/
theorem histOf_append {mem : List T} {w : ℕ} (hw : w < mem.length) (ext : List T) :
    histOf (mem ++ ext) w = (histOf mem w).take w ++ ext.reverse ++ (histOf mem w).drop w := by
  have h1 : (mem ++ ext).take w = mem.take w := List.take_append_of_le_length hw.le
  have h2 : (mem ++ ext).drop w = mem.drop w ++ ext := List.drop_append_of_le_length hw.le
  have h3 : ((mem.take w).reverse ++ (mem.drop w).reverse).take w = (mem.take w).reverse := by
    rw [List.take_append_of_le_length (by simp; omega)]
    exact List.take_of_length_le (by simp)
  have h4 : ((mem.take w).reverse ++ (mem.drop w).reverse).drop w = (mem.drop w).reverse := by
    rw [List.drop_append]
    simp [Nat.min_eq_left hw.le, List.drop_eq_nil_iff]
  unfold histOf
  rw [h1, h2, h3, h4]
  simp

theorem histOf_replicate (n w : ℕ) (z : T) : histOf (List.replicate n z) w = List.replicate n z := by
  unfold histOf
  rw [← List.reverse_append, List.eq_replicate_iff]
  constructor
  · simp; omega
  · intro b hb
    simp only [List.mem_reverse, List.mem_append] at hb
    rcases hb with hb | hb
    · exact List.eq_of_mem_replicate (List.mem_of_mem_drop hb)
    · exact List.eq_of_mem_replicate (List.mem_of_mem_take hb)

theorem map_const_eq_replicate (l : List T) (z : T) : l.map (fun _ => z) = List.replicate l.length z := by
  simp

/-! ## Tap index -/

theorem tapIndex_ok [Target] {b : Build} {w k n : ℕ} (hw : w < n) (hk : k < n) (hn : n ≤ isizeMax) :
    tapIndex b w k n = .ok (slot n w k) := by
  have ht := target
  unfold tapIndex
  rw [asIsize_of_lt (by omega), asIsize_of_lt (by omega), asIsize_of_lt (by omega)]
  unfold iSub iAdd
  rw [iCheck_ok (by omega) (by omega), Res.ok_bind, iCheck_ok (by omega) (by omega), Res.ok_bind]
  unfold slot
  by_cases h : k < w
  · rw [if_neg (by omega), if_pos h, asUsize_of_nonneg (by omega) (by omega)]
    congr 1; omega
  · rw [if_pos (by omega), if_neg h, iCheck_ok (by omega) (by omega), Res.ok_bind,
      asUsize_of_nonneg (by omega) (by omega)]
    congr 1; omega

end Rasp
