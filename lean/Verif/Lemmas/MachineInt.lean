import Verif.Lemmas.Res
import Mathlib.Tactic.NormNum

/-!
# The machine integers of the model are 32-bit or 64-bit integers

Not properties of the crate, but a check of the arithmetic that the model uses, against Lean's `BitVec`.
-/

namespace Rasp
variable [Target]

/-- The two targets. -/
theorem usizeBits_cases : usizeBits = 64 ∧ usizeMod = 2 ^ 64 ∧ isizeMax = 2 ^ 63 - 1 ∨ usizeBits = 32 ∧ usizeMod = 2 ^ 32 ∧ isizeMax = 2 ^ 31 - 1 := by
  unfold isizeMax isizeMod usizeMod usizeBits
  cases Target.wide <;> simp

/-- `usize` addition: wraps in a release build, panics on overflow in a debug build. -/
theorem usize_add (x y : BitVec usizeBits) :
    uAdd ⟨false⟩ x.toNat y.toNat = .ok (x + y).toNat ∧
    uAdd ⟨true⟩ x.toNat y.toNat = if BitVec.uaddOverflow x y then .error .panic else .ok (x + y).toNat := by
  rw [BitVec.uaddOverflow, BitVec.toNat_add]
  by_cases h : x.toNat + y.toNat < usizeMod
  · have h' : ¬ 2 ^ usizeBits ≤ x.toNat + y.toNat := Nat.not_le.mpr h
    simp only [uAdd, if_pos h, ge_iff_le, h', Nat.mod_eq_of_lt (show _ < 2 ^ usizeBits from h), decide_false, Bool.false_eq_true, if_false, and_self]
  · have h' : 2 ^ usizeBits ≤ x.toNat + y.toNat := Nat.not_lt.mp h
    simp only [uAdd, if_neg h, ge_iff_le, h', decide_true, Bool.false_eq_true, if_false, if_true]
    exact ⟨rfl, trivial⟩

/-- `usize` subtraction. -/
theorem usize_sub (x y : BitVec usizeBits) :
    uSub ⟨false⟩ x.toNat y.toNat = .ok (x - y).toNat ∧
    uSub ⟨true⟩ x.toNat y.toNat = if BitVec.usubOverflow x y then .error .panic else .ok (x - y).toNat := by
  have hx : x.toNat < usizeMod := x.isLt
  have hy : y.toNat < usizeMod := y.isLt
  rw [BitVec.usubOverflow, BitVec.toNat_sub]
  change _ = Except.ok ((usizeMod - y.toNat + x.toNat) % usizeMod) ∧ _ = if _ then _ else Except.ok ((usizeMod - y.toNat + x.toNat) % usizeMod)
  by_cases h : y.toNat ≤ x.toNat
  · have h' : ¬ x.toNat < y.toNat := by omega
    have e : (usizeMod - y.toNat + x.toNat) % usizeMod = x.toNat - y.toNat := by
      rw [show usizeMod - y.toNat + x.toNat = x.toNat - y.toNat + usizeMod by omega, Nat.add_mod_right, Nat.mod_eq_of_lt (by omega)]
    simp only [uSub, if_pos h, e, h', decide_false, Bool.false_eq_true, if_false, and_self]
  · have h' : x.toNat < y.toNat := by omega
    rw [show usizeMod - y.toNat + x.toNat = x.toNat + usizeMod - y.toNat by omega]
    simp only [uSub, if_neg h, h', decide_true, Bool.false_eq_true, if_false, if_true, and_self]

/-- `usize` remainder: panics on zero. -/
theorem usize_rem (x y : BitVec usizeBits) : uRem x.toNat y.toNat = if y = 0 then .error .panic else .ok (x % y).toNat := by
  rw [uRem, BitVec.toNat_umod]
  have : y.toNat = 0 ↔ y = 0 := ⟨fun h => BitVec.eq_of_toNat_eq (by simpa using h), fun h => by rw [h]; rfl⟩
  simp only [this]

theorem wrapI_eq_bmod (i : ℤ) : wrapI i = i.bmod usizeMod := by
  have h1 := target
  unfold wrapI Int.bmod
  rw [show ((usizeMod : ℤ) + 1) / 2 = isizeMod by omega]
  have hM : (0 : ℤ) < usizeMod := by omega
  have h2 := Int.emod_nonneg i hM.ne'
  have h3 := Int.emod_lt_of_pos i hM
  have h4 : (i + isizeMod) % usizeMod = (i % usizeMod + isizeMod) % usizeMod := by rw [Int.emod_add_emod]
  rw [h4]
  dsimp only
  split
  · rw [Int.emod_eq_of_lt (by omega) (by omega)]; omega
  · rw [show i % (usizeMod : ℤ) + isizeMod = i % usizeMod - isizeMod + usizeMod by omega, Int.add_emod_right, Int.emod_eq_of_lt (by omega) (by omega)]; omega

/-- `as isize` and `as usize` keep the bits. -/
theorem usize_isize (x : BitVec usizeBits) : asIsize x.toNat = x.toInt ∧ asUsize x.toInt = x.toNat := by
  have hx : x.toNat < usizeMod := x.isLt
  constructor
  · rw [asIsize, wrapI_eq_bmod, BitVec.toInt_eq_toNat_bmod]; rfl
  · rw [asUsize, BitVec.toInt_eq_toNat_bmod]
    change ((Int.bmod x.toNat usizeMod) % usizeMod).toNat = _
    rw [Int.bmod_emod, Int.emod_eq_of_lt (by omega) (by omega), Int.toNat_natCast]

theorem iCheck_wraps (i : ℤ) : iCheck ⟨false⟩ i = .ok (i.bmod usizeMod) := by
  rw [← wrapI_eq_bmod]
  by_cases h : -isizeMod ≤ i ∧ i < isizeMod
  · rw [wrapI_of_range h.1 h.2]
    simp only [iCheck, if_pos h]
  · simp only [iCheck, if_neg h]; rfl

theorem iCheck_panics (i : ℤ) : iCheck ⟨true⟩ i = if i ≥ isizeMod ∨ i < -isizeMod then .error .panic else .ok (i.bmod usizeMod) := by
  rw [← wrapI_eq_bmod]
  by_cases h : -isizeMod ≤ i ∧ i < isizeMod
  · rw [iCheck, if_pos h, if_neg (by omega), wrapI_of_range h.1 h.2]
  · rw [if_pos (show i ≥ isizeMod ∨ i < -isizeMod by omega), iCheck, if_neg h]; rfl

theorem isizeMod_cast : ((2 : ℤ) ^ (usizeBits - 1)) = isizeMod := by unfold isizeMod; push_cast; rfl

/-- `isize` addition. -/
theorem isize_add (x y : BitVec usizeBits) :
    iAdd ⟨false⟩ x.toInt y.toInt = .ok (x + y).toInt ∧
    iAdd ⟨true⟩ x.toInt y.toInt = if BitVec.saddOverflow x y then .error .panic else .ok (x + y).toInt := by
  rw [BitVec.toInt_add, iAdd, iAdd, iCheck_wraps, iCheck_panics, BitVec.saddOverflow, isizeMod_cast]
  refine ⟨rfl, ?_⟩
  simp only [Bool.or_eq_true, decide_eq_true_eq]
  rfl

/-- `isize` subtraction. -/
theorem isize_sub (x y : BitVec usizeBits) :
    iSub ⟨false⟩ x.toInt y.toInt = .ok (x - y).toInt ∧
    iSub ⟨true⟩ x.toInt y.toInt = if BitVec.ssubOverflow x y then .error .panic else .ok (x - y).toInt := by
  rw [BitVec.toInt_sub, iSub, iSub, iCheck_wraps, iCheck_panics, BitVec.ssubOverflow, isizeMod_cast]
  refine ⟨rfl, ?_⟩
  simp only [Bool.or_eq_true, decide_eq_true_eq]
  rfl

/-- Every `usize` of the model is the value of a machine word, so the theorems above are about all of them. -/
example (n : ℕ) (h : n < usizeMod) : ∃ x : BitVec usizeBits, x.toNat = n := ⟨BitVec.ofNat _ n, by rw [BitVec.toNat_ofNat]; exact Nat.mod_eq_of_lt h⟩

omit [Target] in
/-- Indexing returns the element or panics; writing changes that element only. -/
theorem vec_index {T : Type} (v : List T) (i : ℕ) (x : T) :
    (∀ h : i < v.length, idx v i = .ok v[i]) ∧ (v.length ≤ i → idx v i = .error .panic ∧ idxSet v i x = .error .panic) ∧
    (i < v.length → ∃ w, idxSet v i x = .ok w ∧ w.length = v.length ∧ ∀ j, w[j]? = if j = i then some x else v[j]?) := by
  refine ⟨fun h => ?_, fun h => ?_, fun h => ⟨_, by rw [idxSet, if_pos h], by simp, fun j => ?_⟩⟩
  · simp [idx, h]
  · simp [idx, idxSet, not_lt.mpr h]
  · rw [List.getElem?_set]
    by_cases e : i = j
    · subst e; simp [h]
    · simp [e, Ne.symm e]

/-- `resize` keeps the elements that fit and fills up with `z`. -/
theorem vec_resize {T : Type} [FloatOps T] (v : List T) (n : ℕ) (z : T) (hn : n ≤ v.length ∨ n * FloatOps.size T ≤ isizeMax) :
    ∃ w, vecResize v n z = .ok w ∧ w.length = n ∧ ∀ j < n, w[j]? = if j < v.length then v[j]? else some z := by
  by_cases h : n ≤ v.length
  · refine ⟨_, by rw [vecResize, if_pos h], by simp [h], fun j hj => ?_⟩
    rw [List.getElem?_take, if_pos hj, if_pos (by omega)]
  · refine ⟨_, by rw [vecResize, if_neg h, if_pos (hn.resolve_left h)], by simp; omega, fun j hj => ?_⟩
    by_cases hjv : j < v.length
    · rw [if_pos hjv, List.getElem?_append_left hjv]
    · rw [if_neg hjv, List.getElem?_append_right (by omega), List.getElem?_replicate, if_pos (by omega)]

omit [Target] in
/-- A `while` loop ends in the first state in which the condition is false, if there is one. -/
theorem while_spec {α : Type} (cond : α → Bool) (body : α → α) (x : α) :
    (∀ n, (∀ k < n, cond (body^[k] x) = true) → cond (body^[n] x) = false → whileLoop cond body x = .ok (body^[n] x)) ∧
    ((∀ n, cond (body^[n] x) = true) → whileLoop cond body x = .error .diverge) := by
  constructor
  · intro n h1 h2
    have h : ∃ n, cond (body^[n] x) = false := ⟨n, h2⟩
    rw [whileLoop, dif_pos h]
    congr 2
    rw [Nat.find_eq_iff]
    exact ⟨h2, fun k hk => by rw [h1 k hk]; simp⟩
  · intro h
    rw [whileLoop, dif_neg]
    rintro ⟨n, hn⟩
    rw [h n] at hn
    simp at hn

end Rasp
