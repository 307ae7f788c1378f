import Verif.Rust.Res
import Mathlib.Tactic.Ring

/-! # Lemmas about outcomes and machine integers -/

namespace Rasp

theorem Res.bind_ok {α β : Type} {x : Res α} {f : α → Res β} {r : β} :
    (x >>= f) = .ok r ↔ ∃ a, x = .ok a ∧ f a = .ok r := by
  cases x <;> simp [bind, Except.bind]

@[simp] theorem Res.ok_bind {α β : Type} (a : α) (f : α → Res β) : ((.ok a : Res α) >>= f) = f a := rfl

@[simp] theorem Res.error_bind {α β : Type} (e : Fault) (f : α → Res β) :
    ((.error e : Res α) >>= f) = .error e := rfl

theorem uAdd_ok [Target] {b : Build} {x y : ℕ} (h : x + y < usizeMod) : uAdd b x y = .ok (x + y) := by
  simp [uAdd, h]

theorem uSub_ok [Target] {b : Build} {x y : ℕ} (h : y ≤ x) : uSub b x y = .ok (x - y) := by
  simp [uSub, h]

theorem uRem_ok {x y : ℕ} (h : y ≠ 0) : uRem x y = .ok (x % y) := by
  simp [uRem, h]

theorem idx_ok {T : Type} {v : List T} {i : ℕ} (h : i < v.length) : idx v i = .ok v[i] := by
  simp [idx, h]

theorem idx_panic {T : Type} {v : List T} {i : ℕ} (h : v.length ≤ i) : idx v i = .error .panic := by
  simp [idx, h]

theorem idxSet_ok {T : Type} {v : List T} {i : ℕ} {x : T} (h : i < v.length) :
    idxSet v i x = .ok (v.set i x) := by
  simp [idxSet, h]

theorem idxSet_panic {T : Type} {v : List T} {i : ℕ} {x : T} (h : v.length ≤ i) :
    idxSet v i x = .error .panic := by
  simp [idxSet, Nat.not_lt.2 h]

variable [Target]

theorem isizeMax_lt : isizeMax < usizeMod := by have := target; omega

/-- A buffer within the capacity limit has a length that fits `isize`. -/
theorem le_isizeMax_of_mul {n k : ℕ} (hk : 0 < k) (h : n * k ≤ isizeMax) : n ≤ isizeMax :=
  (Nat.le_mul_of_pos_right n hk).trans h

theorem wrapI_of_range {i : ℤ} (h1 : -isizeMod ≤ i) (h2 : i < isizeMod) : wrapI i = i := by
  unfold wrapI
  have := target
  rw [Int.emod_eq_of_lt (by omega) (by omega)]; ring

theorem asIsize_of_lt {n : ℕ} (h : n < isizeMod) : asIsize n = n :=
  wrapI_of_range (by omega) (by exact_mod_cast h)

theorem iCheck_ok {b : Build} {i : ℤ} (h1 : -isizeMod ≤ i) (h2 : i < isizeMod) : iCheck b i = .ok i := by
  unfold iCheck; rw [if_pos ⟨h1, h2⟩]

theorem asUsize_of_nonneg {i : ℤ} (h : 0 ≤ i) (h2 : i < usizeMod) : asUsize i = i.toNat := by
  unfold asUsize; rw [Int.emod_eq_of_lt h h2]

theorem asUsize_of_neg {i : ℤ} (h : i < 0) (h2 : -usizeMod ≤ i) : asUsize i = (i + usizeMod).toNat := by
  unfold asUsize; rw [← Int.add_emod_right, Int.emod_eq_of_lt (by omega) (by omega)]

theorem wrapI_up {i : ℤ} (h1 : -isizeMod ≤ i + usizeMod) (h2 : i + usizeMod < isizeMod) : wrapI i = i + usizeMod := by
  rw [← wrapI_of_range h1 h2]; unfold wrapI
  rw [add_right_comm, Int.add_emod_right]

theorem wrapI_down {i : ℤ} (h1 : -isizeMod ≤ i - usizeMod) (h2 : i - usizeMod < isizeMod) : wrapI i = i - usizeMod := by
  rw [← wrapI_of_range h1 h2]; unfold wrapI
  rw [sub_add_eq_add_sub, Int.sub_emod_right]

end Rasp
