import Verif.Props.LinearFull
import Verif.Props.LinearClose

/-! # C77 in IEEE arithmetic -/

namespace Rasp
open FloatOps
variable {L32 : Libm binary32} {f : Fmt} {L : Libm f} {b : Build}

/-- What is known about the placement of the read position on lines of up to `N` slots: the reported delay is the clipped one;
the position is on the line; a NaN delay gives a NaN weight; for a delay not just above an integer the weight is in `[0, 1)`
and the position is within `2^-22` slots per slot of the requested one. -/
structure SoundPlace [Target] (N : ℕ) (place : Placement (Fl L32) (Fl L)) : Prop where
  clipped : ∀ w n d, w < n → n ≤ N → Allocatable (Fl L) (n - 1) → ClippedTo d (ofUsize (n - 1)) (place w n d).1
  eff : ∀ w n d, w < n → n ≤ N → Allocatable (Fl L) (n - 1) → (place w n d).2.1 < n
  nan : ∀ w n d, w < n → n ≤ N → Allocatable (Fl L) (n - 1) → d.IsNaN → (place w n d).2.2.IsNaN
  near : ∀ w n d, w < n → n < N → Allocatable (Fl L) (n - 1) → (place w n d).1.Finite →
    ClearOf n (place w n d).1.toReal →
    (place w n d).2.2.Finite ∧ 0 ≤ (place w n d).2.2.toReal ∧ (place w n d).2.2.toReal < 1 ∧
      |((place w n d).2.1 : ℝ) - (place w n d).2.2.toReal - (place w n d).1.toReal| ≤ n / 2 ^ 22

/-- The placement computed by `set_delay`. -/
noncomputable def ieeePlace [Target] : Placement (Fl L32) (Fl L) := fun w n d =>
  let d' := clipDelay d (ofUsize (n - 1))
  let x := ofUsize w -. d'
  let pos := if lt x zero then x +. ofUsize n else x
  let r0 := DelayTime.toUsize (Fl L) pos
  let r := if r0 = n then 0 else r0
  (d', if r ≤ w then w - r else n + w - r, DelayTime.castTo (pos -. ofUsize r))

theorem loop_once {w n : ℕ} (hw : w < n) (hn : n ≤ 2 ^ 24) (d : Fl L32) :
    let x := (ofUsize w : Fl L32) -. clipDelay d (ofUsize (n - 1))
    whileLoop (fun x : Fl L32 => lt x zero) (fun x => x +. ofUsize n) x =
      .ok (if lt x zero then x +. ofUsize n else x) := by
  intro x
  obtain ⟨m1, m2⟩ := ofUsize_fp (L32 := L32) (n := n - 1) (by omega)
  cases hc : lt x zero with
  | false => exact whileLoop_zero (cond := fun x : Fl L32 => lt x zero) hc
  | true =>
    rcases clipDelay_cases d m1 (ofUsize_nonneg (by omega)) with ⟨n1, n2⟩ | ⟨c1, c2, c3⟩
    · have : x.IsNaN := by
        show Fl.IsNaN ((ofUsize w : Fl L32) -. clipDelay d (ofUsize (n - 1)))
        rw [n2]; exact Fl.sub_nan_right n1
      rw [Fl.lt_nan_left this] at hc
      exact absurd hc (by simp)
    · rw [m2] at c3
      obtain ⟨pos, hpos, p1, -, p3, hp⟩ := loop_fin hw (by omega) c1 c2 c3
      rw [hpos]
      rcases hp with hp | hp
      · exfalso
        have hx : pos = x := hp
        rw [← hx, Fl.lt_iff p1 Fl.zero_finite, Fl.zero_toReal] at hc
        linarith
      · rw [hp]; rfl

theorem placedBy_ieee [Target] : PlacedBy b (2 ^ 24) (ieeePlace (L32 := L32) (L := L)) := by
  intro s d hi hl
  have hw := hi.hw
  have hrep : IsRep binary32 (s.memory.length : ℝ) := isRep32_nat hl
  have h := LinearDelay.setDelay_eq (b := b) (T := Fl L) (s := s) (by omega) (loop_once hw hl d)
  have hin := setDelay_in_bounds hi hrep h
  refine ⟨⟨_, h, rfl, ?_, rfl, rfl⟩, ?_⟩
  · obtain ⟨e, he⟩ := LinearDelay.eff_of_lt (s := _) (by exact hw) hin
    have e1 := he.1
    have e2 := he.2
    convert he using 1
    simp only at e1 e2
    show (if _ ≤ _ then _ else _) = e
    rw [e2]
    split <;> split <;> omega
  · have hc := clipDelay_idem d (M := (ofUsize (s.memory.length - 1) : Fl L32)) (ofUsize_fp (by omega)).1 (ofUsize_nonneg (by omega))
    unfold LinearDelay.setDelay
    rw [uSub_ok (by omega), Res.ok_bind, Res.ok_bind]
    simp only [hc]

theorem sound_ieee [Target] (hp : 24 ≤ f.p) (hem : f.emin ≤ -149) : SoundPlace (2 ^ 24) (ieeePlace (L32 := L32) (L := L)) := by
  have key : ∀ (w n : ℕ) (d : Fl L32), w < n → n ≤ 2 ^ 24 → Allocatable (Fl L) (n - 1) →
      ∃ s s' : LinearDelay (Fl L32) (Fl L), s.WInv ∧ s.memory.length = n ∧ s.setDelay ⟨true⟩ d = .ok s' ∧
        s'.delay = (ieeePlace w n d : _ × ℕ × Fl L).1 ∧ s'.Eff (ieeePlace w n d : _ × ℕ × Fl L).2.1 ∧
        s'.alpha = (ieeePlace w n d).2.2 := by
    intro w n d hw hn ha
    unfold Allocatable at ha
    rw [Nat.sub_add_cancel (by omega)] at ha
    have hi : LinearDelay.WInv (D := Fl L32) (T := Fl L) { memory := List.replicate n zero, output := zero, read_ptr := 0, write_ptr := w, delay := zero, do_next_out := true, next_out := zero, alpha := zero, om_alpha := zero } :=
      ⟨by simpa using hw, by simpa using ha⟩
    obtain ⟨⟨s', h1, h2, h3, h4, -⟩, -⟩ := placedBy_ieee (b := ⟨true⟩) _ d hi (by simpa using hn)
    simp only [List.length_replicate] at h2 h3 h4
    exact ⟨_, s', hi, by simp, h1, h2, h3, h4⟩
  refine ⟨?_, ?_, ?_, ?_⟩
  · intro w n d hw hn _
    exact clipDelay_clipped d (ofUsize_fp (by omega)).1 (ofUsize_nonneg (by omega))
  · intro w n d hw hn ha
    obtain ⟨s, s', hi, hl, h1, -, he, -⟩ := key w n d hw hn ha
    have := he.1
    rwa [(LinearDelay.setDelay_frame h1).1, hl] at this
  · intro w n d hw hn ha hd
    obtain ⟨s, s', hi, hl, h1, -, -, h4⟩ := key w n d hw hn ha
    obtain ⟨s2, g1, -, g2, -⟩ := setDelay_nan_state (b := ⟨true⟩) hi hd
    rw [h1] at g1
    cases g1
    rwa [← h4]
  · intro w n d hw hn ha hf hcl
    obtain ⟨s, s', hi, hl, h1, h2, h3, h4⟩ := key w n d hw hn.le ha
    rw [← h2] at hf hcl ⊢
    rw [← h4]
    rw [← hl] at hcl
    obtain ⟨e, he, g1, g2, g3, g4, g5, g6⟩ := setDelay_near hp hem hi (by omega) h1 hf (.inl hcl)
    have : e = (ieeePlace w n d : _ × ℕ × Fl L).2.1 := by
      have a1 := he.1; have a2 := he.2; have b1 := h3.1; have b2 := h3.2
      rw [a2] at b2
      split at b2 <;> split at b2 <;> omega
    rw [← this, ← hl]
    exact ⟨g1, g2, g3, g6⟩

/-- **C77** in floating point, up to 2^24 slots: some placement with the properties of `SoundPlace` explains every sequence of
calls on every new line, with growth, pending `next_out` values, NaN delays and samples, and arbitrary tap arguments, bit for
bit. -/
theorem C77_linearDelay_complete_ieee [Target] (hp : 24 ≤ f.p) (hem : f.emin ≤ -149) :
    ∃ place : Placement (Fl L32) (Fl L), SoundPlace (2 ^ 24) place ∧
      ∀ (b : Build) (m : ℕ) (d : Fl L32), Allocatable (Fl L) m → m < 2 ^ 24 →
        ∃ s : LinearDelay (Fl L32) (Fl L), LinearDelay.new b d m = .ok s ∧
          ∀ ops : List (LinOp (Fl L32) (Fl L)), (∀ op ∈ ops, op.Args (2 ^ 24)) →
            Agrees b (s.run b ops) ((SeamLinear.new place d m).run place ops) := by
  refine ⟨ieeePlace, sound_ieee hp hem, fun b m d hm hl => ?_⟩
  obtain ⟨s, h1, h2⟩ := LinearDelay.new_models (b := b) (placedBy_ieee (L := L)) hm (by omega) d
  refine ⟨s, h1, fun ops ha => LinearDelay.run_models (b := b) ?_ placedBy_ieee h2 ?_ ha⟩
  · show 4 ≤ (f.p + 11) / 8
    omega
  · simp [SeamLinear.new, SeamLinear.set]; omega

/-- The hypotheses are met by `f32` and `f64` samples, and by a line that grows. -/
example [Target] (L32 : Libm binary32) (L : Libm binary64) : (24 ≤ binary32.p ∧ binary32.emin ≤ -149) ∧
    (24 ≤ binary64.p ∧ binary64.emin ≤ -149) ∧
    ∀ op ∈ ([.process one, .setDelay (Fl.nan L32 false), .setMaxDelay 48000, .tapOut 99999] : List (LinOp (Fl L32) (Fl L))),
      op.Args (2 ^ 24) := by
  refine ⟨⟨by decide, by decide⟩, ⟨by decide, by decide⟩, ?_⟩
  have : size (Fl L) = 8 := rfl
  have ht := target
  simp [LinOp.Args, Allocatable, this]; omega

end Rasp
