import Verif.Spec.Builds
import Verif.Props.LinearFullFP
import Verif.Props.Capacity
import Verif.Props.LinearClear
import Verif.Model.Windows
import Verif.Model.Util
import Verif.Model.Rbj
import Verif.Model.Analysis

/-! # C147: debug builds and release builds -/

namespace Rasp
open FloatOps

set_option linter.unusedSectionVars false

section combinators
variable {α β : Type}

theorem DebugFaithful.const (r : Res α) : DebugFaithful fun _ => r := .inl rfl

theorem DebugFaithful.bind {f : Build → Res α} {g : Build → α → Res β} (hf : DebugFaithful f)
    (hg : ∀ a, DebugFaithful fun b => g b a) : DebugFaithful fun b => f b >>= g b := by
  unfold DebugFaithful at hf ⊢
  rcases hf with hf | hf
  · simp only [hf]
    cases hr : f ⟨false⟩ with
    | error e => exact .inl rfl
    | ok a => exact hg a
  · right
    simp only [hf]; rfl

theorem BuildFree.bind {f : Build → Res α} {g : Build → α → Res β} (hf : BuildFree f)
    (hg : ∀ a, f ⟨true⟩ = .ok a → BuildFree fun b => g b a) : BuildFree fun b => f b >>= g b := by
  unfold BuildFree at hf ⊢
  simp only
  rw [← hf]
  cases hr : f ⟨true⟩ with
  | error e => rfl
  | ok a => exact hg a hr

theorem BuildFree.faithful {f : Build → Res α} (h : BuildFree f) : DebugFaithful f := .inl h

/-- Where the debug build does not panic, both do the same. -/
theorem DebugFaithful.free {f : Build → Res α} (h : DebugFaithful f) (hp : f ⟨true⟩ = .error .panic → f ⟨false⟩ = .error .panic) :
    BuildFree f := by
  rcases h with h | h
  · exact h
  · exact h.trans (hp h).symm

/-- In a release build the faithful outcomes are those of the debug build. -/
theorem DebugFaithful.ok {f : Build → Res α} (h : DebugFaithful f) {a : α} (ha : f ⟨true⟩ = .ok a) : f ⟨false⟩ = .ok a := by
  rcases h with h | h
  · rw [← h, ha]
  · rw [h] at ha; cases ha

theorem uAdd_faithful [Target] (x y : ℕ) : DebugFaithful fun b => uAdd b x y := by
  unfold DebugFaithful uAdd
  by_cases h : x + y < usizeMod
  · left; simp [h]
  · right; simp [h]

theorem uSub_faithful [Target] (x y : ℕ) : DebugFaithful fun b => uSub b x y := by
  unfold DebugFaithful uSub
  by_cases h : y ≤ x
  · left; simp [h]
  · right; simp [h]

theorem iCheck_faithful [Target] (i : ℤ) : DebugFaithful fun b => iCheck b i := by
  unfold DebugFaithful iCheck
  by_cases h : -(isizeMod : ℤ) ≤ i ∧ i < isizeMod
  · left; simp [h]
  · right; simp [h]

theorem tapIndex_faithful [Target] (w k n : ℕ) : DebugFaithful fun b => tapIndex b w k n := by
  unfold tapIndex iSub iAdd
  refine .bind (iCheck_faithful _) fun t => .bind (iCheck_faithful _) fun tap => ?_
  split
  · exact .bind (iCheck_faithful _) fun _ => .const _
  · exact .const _

theorem uAdd_free [Target] {x y : ℕ} (h : x + y < usizeMod) : BuildFree fun b => uAdd b x y := by
  exact (uAdd_ok h).trans (uAdd_ok h).symm

theorem uSub_free [Target] {x y : ℕ} (h : y ≤ x) : BuildFree fun b => uSub b x y := by
  exact (uSub_ok h).trans (uSub_ok h).symm

end combinators

/-! ## Every state -/

section any
variable {D T : Type} [FloatOps D] [FloatOps T] [DelayTime D T]

theorem Delay.setDelay_faithful [Target] (s : Delay T) (d : ℕ) : DebugFaithful fun b => s.setDelay b d := by
  unfold Delay.setDelay
  refine .bind (uSub_faithful _ _) fun m => ?_
  simp only
  generalize (if d > m then m else d) = t
  split
  · exact .bind (uSub_faithful _ _) fun _ => .const _
  · exact .bind (uAdd_faithful _ _) fun _ => .bind (uSub_faithful _ _) fun _ => .const _

theorem Delay.setMaxDelay_faithful [Target] (s : Delay T) (m : ℕ) : DebugFaithful fun b => s.setMaxDelay b m := by
  unfold Delay.setMaxDelay
  split
  · exact .const _
  · exact .bind (uAdd_faithful _ _) fun _ => .const _

theorem Delay.process_faithful [Target] (s : Delay T) (x : T) : DebugFaithful fun b => s.process b x := by
  unfold Delay.process
  exact .bind (.const _) fun _ => .bind (uAdd_faithful _ _) fun _ => .bind (.const _) fun _ => .bind (.const _) fun _ =>
    .bind (uAdd_faithful _ _) fun _ => .const _

theorem Delay.step_faithful [Target] (s : Delay T) (op : DelayOp T) : DebugFaithful fun b => s.step b op := by
  cases op with
  | process x => exact .bind (s.process_faithful x) fun _ => .const _
  | setDelay d => exact .bind (s.setDelay_faithful d) fun _ => .const _
  | setMaxDelay m => exact .bind (s.setMaxDelay_faithful m) fun _ => .const _
  | getMaxDelay => exact .bind (uSub_faithful _ _) fun _ => .const _
  | tapOut k => exact .bind (.bind (tapIndex_faithful _ _ _) fun _ => .const _) fun _ => .const _
  | tapIn v k => exact .bind (.bind (tapIndex_faithful _ _ _) fun _ => .const _) fun _ => .const _
  | addTo v k => exact .bind (.bind (tapIndex_faithful _ _ _) fun _ => .const _) fun _ => .const _
  | _ => exact .const _

theorem Delay.run_faithful [Target] (ops : List (DelayOp T)) : ∀ s : Delay T, DebugFaithful fun b => s.run b ops := by
  induction ops with
  | nil => exact fun s => .const _
  | cons op ops ih => exact fun s => .bind (s.step_faithful op) fun r => .bind (ih r.1) fun _ => .const _

theorem LinearDelay.setDelay_faithful [Target] (s : LinearDelay D T) (d : D) : DebugFaithful fun b => s.setDelay b d := by
  unfold LinearDelay.setDelay
  exact .bind (uSub_faithful _ _) fun m => .const _

theorem LinearDelay.nextOut_faithful [Target] (s : LinearDelay D T) : DebugFaithful fun b => s.nextOut b := by
  unfold LinearDelay.nextOut
  split
  · refine .bind (.const _) fun _ => ?_
    refine .bind (uSub_faithful _ _) fun last => ?_
    split
    · exact .bind (uAdd_faithful _ _) fun _ => .const _
    · exact .const _
  · exact .const _

theorem LinearDelay.process_faithful [Target] (s : LinearDelay D T) (x : T) : DebugFaithful fun b => s.process b x := by
  unfold LinearDelay.process
  exact .bind (.const _) fun _ => .bind (uAdd_faithful _ _) fun _ => .bind (.const _) fun _ =>
    .bind (LinearDelay.nextOut_faithful _) fun _ => .bind (uAdd_faithful _ _) fun _ => .const _

theorem LinearDelay.setMaxDelay_faithful [Target] (s : LinearDelay D T) (m : ℕ) : DebugFaithful fun b => s.setMaxDelay b m := by
  unfold LinearDelay.setMaxDelay
  split
  · exact .const _
  · exact .bind (uAdd_faithful _ _) fun _ => .const _

theorem LinearDelay.step_faithful [Target] (s : LinearDelay D T) (op : LinOp D T) : DebugFaithful fun b => s.step b op := by
  cases op with
  | process x => exact .bind (s.process_faithful x) fun _ => .const _
  | setDelay d => exact .bind (s.setDelay_faithful d) fun _ => .const _
  | setMaxDelay m => exact .bind (s.setMaxDelay_faithful m) fun _ => .const _
  | nextOut => exact .bind s.nextOut_faithful fun _ => .const _
  | tapOut k => exact .bind (.bind (tapIndex_faithful _ _ _) fun _ => .const _) fun _ => .const _
  | tapIn v k => exact .bind (.bind (tapIndex_faithful _ _ _) fun _ => .const _) fun _ => .const _
  | addTo v k => exact .bind (.bind (tapIndex_faithful _ _ _) fun _ => .const _) fun _ => .const _
  | _ => exact .const _

theorem LinearDelay.run_faithful [Target] (ops : List (LinOp D T)) :
    ∀ s : LinearDelay D T, DebugFaithful fun b => s.run b ops := by
  induction ops with
  | nil => exact fun s => .const _
  | cons op ops ih => exact fun s => .bind (s.step_faithful op) fun r => .bind (ih r.1) fun _ => .const _

omit [FloatOps D] [DelayTime D T] in
theorem generateWindow_faithful [Target] (k : WindowKind) (s : WindowIter) : DebugFaithful fun b => generateWindow T b k s := by
  cases k <;> exact .bind (uSub_faithful _ _) fun _ => .const _

theorem WindowIter.next_faithful [Target] (k : WindowKind) (s : WindowIter) : DebugFaithful fun b => WindowIter.next T b k s := by
  unfold WindowIter.next
  split
  · exact .bind (generateWindow_faithful k s) fun _ => .bind (uAdd_faithful _ _) fun _ => .const _
  · exact .const _

theorem applyLoop_faithful [Target] (k : WindowKind) (xs : List T) : ∀ it, DebugFaithful fun b => applyLoop b k it xs := by
  induction xs with
  | nil => exact fun it => .const _
  | cons x xs ih =>
    intro it
    unfold applyLoop
    refine .bind (WindowIter.next_faithful k it) fun r => ?_
    obtain ⟨it', g⟩ := r
    cases g with
    | none => exact .const _
    | some g => exact .bind (ih it') fun _ => .const _

theorem blockLoop_faithful {σ : Type} [Processor σ T] (h : ∀ (s : σ) x, DebugFaithful fun b => Processor.process b s x)
    (xs : List T) : ∀ s : σ, DebugFaithful fun b => blockLoop b s xs := by
  induction xs with
  | nil => exact fun s => .const _
  | cons x xs ih => exact fun s => .bind (h s x) fun r => .bind (ih r.1) fun _ => .const _

/-- **C147**, the delay lines, in every state, also in those no call leads to: whatever a debug build returns, the release
build returns too, state and value, for every sequence of calls with any arguments. Only panics of the debug build are lost. -/
theorem C147_delays [Target] :
    (∀ d m, DebugFaithful fun b => (Delay.new b d m : Res (Delay T))) ∧
    (∀ (d : D) m, DebugFaithful fun b => (LinearDelay.new b d m : Res (LinearDelay D T))) ∧
    (∀ (s : Delay T) ops, DebugFaithful fun b => s.run b ops) ∧
    (∀ (s : LinearDelay D T) ops, DebugFaithful fun b => s.run b ops) ∧
    (∀ s : LinearDelay D T, DebugFaithful fun b => s.getMaxDelay b) := by
  refine ⟨fun d m => ?_, fun d m => ?_, fun s ops => s.run_faithful ops, fun s ops => s.run_faithful ops, fun s => uSub_faithful _ _⟩
  · exact .bind (uAdd_faithful _ _) fun _ => .bind (.const _) fun _ => Delay.setDelay_faithful _ _
  · exact .bind (uAdd_faithful _ _) fun _ => .bind (.const _) fun _ => LinearDelay.setDelay_faithful _ _

/-- **C147**, `process_block`: for any processor, also a user's own, whose `process` has this property, so does
`process_block`; if its `process` does the same in both builds, so does `process_block`. -/
theorem C147_blocks {σ : Type} [Processor σ T] :
    ((∀ (s : σ) x, DebugFaithful fun b => Processor.process b s x) →
      ∀ (s : σ) xs, DebugFaithful fun b => processBlock b s xs) ∧
    (BuildBlind σ → ∀ (s : σ) xs, BuildFree fun b => processBlock b s xs) := by
  refine ⟨fun h s xs => ?_, fun h s xs => ?_⟩
  · exact .bind (blockLoop_faithful h xs s) fun r => .const _
  · refine .bind ?_ fun r _ => rfl
    induction xs generalizing s with
    | nil => rfl
    | cons x xs ih => exact .bind (h s x) fun r _ => .bind (ih r.1) fun _ _ => rfl

/-- **C147**, filters and analysers: no difference between the builds. -/
theorem C147_filters :
    BuildBlind (OnePole T) ∧ BuildBlind (OneZero T) ∧ BuildBlind (TwoPole T) ∧ BuildBlind (TwoZero T) ∧
    BuildBlind (Biquad1 T) ∧ BuildBlind (Biquad2 T) ∧
    BuildBlind (LowPass T) ∧ BuildBlind (HighPass T) ∧ BuildBlind (BandPass1 T) ∧ BuildBlind (BandPass2 T) ∧
    BuildBlind (BandStop T) ∧ BuildBlind (AllPass T) ∧ BuildBlind (Peak T) ∧ BuildBlind (LowShelf T) ∧
    BuildBlind (HighShelf T) ∧
    BuildBlind (LeakyIntegrator T) ∧ BuildBlind (PeakEnvDetector T) ∧ BuildBlind (RmsEnvDetector T) := by
  refine ⟨?_, ?_, ?_, ?_, ?_, ?_, ?_, ?_, ?_, ?_, ?_, ?_, ?_, ?_, ?_, ?_, ?_, ?_⟩ <;> exact fun _ _ => rfl

/-- **C147**, windows: no difference between the builds for any window, at any position, of any size a `usize` can hold. -/
theorem C147_windows [Target] :
    (∀ k (s : WindowIter), s.size < usizeMod → BuildFree fun b => WindowIter.next T b k s) ∧
    (∀ (xs : List T) w, xs.length < usizeMod → BuildFree fun b => applyWindow b xs w) := by
  have hnext : ∀ k (s : WindowIter), s.size < usizeMod → BuildFree fun b => WindowIter.next T b k s := by
    intro k s hs
    unfold WindowIter.next
    split
    · refine .bind ?_ fun _ _ => .bind (uAdd_free (by omega)) fun _ _ => rfl
      cases k <;> exact .bind (uSub_free (by omega)) fun _ _ => rfl
    · rfl
  refine ⟨hnext, fun xs w h => ?_⟩
  cases w with
  | rectangular => rfl
  | shaped k =>
    have key : ∀ (ys : List T) (it : WindowIter), it.size < usizeMod → BuildFree fun b => applyLoop b k it ys := by
      intro ys
      induction ys with
      | nil => exact fun it _ => rfl
      | cons y ys ih =>
        intro it hit
        unfold applyLoop
        refine .bind (hnext k it hit) fun r hr => ?_
        obtain ⟨it', g⟩ := r
        have hsz : it'.size = it.size := by
          unfold WindowIter.next at hr
          split at hr
          · simp only [Res.bind_ok] at hr
            obtain ⟨a, -, i, -, h⟩ := hr
            cases h; rfl
          · cases hr; rfl
        cases g with
        | none => rfl
        | some g => exact .bind (ih it' (by omega)) fun _ _ => rfl
    exact key xs (WindowIter.new xs.length) h

/-- **C147**, conversions: the builds differ exactly where the `debug_assert!` fails: for `to_db` if the sign bit is set (so
also for -0), for `apply_gain` if the ratio is infinite, NaN, or has the sign bit set. There the debug build panics. -/
theorem C147_util :
    (∀ x : T, DebugFaithful fun b => toDb b x) ∧ (∀ x r : T, DebugFaithful fun b => applyGain b x r) ∧
    (∀ x : T, (BuildFree fun b => toDb b x) ↔ isSignNegative x = false) ∧
    (∀ x r : T, (BuildFree fun b => applyGain b x r) ↔ isFinite r = true ∧ isSignNegative r = false) := by
  refine ⟨fun x => ?_, fun x r => ?_, fun x => ?_, fun x r => ?_⟩
  · unfold DebugFaithful toDb
    cases isSignNegative x <;> simp
  · unfold DebugFaithful applyGain
    cases isSignNegative r <;> cases isFinite r <;> simp
  · unfold BuildFree toDb
    cases isSignNegative x
    · simp
    · simp only [Bool.and_self, if_true, Bool.false_and, Bool.false_eq_true, if_false]
      split <;> simp
  · unfold BuildFree applyGain
    cases isSignNegative r <;> cases isFinite r <;> simp

/-! ## Lines that were allocated -/

/-- A tap request on an allocated line, followed by code that panics out of bounds. -/
theorem tap_free [Target] {α : Type} (hsz : 4 ≤ size T) {n w k : ℕ} (hw : w < n) (cap : n * size T ≤ isizeMax) (hk : k < usizeMod)
    {g : ℕ → Res α} (hg : ∀ i, n ≤ i → g i = .error .panic) : BuildFree fun b => tapIndex b w k n >>= g := by
  unfold BuildFree
  cases ht : tapOf n w k with
  | none =>
    obtain ⟨h1, h2⟩ := tapOf_none ht
    have key : ∀ b, (tapIndex b w k n >>= g) = .error .panic := by
      intro b
      rcases tapIndex_none (b := b) hsz hw cap h1 h2 with h | ⟨i, hi, h⟩
      · rw [h]; rfl
      · rw [h, Res.ok_bind, hg i hi]
    exact (key _).trans (key _).symm
  | some j =>
    have hn : n ≤ isizeMax := le_isizeMax_of_mul (size_pos (T := T)) cap
    obtain ⟨hj, h1⟩ := tapIndex_eq (b := ⟨true⟩) hsz hw cap hk ht
    obtain ⟨-, h2⟩ := tapIndex_eq (b := ⟨false⟩) hsz hw cap hk ht
    simp only [h1, h2, tapIndex_ok hw hj hn]

theorem grow_free [Target] {α : Type} {m : ℕ} (hm : m + 1 < usizeMod) {g : ℕ → Res α} : BuildFree fun b => uAdd b m 1 >>= g :=
  .bind (uAdd_free hm) fun _ _ => rfl

theorem Delay.setDelay_free [Target] {s : Delay T} (hw : s.write_ptr < s.memory.length) (hl : s.memory.length ≤ isizeMax) (d : ℕ) :
    BuildFree fun b => s.setDelay b d := by
  have ht := target
  unfold Delay.setDelay
  refine .bind (uSub_free (by omega)) fun m hm => ?_
  rw [uSub_ok (by omega)] at hm
  have hm := Except.ok.inj hm
  have hle : (if d > m then m else d) ≤ m := by split <;> omega
  simp only
  generalize (if d > m then m else d) = t at hle
  split
  · exact .bind (uSub_free (by omega)) fun _ _ => rfl
  · refine .bind (uAdd_free (by omega)) fun u hu => .bind (uSub_free ?_) fun _ _ => rfl
    rw [uAdd_ok (by omega)] at hu
    have := Except.ok.inj hu
    omega

theorem Delay.step_free [Target] (hsz : 4 ≤ size T) {s : Delay T} (hi : s.Inv) {op : DelayOp T} (ho : op.NoMax) :
    BuildFree fun b => s.step b op := by
  have hw := hi.hw
  have hl := hi.len_le
  have ht := target
  cases op with
  | process x =>
    obtain ⟨y, -, h1⟩ := Delay.process_eq (b := ⟨true⟩) hi x
    obtain ⟨z, -, h2⟩ := Delay.process_eq (b := ⟨false⟩) hi x
    refine .bind ?_ fun _ _ => rfl
    rcases s.process_faithful x with h | h
    · exact h
    · simp only [h1] at h; cases h
  | setDelay d =>
    exact .bind (Delay.setDelay_free hi.hw hi.len_le d) fun _ _ => rfl
  | setMaxDelay m =>
    refine .bind ?_ fun _ _ => rfl
    unfold Delay.setMaxDelay
    split
    · rfl
    · exact grow_free ho
  | getMaxDelay => exact .bind (uSub_free (by omega)) fun _ _ => rfl
  | tapOut k => exact .bind (tap_free hsz hw hi.cap ho fun i h => idx_panic h) fun _ _ => rfl
  | tapIn v k => exact .bind (tap_free hsz hw hi.cap ho fun i h => by rw [idxSet_panic h]; rfl) fun _ _ => rfl
  | addTo v k => exact .bind (tap_free hsz hw hi.cap ho fun i h => by rw [idx_panic h]; rfl) fun _ _ => rfl
  | _ => rfl

theorem Delay.step_inv [Target] (hsz : 4 ≤ size T) {b : Build} {s s' : Delay T} (hi : s.Inv) {op : DelayOp T} (ho : op.NoMax) {o : Obs T}
    (h : s.step b op = .ok (s', o)) : s'.Inv := by
  have hw := hi.hw
  have hr := hi.hr
  obtain ⟨e, he⟩ : ∃ e, s.Eff e := by
    by_cases h : s.read_ptr ≤ s.write_ptr
    · refine ⟨s.write_ptr - s.read_ptr, by omega, ?_⟩
      rw [if_pos (by omega)]; omega
    · refine ⟨s.memory.length + s.write_ptr - s.read_ptr, by omega, ?_⟩
      rw [if_neg (by omega)]; omega
  have hm : s.Models ⟨s.hist, s.delay, e, s.write_ptr, s.output⟩ := ⟨hi, he, rfl, rfl, rfl, rfl⟩
  have key : op.Args → s'.Inv := by
    intro ha
    have h1 := step_models (b := b) hsz hm ha
    split at h1
    · rw [h] at h1; cases h1
    · obtain ⟨s2, h2, h3⟩ := h1
      rw [h] at h2
      cases h2
      exact h3.inv
  cases op with
  | setMaxDelay m =>
    by_cases ha : Allocatable T m
    · exact key ha
    · by_cases hc : m < s.memory.length
      · simp only [Delay.step, Delay.setMaxDelay, if_pos hc, Res.ok_bind] at h
        cases h; exact hi
      · have hm : m + 1 < usizeMod := ho
        unfold Allocatable at ha
        simp only [Delay.step, Delay.setMaxDelay, if_neg hc, uAdd_ok hm, Res.ok_bind, vecResize, if_neg ha] at h
        rw [if_neg (by omega)] at h
        cases h
  | _ => exact key ho

theorem Delay.run_free [Target] (hsz : 4 ≤ size T) {ops : List (DelayOp T)} (ho : ∀ op ∈ ops, op.NoMax) :
    ∀ {s : Delay T}, s.Inv → BuildFree fun b => s.run b ops := by
  induction ops with
  | nil => exact fun _ => rfl
  | cons op ops ih =>
    intro s hi
    have ho1 := ho op (by simp)
    refine .bind (Delay.step_free hsz hi ho1) fun r hr => .bind (ih (fun op h => ho op (by simp [h])) ?_) fun _ _ => rfl
    exact Delay.step_inv hsz hi ho1 hr

theorem Delay.new_free [Target] (d : ℕ) {m : ℕ} (hm : m + 1 < usizeMod) : BuildFree fun b => (Delay.new b d m : Res (Delay T)) := by
  unfold Delay.new
  refine .bind (uAdd_free hm) fun n hn => .bind rfl fun mem hmem => ?_
  rw [uAdd_ok hm] at hn
  have hn := Except.ok.inj hn
  unfold vecNew at hmem
  split at hmem
  · have := le_isizeMax_of_mul (size_pos (T := T)) (by assumption : n * size T ≤ isizeMax)
    cases hmem
    exact Delay.setDelay_free (by simp; omega) (by simpa) _
  · cases hmem

/-- **C147**, a `Delay` made by `new` and used by any sequence of calls with any arguments, overshooting taps and sizes that
cannot be allocated included: both builds do the same, call by call, up to the same panic if there is one. The one exception
is `usize::MAX` as a maximum. -/
theorem C147_delay_same [Target] (hsz : 4 ≤ size T) (d : ℕ) {m : ℕ} (hm : m + 1 < usizeMod) {ops : List (DelayOp T)}
    (ho : ∀ op ∈ ops, op.NoMax) :
    BuildFree fun b => (Delay.new b d m : Res (Delay T)) >>= fun s => s.run b ops := by
  refine .bind (Delay.new_free d hm) fun s hs => Delay.run_free hsz ho ?_
  have hm' : Allocatable T m := by
    by_contra ha
    unfold Allocatable at ha
    simp only [Delay.new, uAdd_ok hm, Res.ok_bind, vecNew_panic ha] at hs
    cases hs
  obtain ⟨s', h1, h2, -⟩ := Delay.new_spec (b := ⟨true⟩) (d := d) hm'
  rw [h1] at hs
  cases hs
  exact h2

/-- **C147**, the exception for `Delay`: with `usize::MAX` as a maximum, and with no other, `new` and `set_max_delay` differ.
The debug build panics, the release build returns a line without slots. -/
theorem C147_delay_max [Target] {m : ℕ} (hm : m < usizeMod) :
    (∀ d, (BuildFree fun b => (Delay.new b d m : Res (Delay T))) ↔ m ≠ usizeMax) ∧
    (∀ s : Delay T, s.memory.length < usizeMod → ((BuildFree fun b => s.setMaxDelay b m) ↔ m ≠ usizeMax)) := by
  have ht := target
  refine ⟨fun d => ⟨?_, fun h => Delay.new_free d (by unfold usizeMax at h; omega)⟩, fun s hs => ⟨?_, fun h => ?_⟩⟩
  · rintro h rfl
    obtain ⟨-, h1, -⟩ := C76_delay_new (b := ⟨true⟩) (T := T) (d := d) (m := usizeMax) le_rfl
    obtain ⟨-, -, h2⟩ := C76_delay_new (b := ⟨false⟩) (T := T) (d := d) (m := usizeMax) le_rfl
    obtain ⟨s, h2, -⟩ := h2 rfl rfl
    have h3 := h1 not_allocatable_max (.inr rfl)
    unfold BuildFree at h
    simp only [h2, h3] at h
    cases h
  · rintro h rfl
    unfold BuildFree Delay.setMaxDelay at h
    simp only [if_neg (show ¬ usizeMax < s.memory.length by unfold usizeMax; omega), uAdd_max_debug (b := ⟨true⟩) rfl,
      uAdd_max_release (b := ⟨false⟩) rfl, Res.ok_bind, vecResize, Nat.zero_le, if_true] at h
    cases h
  · unfold Delay.setMaxDelay
    split
    · rfl
    · exact grow_free (by unfold usizeMax at h; omega)

end any

/-! ## LinearDelay -/

section ieee
variable {L32 : Libm binary32} {f : Fmt} {L : Libm f} {b : Build}

/-- What every allocated `LinearDelay` satisfies. -/
structure LinearDelay.PInv [Target] (s : LinearDelay (Fl L32) (Fl L)) : Prop where
  winv : s.WInv
  hr : s.read_ptr ≤ isizeMod

theorem posOf_le_isize [Target] {w n : ℕ} (hw : w < n) (hn : n ≤ isizeMod) {d : ℝ} (hd : 0 ≤ d) : posOf w n d ≤ isizeMod := by
  have h1 : rnd binary32 (w : ℝ) ≤ isizeMod := rnd_le_of_le isizeMod_rep (by exact_mod_cast (by omega : w ≤ isizeMod))
  have h2 : rnd binary32 (n : ℝ) ≤ isizeMod := rnd_le_of_le isizeMod_rep (by exact_mod_cast hn)
  unfold posOf
  simp only
  split
  · exact rnd_le_of_le isizeMod_rep (by linarith)
  · exact rnd_le_of_le isizeMod_rep (by linarith)

theorem LinearDelay.setDelay_pinv [Target] {s s' : LinearDelay (Fl L32) (Fl L)} (hi : s.WInv) {d : Fl L32}
    (h : s.setDelay b d = .ok s') : s'.PInv := by
  have hw := hi.hw
  have hl := len_le_63 hi
  have hl' := hi.len_le
  have ht := target
  obtain ⟨hmem, hwr, -⟩ := LinearDelay.setDelay_frame h
  refine ⟨⟨by rw [hmem, hwr]; exact hw, by rw [hmem]; exact hi.cap⟩, ?_⟩
  rcases clipDelay_cases d (ofUsize_fp (L32 := L32) (n := s.memory.length - 1) (by omega)).1
    (ofUsize_nonneg (by omega)) with ⟨h1, h2⟩ | ⟨h1, h2, h3⟩
  · obtain ⟨s2, g, hr, -⟩ := setDelay_nan_state (b := b) hi h1
    rw [h] at g
    cases g
    omega
  · rw [(ofUsize_fp (by omega)).2] at h3
    obtain ⟨pos, hpos, hf, hv, -⟩ := loop_fin hw hl h1 h2 h3
    have g := LinearDelay.setDelay_eq (b := b) (T := Fl L) (s := s) (by omega) hpos
    simp only [h] at g
    have g := Except.ok.inj g
    rw [g]
    show (if DelayTime.toUsize (Fl L) pos = s.memory.length then 0 else DelayTime.toUsize (Fl L) pos) ≤ isizeMod
    have hle : DelayTime.toUsize (Fl L) pos ≤ isizeMod := by
      refine toUsize_le (by rw [hv]; exact posOf_le_isize hw (by omega) h2) ?_
      rintro rfl
      exact Fl.inf_not_finite false hf
    split <;> omega

theorem LinearDelay.setDelay_free [Target] {s : LinearDelay (Fl L32) (Fl L)} (hl : 1 ≤ s.memory.length) (d : Fl L32) :
    BuildFree fun b => s.setDelay b d := by
  unfold LinearDelay.setDelay
  exact .bind (uSub_free hl) fun _ _ => rfl

theorem idx_lt {T : Type} {v : List T} {i : ℕ} {x : T} (h : idx v i = .ok x) : i < v.length := by
  by_contra hc
  rw [idx_panic (by omega)] at h
  cases h

theorem LinearDelay.nextOut_free [Target] {s : LinearDelay (Fl L32) (Fl L)} (hl : s.memory.length ≤ isizeMax) :
    BuildFree fun b => s.nextOut b := by
  have ht := target
  unfold LinearDelay.nextOut
  split
  · refine .bind rfl fun m0 h0 => ?_
    have := idx_lt h0
    refine .bind (uSub_free (by omega)) fun last hlast => ?_
    split
    · exact .bind (uAdd_free (by omega)) fun _ _ => rfl
    · rfl
  · rfl

theorem LinearDelay.nextOut_same [Target] {s s' : LinearDelay (Fl L32) (Fl L)} {y : Fl L} (h : s.nextOut b = .ok (s', y)) :
    s'.memory = s.memory ∧ s'.read_ptr = s.read_ptr ∧ s'.write_ptr = s.write_ptr := by
  unfold LinearDelay.nextOut at h
  split at h
  · simp only [Res.bind_ok] at h
    obtain ⟨m0, -, last, -, h⟩ := h
    split at h
    · simp only [Res.bind_ok] at h
      obtain ⟨r1, -, m1, -, h⟩ := h
      cases h
      exact ⟨rfl, rfl, rfl⟩
    · simp only [Res.bind_ok] at h
      obtain ⟨m1, -, h⟩ := h
      cases h
      exact ⟨rfl, rfl, rfl⟩
  · cases h
    exact ⟨rfl, rfl, rfl⟩

theorem LinearDelay.process_free [Target] {s : LinearDelay (Fl L32) (Fl L)} (hi : s.PInv) (x : Fl L) :
    BuildFree fun b => s.process b x := by
  have ht := target
  have hw := hi.winv.hw
  have hl := hi.winv.len_le
  have hr := hi.hr
  unfold LinearDelay.process
  refine .bind rfl fun mem hmem => ?_
  have hlen := idxSet_length hmem
  refine .bind (uAdd_free (by omega)) fun w _ => .bind rfl fun wp _ => .bind (LinearDelay.nextOut_free (by simp only; omega)) fun r hr1 => ?_
  obtain ⟨s1, y⟩ := r
  obtain ⟨-, h2, -⟩ := LinearDelay.nextOut_same hr1
  exact .bind (uAdd_free (by simp only at h2 ⊢; omega)) fun _ _ => rfl

theorem LinearDelay.step_free [Target] (hsz : 4 ≤ size (Fl L)) {s : LinearDelay (Fl L32) (Fl L)} (hi : s.PInv) {op : LinOp (Fl L32) (Fl L)}
    (ho : op.NoMax) : BuildFree fun b => s.step b op := by
  have hw := hi.winv.hw
  have hc := hi.winv.cap
  cases op with
  | process x => exact .bind (LinearDelay.process_free hi x) fun _ _ => rfl
  | setDelay d => exact .bind (LinearDelay.setDelay_free (by omega) d) fun _ _ => rfl
  | setMaxDelay m =>
    refine .bind ?_ fun _ _ => rfl
    unfold LinearDelay.setMaxDelay
    split
    · rfl
    · exact grow_free ho
  | nextOut => exact .bind (LinearDelay.nextOut_free hi.winv.len_le) fun _ _ => rfl
  | tapOut k => exact .bind (tap_free hsz hw hc ho fun i h => idx_panic h) fun _ _ => rfl
  | tapIn v k => exact .bind (tap_free hsz hw hc ho fun i h => by rw [idxSet_panic h]; rfl) fun _ _ => rfl
  | addTo v k => exact .bind (tap_free hsz hw hc ho fun i h => by rw [idx_panic h]; rfl) fun _ _ => rfl
  | clear => rfl

theorem LinearDelay.PInv.of_len [Target] {s s' : LinearDelay (Fl L32) (Fl L)} (hi : s.PInv) (hl : s'.memory.length = s.memory.length)
    (hw : s'.write_ptr = s.write_ptr) (hr : s'.read_ptr = s.read_ptr) : s'.PInv :=
  ⟨⟨by rw [hl, hw]; exact hi.winv.hw, by rw [hl]; exact hi.winv.cap⟩, by rw [hr]; exact hi.hr⟩

theorem LinearDelay.step_pinv [Target] {s s' : LinearDelay (Fl L32) (Fl L)} (hi : s.PInv) {op : LinOp (Fl L32) (Fl L)} (ho : op.NoMax)
    {o : Obs (Fl L)} (h : s.step b op = .ok (s', o)) : s'.PInv := by
  have ht := target
  cases op with
  | process x =>
    simp only [LinearDelay.step, Res.bind_ok] at h
    obtain ⟨⟨s1, y⟩, h1, h⟩ := h
    cases h
    obtain ⟨-, hwi, hlen, -⟩ := LinearDelay.process_frame hi.winv h1
    refine ⟨hwi, ?_⟩
    have hle := hwi.len_le
    have hpos := hwi.hw
    simp only [LinearDelay.process, Res.bind_ok] at h1
    obtain ⟨mem, -, w, -, wp, -, ⟨s2, z⟩, -, r, -, rp, hrp, h1⟩ := h1
    cases h1
    unfold uRem at hrp
    split at hrp
    · cases hrp
    · cases hrp
      simp only at hle hpos ⊢
      have : r % s2.memory.length < s2.memory.length := Nat.mod_lt _ (by omega)
      omega
  | setDelay d =>
    simp only [LinearDelay.step, Res.bind_ok] at h
    obtain ⟨s1, h1, h⟩ := h
    cases h
    exact LinearDelay.setDelay_pinv hi.winv h1
  | setMaxDelay m =>
    simp only [LinearDelay.step, Res.bind_ok] at h
    obtain ⟨s1, h1, h⟩ := h
    cases h
    by_cases hc : m < s.memory.length
    · rw [LinearDelay.setMaxDelay_small hc] at h1
      cases h1; exact hi
    · by_cases ha : Allocatable (Fl L) m
      · rw [LinearDelay.setMaxDelay_grow (by omega) ha] at h1
        cases h1
        have := hi.winv.hw
        refine ⟨⟨by simp only [List.length_append]; omega, ?_⟩, hi.hr⟩
        unfold Allocatable at ha
        simp only [List.length_append, List.length_replicate]
        rwa [show s.memory.length + (m + 1 - s.memory.length) = m + 1 by omega]
      · have hm : m + 1 < usizeMod := ho
        unfold Allocatable at ha
        simp only [LinearDelay.setMaxDelay, if_neg hc, uAdd_ok hm, Res.ok_bind, vecResize, if_neg ha] at h1
        rw [if_neg (by omega)] at h1
        cases h1
  | nextOut =>
    simp only [LinearDelay.step, Res.bind_ok] at h
    obtain ⟨⟨s1, y⟩, h1, h⟩ := h
    cases h
    obtain ⟨h2, h3, h4⟩ := LinearDelay.nextOut_same h1
    exact hi.of_len (by rw [h2]) h4 h3
  | tapOut k =>
    simp only [LinearDelay.step, Res.bind_ok] at h
    obtain ⟨y, -, h⟩ := h
    cases h; exact hi
  | tapIn v k =>
    simp only [LinearDelay.step, LinearDelay.tapIn, Res.bind_ok] at h
    obtain ⟨s1, ⟨i, -, mem, hm, h1⟩, h⟩ := h
    cases h1; cases h
    exact hi.of_len (idxSet_length hm).1 rfl rfl
  | addTo v k =>
    simp only [LinearDelay.step, LinearDelay.addTo, Res.bind_ok] at h
    obtain ⟨⟨s1, y⟩, ⟨i, -, old, -, mem, hm, z, -, h1⟩, h⟩ := h
    cases h1; cases h
    exact hi.of_len (idxSet_length hm).1 rfl rfl
  | clear =>
    cases h
    exact hi.of_len (by simp [LinearDelay.clear]) rfl rfl

theorem LinearDelay.run_free [Target] (hsz : 4 ≤ size (Fl L)) {ops : List (LinOp (Fl L32) (Fl L))} (ho : ∀ op ∈ ops, op.NoMax) :
    ∀ {s : LinearDelay (Fl L32) (Fl L)}, s.PInv → BuildFree fun b => s.run b ops := by
  induction ops with
  | nil => exact fun _ => rfl
  | cons op ops ih =>
    intro s hi
    have ho1 := ho op (by simp)
    refine .bind (LinearDelay.step_free hsz hi ho1) fun r hr => .bind (ih (fun op h => ho op (by simp [h])) ?_) fun _ _ => rfl
    exact LinearDelay.step_pinv hi ho1 hr

theorem LinearDelay.new_free [Target] (d : Fl L32) {m : ℕ} (hm : m + 1 < usizeMod) :
    BuildFree fun b => (LinearDelay.new b d m : Res (LinearDelay (Fl L32) (Fl L))) := by
  unfold LinearDelay.new
  refine .bind (uAdd_free hm) fun n hn => .bind rfl fun mem hmem => LinearDelay.setDelay_free ?_ _
  rw [uAdd_ok hm] at hn
  have hn := Except.ok.inj hn
  unfold vecNew at hmem
  split at hmem
  · cases hmem
    simp; omega
  · cases hmem

/-- **C147**, the same for `LinearDelay`, for every `f32` delay, NaN and infinities included, and lines of every size: also
beyond 2^24 slots, where rounding can place the read position off the line (C24), both builds panic at the same call. -/
theorem C147_linearDelay_same [Target] (hsz : 4 ≤ size (Fl L)) (d : Fl L32) {m : ℕ} (hm : m + 1 < usizeMod)
    {ops : List (LinOp (Fl L32) (Fl L))} (ho : ∀ op ∈ ops, op.NoMax) :
    BuildFree fun b => (LinearDelay.new b d m : Res (LinearDelay (Fl L32) (Fl L))) >>= fun s => s.run b ops := by
  refine .bind (LinearDelay.new_free d hm) fun s hs => LinearDelay.run_free hsz ho ?_
  have hm' : Allocatable (Fl L) m := by
    by_contra ha
    unfold Allocatable at ha
    simp only [LinearDelay.new, uAdd_ok hm, Res.ok_bind, vecNew_panic ha] at hs
    cases hs
  rw [new_eq_setDelay hm'] at hs
  exact LinearDelay.setDelay_pinv ⟨by simp, by simpa [Allocatable] using hm'⟩ hs

/-- **C147**, the exception for `LinearDelay`: again `usize::MAX`, and nothing else. The debug build panics; the release build
returns a line without slots or, from `new`, loops forever (C76). -/
theorem C147_linearDelay_max [Target] {m : ℕ} (hm : m < usizeMod) :
    (∀ d : Fl L32, (BuildFree fun b => (LinearDelay.new b d m : Res (LinearDelay (Fl L32) (Fl L)))) ↔ m ≠ usizeMax) ∧
    (∀ s : LinearDelay (Fl L32) (Fl L), s.memory.length < usizeMod → ((BuildFree fun b => s.setMaxDelay b m) ↔ m ≠ usizeMax)) := by
  have ht := target
  refine ⟨fun d => ⟨?_, fun h => LinearDelay.new_free d (by unfold usizeMax at h; omega)⟩, fun s hs => ⟨?_, fun h => ?_⟩⟩
  · rintro h rfl
    obtain ⟨-, h1, -⟩ := C76_linearDelay_new (b := ⟨true⟩) (L := L) (m := usizeMax) le_rfl d
    obtain ⟨-, -, h2, h3⟩ := C76_linearDelay_new (b := ⟨false⟩) (L := L) (m := usizeMax) le_rfl d
    have h4 := h1 not_allocatable_max (.inr rfl)
    unfold BuildFree at h
    by_cases hd : Above d 0
    · simp only [h2 rfl rfl hd, h4] at h
      cases h
    · obtain ⟨s, h5, -⟩ := h3 rfl rfl hd
      simp only [h4, h5] at h
      cases h
  · rintro h rfl
    unfold BuildFree LinearDelay.setMaxDelay at h
    simp only [if_neg (show ¬ usizeMax < s.memory.length by unfold usizeMax; omega), uAdd_max_debug (b := ⟨true⟩) rfl,
      uAdd_max_release (b := ⟨false⟩) rfl, Res.ok_bind, vecResize, Nat.zero_le, if_true] at h
    cases h
  · unfold LinearDelay.setMaxDelay
    split
    · rfl
    · exact grow_free (by unfold usizeMax at h; omega)

end ieee

/-! Non-vacuity. -/

/-- `f32` and `f64` are large enough; a session with an overshooting tap and a size that cannot be allocated. -/
example [Target] (L32 : Libm binary32) (L : Libm binary64) : 4 ≤ size (Fl L32) ∧ 4 ≤ size (Fl L) ∧ 99 + 1 < usizeMod ∧
    ∀ op ∈ ([.process one, .setDelay (Fl.nan L32 false), .nextOut, .tapOut 5000, .setMaxDelay isizeMax] : List (LinOp (Fl L32) (Fl L))),
      op.NoMax := by
  have := target
  refine ⟨show 4 ≤ (24 + 11) / 8 by decide, show 4 ≤ (53 + 11) / 8 by decide, by omega, ?_⟩
  intro op h
  simp only [List.mem_cons, List.not_mem_nil, or_false] at h
  rcases h with rfl | rfl | rfl | rfl | rfl
  all_goals simp only [LinOp.NoMax]
  all_goals omega

/-- In a state no call leads to, the builds do differ, the debug build by a panic: an empty line, `get_max_delay`. -/
example [Target] : let s : Delay ℝ := { memory := [], output := 0, read_ptr := 0, write_ptr := 0, delay := 0 }
    s.getMaxDelay ⟨true⟩ = .error .panic ∧ s.getMaxDelay ⟨false⟩ = .ok usizeMax := by
  have := target
  refine ⟨rfl, uSub_zero_release rfl⟩

/-- The conversions differ for a negative argument. -/
example : ¬ BuildFree fun b => toDb b (-1 : ℝ) := by
  rw [(C147_util (T := ℝ)).2.2.1]
  show ¬ (decide ((-1 : ℝ) < 0) = false)
  simp

end Rasp
