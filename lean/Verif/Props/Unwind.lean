import Verif.Spec.Unwind
import Verif.Props.LinearFullFP
import Verif.Props.LinearInt
import Verif.Props.Block

/-! # C113: what a caught panic leaves behind -/

namespace Rasp
open FloatOps Body

section Laws
variable {σ α β : Type}

@[simp] theorem Body.pure_apply (a : α) (s : σ) : (pure a : Body σ α) s = (s, .ok a) := rfl

@[simp] theorem Body.eval_apply (f : σ → Res α) (s : σ) : Body.eval f s = (s, f s) := rfl

@[simp] theorem Body.assign_apply (f : σ → σ) (s : σ) : Body.assign f s = (f s, .ok ()) := rfl

theorem Body.bind_apply (m : Body σ α) (f : α → Body σ β) (s : σ) : (m >>= f) s =
    match (m s).2 with
    | .ok a => f a (m s).1
    | .error e => ((m s).1, .error e) := rfl

@[simp] theorem Body.bind_assign (f : σ → σ) (g : Unit → Body σ β) (s : σ) : (Body.assign f >>= g) s = g () (f s) := rfl

theorem Body.bind_eval (f : σ → Res α) (g : α → Body σ β) (s : σ) : (Body.eval f >>= g) s =
    match f s with
    | .ok a => g a s
    | .error e => (s, .error e) := rfl

@[simp] theorem Body.bind_eval_ok (f : σ → α) (g : α → Body σ β) (s : σ) :
    ((Body.eval fun s => .ok (f s)) >>= g) s = g (f s) s := rfl

end Laws

section Delay
variable {T : Type} [FloatOps T] {b : Build}

omit [FloatOps T] in
theorem Delay.processBody_does [Target] (x : T) : (Delay.processBody b x).Does (fun s => s.process b x) := by
  intro s
  unfold Delay.processBody Delay.process
  simp only [bind_eval]
  cases h1 : idxSet s.memory s.write_ptr x with
  | error e => rfl
  | ok mem =>
  simp only [Res.ok_bind]
  cases h2 : uAdd b s.write_ptr 1 with
  | error e => simp only [bind_assign, bind_eval, h2]; rfl
  | ok w =>
  simp only [bind_assign, bind_eval, h2, Res.ok_bind]
  cases h3 : uRem w mem.length with
  | error e => rfl
  | ok w' =>
  simp only [Res.ok_bind]
  cases h4 : idx mem s.read_ptr with
  | error e => rfl
  | ok y =>
  simp only [Res.ok_bind]
  cases h5 : uAdd b s.read_ptr 1 with
  | error e => rfl
  | ok r =>
  simp only [Res.ok_bind]
  cases h6 : uRem r mem.length with
  | error e => rfl
  | ok r' => rfl

omit [FloatOps T] in
theorem Delay.setDelayBody_does [Target] (d : ℕ) :
    (Delay.setDelayBody (T := T) b d).Does (fun s => (s.setDelay b d).map (·, ())) := by
  intro s
  unfold Delay.setDelayBody Delay.setDelay
  simp only [bind_eval]
  cases h1 : uSub b s.memory.length 1 with
  | error e => rfl
  | ok m =>
  simp only [Res.ok_bind, bind_assign]
  generalize (if d > m then m else d) = t
  by_cases hc : s.write_ptr ≥ t
  · simp only [hc, decide_true, if_true]
    cases h2 : uSub b s.write_ptr t with
    | error e => rfl
    | ok r => rfl
  · simp only [hc, decide_false, if_false, Bool.false_eq_true]
    cases h2 : uAdd b s.memory.length s.write_ptr with
    | error e => rfl
    | ok a =>
    simp only [Res.ok_bind]
    cases h3 : uSub b a t with
    | error e => rfl
    | ok r => rfl

theorem Delay.setMaxDelayBody_does [Target] (m : ℕ) :
    (Delay.setMaxDelayBody (T := T) b m).Does (fun s => (s.setMaxDelay b m).map (·, ())) := by
  intro s
  unfold Delay.setMaxDelayBody Delay.setMaxDelay
  simp only [bind_eval]
  by_cases hc : m < s.memory.length
  · simp only [hc, decide_true, if_true]; rfl
  · simp only [hc, decide_false, if_false, Bool.false_eq_true, bind_eval]
    cases h2 : uAdd b m 1 with
    | error e => rfl
    | ok n =>
    simp only [Res.ok_bind]
    cases h3 : vecResize s.memory n zero with
    | error e => rfl
    | ok r => rfl

omit [FloatOps T] in
theorem Delay.tapInBody_does [Target] (v : T) (k : ℕ) :
    (Delay.tapInBody b v k).Does (fun s => (s.tapIn b v k).map (·, ())) := by
  intro s
  unfold Delay.tapInBody Delay.tapIn
  simp only [bind_eval]
  cases h2 : tapIndex b s.write_ptr k s.memory.length with
  | error e => rfl
  | ok n =>
  simp only [Res.ok_bind]
  cases h3 : idxSet s.memory n v with
  | error e => rfl
  | ok r => rfl

theorem Delay.addToBody_does [Target] (v : T) (k : ℕ) : (Delay.addToBody b v k).Does (fun s => s.addTo b v k) := by
  intro s
  unfold Delay.addToBody Delay.addTo
  simp only [bind_eval]
  cases h2 : tapIndex b s.write_ptr k s.memory.length with
  | error e => rfl
  | ok n =>
  simp only [Res.ok_bind]
  cases h3 : idx s.memory n with
  | error e => rfl
  | ok y =>
  simp only [Res.ok_bind]
  cases h3 : idxSet s.memory n (y +. v) with
  | error e => rfl
  | ok m =>
  simp only [Res.ok_bind, bind_assign, eval_apply]
  cases h3 : idx m n with
  | error e => rfl
  | ok z => rfl

/-- A call whose body is `m >>= pure ∘ g`. -/
theorem Body.Does.bind_pure {σ α β : Type} {m : Body σ α} {f : σ → Res (σ × α)} (h : m.Does f) (g : α → β) :
    (m >>= fun a => pure (g a)).Does (fun s => do let (s', a) ← f s; .ok (s', g a)) := by
  intro s
  have := h s
  simp only [bind_apply]
  rcases hm : m s with ⟨s', e | a⟩ <;> simp only [hm] at this <;> simp only [this] <;> rfl

theorem Body.Does.bind_unit {σ β : Type} {m : Body σ Unit} {f : σ → Res σ} (h : m.Does (fun s => (f s).map (·, ()))) (o : β) :
    (m >>= fun _ => pure o).Does (fun s => do let s' ← f s; .ok (s', o)) := by
  intro s
  have := (h.bind_pure fun _ => o) s
  simp only at this
  rw [← this]
  show (f s >>= fun s' => Except.ok (s', o)) = _
  cases f s <;> rfl

/-- **C113**, `Delay`: the statement-by-statement transcription agrees with the model of the other properties: a call returns
in one exactly when it returns in the other, with the same value and the same object, and it fails in the same way. -/
theorem C113_delay_agrees [Target] (op : DelayOp T) (s : Delay T) :
    s.step b op = (Delay.call b op s).2.map (Prod.mk (Delay.call b op s).1) := by
  cases op with
  | process x => exact ((Delay.processBody_does (b := b) x).bind_pure Obs.sample) s
  | setDelay d => exact ((Delay.setDelayBody_does (T := T) (b := b) d).bind_unit Obs.unit) s
  | setMaxDelay m => exact ((Delay.setMaxDelayBody_does (T := T) (b := b) m).bind_unit Obs.unit) s
  | getDelay => rfl
  | getMaxDelay =>
    simp only [Delay.step, Delay.call, bind_eval]
    cases s.getMaxDelay b <;> rfl
  | nextOut =>
    simp only [Delay.step, Delay.call, bind_eval]
    cases s.nextOut <;> rfl
  | tapOut k =>
    simp only [Delay.step, Delay.call, bind_eval]
    cases s.tapOut b k <;> rfl
  | tapIn v k => exact ((Delay.tapInBody_does (b := b) v k).bind_unit Obs.unit) s
  | addTo v k => exact ((Delay.addToBody_does (b := b) v k).bind_pure Obs.sample) s
  | clear => rfl
  | lastOut => rfl


/-! ## Panics that leave the object alone -/

/-- **C113**, `Delay`: whatever state the object is in, a panicking call other than `process` leaves it exactly as it was. -/
theorem C113_delay_intact [Target] (s : Delay T) {op : DelayOp T} (ho : op.NotProcess) {e : Fault}
    (h : (Delay.call b op s).2 = .error e) : (Delay.call b op s).1 = s := by
  cases op with
  | process x => exact ho.elim
  | setDelay d =>
    revert h
    simp only [Delay.call, Delay.setDelayBody, bind_apply, eval_apply, assign_apply, pure_apply]
    cases uSub b s.memory.length 1 with
    | error e => intro _; rfl
    | ok m =>
    simp only
    generalize (if d > m then m else d) = t
    split
    · next h => revert h; split <;> (intro h; cases h); intro h; cases h
    · next h => revert h; split <;> (intro h; cases h); intro h; rfl
  | setMaxDelay m =>
    revert h
    simp only [Delay.call, Delay.setMaxDelayBody, bind_apply, eval_apply]
    by_cases hc : m < s.memory.length
    · simp only [hc, decide_true, if_true, pure_apply]; simp
    simp only [hc, decide_false, if_false, Bool.false_eq_true, bind_apply, eval_apply]
    cases uAdd b m 1 with
    | error e => intro _; rfl
    | ok n =>
    simp only
    cases vecResize s.memory n zero with
    | error e => intro _; rfl
    | ok mem => intro h; cases h
  | getDelay => rfl
  | getMaxDelay => simp only [Delay.call, bind_eval]; cases s.getMaxDelay b <;> rfl
  | nextOut => simp only [Delay.call, bind_eval]; cases s.nextOut <;> rfl
  | tapOut k => simp only [Delay.call, bind_eval]; cases s.tapOut b k <;> rfl
  | tapIn v k =>
    revert h
    simp only [Delay.call, Delay.tapInBody, bind_apply, eval_apply]
    cases tapIndex b s.write_ptr k s.memory.length with
    | error e => intro _; rfl
    | ok n =>
    simp only
    cases idxSet s.memory n v with
    | error e => intro _; rfl
    | ok mem => intro h; cases h
  | addTo v k =>
    revert h
    simp only [Delay.call, Delay.addToBody, bind_apply, eval_apply]
    cases tapIndex b s.write_ptr k s.memory.length with
    | error e => intro _; rfl
    | ok n =>
    simp only
    cases h1 : idx s.memory n with
    | error e => intro _; rfl
    | ok y =>
    simp only
    cases h2 : idxSet s.memory n (y +. v) with
    | error e => intro _; rfl
    | ok mem =>
    have hn : n < mem.length := by
      unfold idxSet at h2
      split at h2
      · cases h2; simpa
      · cases h2
    simp only [assign_apply, idx_ok hn]
    intro h; cases h
  | clear => cases h
  | lastOut => cases h

theorem call_of_agrees {σ o : Type} {r : Res (σ × o)} {c : σ × Res o} (h : r = c.2.map (Prod.mk c.1)) :
    (∀ s' v, r = .ok (s', v) → c = (s', .ok v)) ∧ (∀ e, r = .error e → c.2 = .error e) := by
  obtain ⟨s1, e | v⟩ := c
  · subst h
    exact ⟨fun _ _ h => by simp [Except.map] at h, fun _ h => by simpa [Except.map] using h⟩
  · subst h
    exact ⟨fun _ _ h => by simpa [Except.map] using h, fun _ h => by simp [Except.map] at h⟩

theorem vecResize_panic [Target] {mem : List T} {m : ℕ} (h : mem.length ≤ m) (hm : ¬ (m + 1) * size T ≤ isizeMax) :
    vecResize mem (m + 1) zero = .error .panic := by
  unfold vecResize
  rw [if_neg (by omega), if_neg hm]

/-- One call, panics included: the object does what the abstract line does, and a panic changes nothing. -/
theorem Delay.call_models [Target] (hsz : 4 ≤ size T) {s : Delay T} {l : SeamLine T} (h : s.Models l) {op : DelayOp T}
    (ho : op.Any b) :
    match l.call op with
    | none => Delay.call b op s = (s, .error .panic)
    | some (l', o) => ∃ s', Delay.call b op s = (s', .ok o) ∧ s'.Models l' := by
  have hag := call_of_agrees (C113_delay_agrees (b := b) op s)
  have main : op.Args → match l.step op with
      | none => Delay.call b op s = (s, .error .panic)
      | some (l', o) => ∃ s', Delay.call b op s = (s', .ok o) ∧ s'.Models l' := by
    intro ha
    have h1 := step_models (b := b) hsz h ha
    cases hst : l.step op with
    | none =>
      rw [hst] at h1
      have h2 := hag.2 _ h1
      have hp : op.NotProcess := by
        cases op <;> trivial
      exact Prod.ext (C113_delay_intact s hp h2) h2
    | some r =>
      rw [hst] at h1
      obtain ⟨s', h2, h3⟩ := h1
      exact ⟨s', hag.1 _ _ h2, h3⟩
  cases op with
  | setMaxDelay m =>
    have hlen : s.memory.length = l.hist.length := by rw [← h.hist]; simp
    by_cases hm : (m + 1) * size T ≤ isizeMax
    · simpa only [SeamLine.call, hm, or_true, if_true] using main hm
    by_cases hc : m < l.hist.length
    · simp only [SeamLine.call, hc, true_or, if_true, SeamLine.step]
      have : s.step b (.setMaxDelay m) = .ok (s, .unit) := by
        simp only [Delay.step, Delay.setMaxDelay_small (hlen ▸ hc), Res.ok_bind]
      exact ⟨s, hag.1 _ _ this, h⟩
    · simp only [SeamLine.call, hc, hm, or_false, if_false]
      have : s.step b (.setMaxDelay m) = .error .panic := by
        obtain ⟨h1, h2⟩ := ho
        simp only [Delay.step, Delay.setMaxDelay]
        rw [if_neg (by omega)]
        by_cases h3 : m + 1 < usizeMod
        · rw [uAdd_ok h3, Res.ok_bind, vecResize_panic (by omega) hm]; rfl
        · have : uAdd b m 1 = .error .panic := by
            unfold uAdd
            rw [if_neg h3, if_pos (h2.resolve_right h3)]
          rw [this]; rfl
      have h2 := hag.2 _ this
      exact Prod.ext (C113_delay_intact s trivial h2) h2
  | process x => exact main trivial
  | setDelay d => exact main trivial
  | getDelay => exact main trivial
  | getMaxDelay => exact main trivial
  | nextOut => exact main trivial
  | tapOut k => exact main ho
  | tapIn v k => exact main ho
  | addTo v k => exact main ho
  | clear => exact main trivial
  | lastOut => exact main trivial

/-- **C113**, `Delay`: from a new line, a program that catches panics and goes on sees in every call exactly what it sees of the
abstract line from which the panicking calls have been left out: tap arguments out of range and maxima that cannot be
allocated included. -/
theorem C113_delay_session [Target] (hsz : 4 ≤ size T) {d m : ℕ} (hm : Allocatable T m) :
    ∃ s : Delay T, Delay.new b d m = .ok s ∧ ∀ ops : List (DelayOp T), (∀ op ∈ ops, op.Any b) →
      (session (Delay.call b) s ops).2 = (SeamLine.new d m : SeamLine T).session ops := by
  obtain ⟨s, hn, hi, he, hd, hmem, hw, ho⟩ := Delay.new_spec (b := b) (d := d) hm
  have h0 : s.Models (SeamLine.new d m) := by
    refine ⟨hi, he, ?_, hd, hw, ho⟩
    show histOf s.memory s.write_ptr = _
    rw [hmem, histOf_replicate]; rfl
  refine ⟨s, hn, fun ops => ?_⟩
  clear hn hi he hd hmem hw ho
  generalize (SeamLine.new d m : SeamLine T) = l at h0
  induction ops generalizing s l with
  | nil => intro _; rfl
  | cons op ops ih =>
    intro ha
    have h1 := Delay.call_models (b := b) hsz h0 (ha op (by simp))
    unfold SeamLine.session
    cases hst : l.call op with
    | none =>
      rw [hst] at h1
      have h1' : Delay.call b op s = (s, .error .panic) := h1
      simp only [session, h1', ih s l h0 fun op h => ha op (by simp [h])]
    | some r =>
      obtain ⟨l', o⟩ := r
      rw [hst] at h1
      obtain ⟨s', h2, h3⟩ := h1
      simp only [session, h2, ih s' l' h3 fun op h => ha op (by simp [h])]

end Delay

section LinearDelay
variable {D T : Type} [FloatOps D] [FloatOps T] [DelayTime D T] {b : Build}

theorem LinearDelay.setDelayBody_does [Target] (d : D) :
    (LinearDelay.setDelayBody (T := T) b d).Does (fun s => (s.setDelay b d).map (·, ())) := by
  intro s
  unfold LinearDelay.setDelayBody LinearDelay.setDelay
  simp only [bind_eval]
  cases h1 : uSub b s.memory.length 1 with
  | error e => rfl
  | ok m =>
  simp only [Res.ok_bind, bind_assign, bind_eval, assign_apply]
  cases h2 : whileLoop (fun x : D => lt x zero) (fun x => x +. ofUsize s.memory.length)
    (ofUsize s.write_ptr -. clipDelay d (ofUsize m)) with
  | error e => rfl
  | ok pos => rfl

omit [FloatOps D] [DelayTime D T] in
theorem LinearDelay.setMaxDelayBody_does [Target] (m : ℕ) :
    (LinearDelay.setMaxDelayBody (D := D) (T := T) b m).Does (fun s => (s.setMaxDelay b m).map (·, ())) := by
  intro s
  unfold LinearDelay.setMaxDelayBody LinearDelay.setMaxDelay
  simp only [bind_eval]
  by_cases hc : m < s.memory.length
  · simp only [hc, decide_true, if_true]; rfl
  · simp only [hc, decide_false, if_false, Bool.false_eq_true, bind_eval]
    cases h2 : uAdd b m 1 with
    | error e => rfl
    | ok n =>
    simp only [Res.ok_bind]
    cases h3 : vecResize s.memory n zero with
    | error e => rfl
    | ok r => rfl

omit [FloatOps D] [FloatOps T] [DelayTime D T] in
theorem LinearDelay.tapInBody_does [Target] (v : T) (k : ℕ) :
    (LinearDelay.tapInBody (D := D) b v k).Does (fun s => (s.tapIn b v k).map (·, ())) := by
  intro s
  unfold LinearDelay.tapInBody LinearDelay.tapIn
  simp only [bind_eval]
  cases h2 : tapIndex b s.write_ptr k s.memory.length with
  | error e => rfl
  | ok n =>
  simp only [Res.ok_bind]
  cases h3 : idxSet s.memory n v with
  | error e => rfl
  | ok r => rfl

omit [FloatOps D] [DelayTime D T] in
theorem LinearDelay.addToBody_does [Target] (v : T) (k : ℕ) : (LinearDelay.addToBody (D := D) b v k).Does (fun s => s.addTo b v k) := by
  intro s
  unfold LinearDelay.addToBody LinearDelay.addTo
  simp only [bind_eval]
  cases h2 : tapIndex b s.write_ptr k s.memory.length with
  | error e => rfl
  | ok n =>
  simp only [Res.ok_bind]
  cases h3 : idx s.memory n with
  | error e => rfl
  | ok y =>
  simp only [Res.ok_bind]
  cases h3 : idxSet s.memory n (y +. v) with
  | error e => rfl
  | ok m =>
  simp only [Res.ok_bind, bind_assign, eval_apply]
  cases h3 : idx m n with
  | error e => rfl
  | ok z => rfl

omit [FloatOps D] [DelayTime D T] in
theorem LinearDelay.nextOutBody_does [Target] :
    (LinearDelay.nextOutBody (D := D) (T := T) b).Does (fun s => s.nextOut b) := by
  intro s
  unfold LinearDelay.nextOutBody LinearDelay.nextOut
  simp only [bind_eval]
  cases hd : s.do_next_out with
  | false => rfl
  | true =>
  simp only [if_true, bind_eval]
  cases h1 : idx s.memory s.read_ptr with
  | error e => rfl
  | ok m0 =>
  simp only [Res.ok_bind, bind_assign, bind_eval, eval_apply]
  cases h2 : uSub b s.memory.length 1 with
  | error e => rfl
  | ok last =>
  simp only [Res.ok_bind]
  by_cases hc : s.read_ptr < last
  · simp only [hc, if_true]
    cases h3 : uAdd b s.read_ptr 1 with
    | error e => rfl
    | ok r1 =>
    simp only [Res.ok_bind]
    cases h4 : idx s.memory r1 with
    | error e => rfl
    | ok m1 => rfl
  · simp only [hc, if_false]
    cases h4 : idx s.memory 0 with
    | error e => rfl
    | ok m1 => rfl

omit [FloatOps D] [DelayTime D T] in
theorem LinearDelay.processBody_does [Target] (x : T) :
    (LinearDelay.processBody (D := D) b x).Does (fun s => s.process b x) := by
  intro s
  unfold LinearDelay.processBody LinearDelay.process
  simp only [bind_eval]
  cases h1 : idxSet s.memory s.write_ptr x with
  | error e => rfl
  | ok mem =>
  simp only [Res.ok_bind]
  cases h2 : uAdd b s.write_ptr 1 with
  | error e => simp only [bind_assign, bind_eval, h2]; rfl
  | ok w =>
  simp only [bind_assign, bind_eval, h2, Res.ok_bind]
  cases h3 : uRem w mem.length with
  | error e => rfl
  | ok w' =>
  simp only [Res.ok_bind]
  have hn := LinearDelay.nextOutBody_does (b := b) { s with memory := mem, write_ptr := w' }
  simp only at hn
  rw [hn, bind_apply]
  rcases hb : LinearDelay.nextOutBody b { s with memory := mem, write_ptr := w' } with ⟨s1, e | y⟩
  · rfl
  simp only [Except.map, Res.ok_bind, bind_assign, bind_eval]
  cases h5 : uAdd b s1.read_ptr 1 with
  | error e => rfl
  | ok r =>
  simp only [Res.ok_bind]
  cases h6 : uRem r s1.memory.length with
  | error e => rfl
  | ok r' => rfl

/-- **C113**, `LinearDelay`: the statement-by-statement transcription agrees with the model of the other properties. -/
theorem C113_linear_agrees [Target] (op : LinOp D T) (s : LinearDelay D T) :
    s.step b op = (LinearDelay.call b op s).2.map (Prod.mk (LinearDelay.call b op s).1) := by
  cases op with
  | process x => exact ((LinearDelay.processBody_does (b := b) x).bind_pure Obs.sample) s
  | setDelay d => exact ((LinearDelay.setDelayBody_does (T := T) (b := b) d).bind_unit Obs.unit) s
  | setMaxDelay m => exact ((LinearDelay.setMaxDelayBody_does (D := D) (T := T) (b := b) m).bind_unit Obs.unit) s
  | nextOut => exact ((LinearDelay.nextOutBody_does (b := b)).bind_pure Obs.sample) s
  | tapOut k =>
    simp only [LinearDelay.step, LinearDelay.call, bind_eval]
    cases s.tapOut b k <;> rfl
  | tapIn v k => exact ((LinearDelay.tapInBody_does (b := b) v k).bind_unit Obs.unit) s
  | addTo v k => exact ((LinearDelay.addToBody_does (b := b) v k).bind_pure Obs.sample) s
  | clear => rfl

theorem whileLoop_ne_panic {α : Type} (c : α → Bool) (f : α → α) (x : α) : whileLoop c f x ≠ .error .panic := by
  unfold whileLoop
  split
  · intro h; cases h
  · intro h; cases h

/-- **C113**, `LinearDelay`: whatever state the object is in, a panicking call other than `process` leaves it exactly as it
was. The length of a `Vec` is a `usize`. -/
theorem C113_linear_intact [Target] (s : LinearDelay D T) (hl : s.memory.length < usizeMod) {op : LinOp D T} (ho : op.NotProcess)
    (h : (LinearDelay.call b op s).2 = .error .panic) : (LinearDelay.call b op s).1 = s := by
  cases op with
  | process x => exact ho.elim
  | setDelay d =>
    revert h
    simp only [LinearDelay.call, LinearDelay.setDelayBody, bind_apply, eval_apply, assign_apply, pure_apply]
    cases uSub b s.memory.length 1 with
    | error e => intro _; rfl
    | ok m =>
    simp only
    split
    · intro h; cases h
    · next h =>
      revert h
      split
      · intro h; cases h
      · next h2 =>
        intro h; cases h
        intro h; cases h
        exact absurd h2 (whileLoop_ne_panic _ _ _)
  | setMaxDelay m =>
    revert h
    simp only [LinearDelay.call, LinearDelay.setMaxDelayBody, bind_apply, eval_apply]
    by_cases hc : m < s.memory.length
    · simp only [hc, decide_true, if_true, pure_apply]; simp
    simp only [hc, decide_false, if_false, Bool.false_eq_true, bind_apply, eval_apply]
    cases uAdd b m 1 with
    | error e => intro _; rfl
    | ok n =>
    simp only
    cases vecResize s.memory n zero with
    | error e => intro _; rfl
    | ok mem => intro h; cases h
  | nextOut =>
    revert h
    simp only [LinearDelay.call, LinearDelay.nextOutBody, bind_apply, eval_apply]
    cases hd : s.do_next_out with
    | false => simp
    | true =>
    simp only [if_true, bind_apply, eval_apply, assign_apply]
    by_cases hr : s.read_ptr < s.memory.length
    · simp only [idx_ok hr, uSub_ok (show 1 ≤ s.memory.length by omega)]
      by_cases hc : s.read_ptr < s.memory.length - 1
      · simp only [hc, if_true, uAdd_ok (show s.read_ptr + 1 < usizeMod by omega), Res.ok_bind,
          idx_ok (show s.read_ptr + 1 < s.memory.length by omega)]
        intro h; cases h
      · simp only [hc, if_false, idx_ok (show 0 < s.memory.length by omega)]
        intro h; cases h
    · simp only [idx_panic (show s.memory.length ≤ s.read_ptr by omega)]
      simp
  | tapOut k => simp only [LinearDelay.call, bind_eval]; cases s.tapOut b k <;> rfl
  | tapIn v k =>
    revert h
    simp only [LinearDelay.call, LinearDelay.tapInBody, bind_apply, eval_apply]
    cases tapIndex b s.write_ptr k s.memory.length with
    | error e => intro _; rfl
    | ok n =>
    simp only
    cases idxSet s.memory n v with
    | error e => intro _; rfl
    | ok mem => intro h; cases h
  | addTo v k =>
    revert h
    simp only [LinearDelay.call, LinearDelay.addToBody, bind_apply, eval_apply]
    cases tapIndex b s.write_ptr k s.memory.length with
    | error e => intro _; rfl
    | ok n =>
    simp only
    cases h1 : idx s.memory n with
    | error e => intro _; rfl
    | ok y =>
    simp only
    cases h2 : idxSet s.memory n (y +. v) with
    | error e => intro _; rfl
    | ok mem =>
    have hn : n < mem.length := by
      unfold idxSet at h2
      split at h2
      · cases h2; simpa
      · cases h2
    simp only [assign_apply, idx_ok hn]
    intro h; cases h
  | clear => cases h


/-- One call, panics included: the object does what the abstract line does, and a panic changes nothing. -/
theorem LinearDelay.call_models [Target] (hsz : 4 ≤ size T) {place : Placement D T} {N : ℕ} (hp : PlacedBy b N place)
    {s : LinearDelay D T} {l : SeamLinear D T} (h : s.Models l) (hN : l.hist.length ≤ N) {op : LinOp D T} (ho : op.Any b N) :
    match l.call place op with
    | none => LinearDelay.call b op s = (s, .error .panic)
    | some (l', o) => ∃ s', LinearDelay.call b op s = (s', .ok o) ∧ s'.Models l' ∧ l'.hist.length ≤ N := by
  have hag := call_of_agrees (C113_linear_agrees (b := b) op s)
  have hmod : s.memory.length < usizeMod := by
    have := h.inv.len_le
    have := isizeMax_lt
    omega
  have main : op.Args N → match l.step place op with
      | none => LinearDelay.call b op s = (s, .error .panic)
      | some (l', o) => ∃ s', LinearDelay.call b op s = (s', .ok o) ∧ s'.Models l' ∧ l'.hist.length ≤ N := by
    intro ha
    have h1 := LinearDelay.step_models (b := b) hsz hp h hN ha
    cases hst : l.step place op with
    | none =>
      rw [hst] at h1
      have h2 := hag.2 _ h1
      have hp : op.NotProcess := by
        cases op <;> trivial
      exact Prod.ext (C113_linear_intact s hmod hp h2) h2
    | some r =>
      rw [hst] at h1
      obtain ⟨s', h2, h3⟩ := h1
      exact ⟨s', hag.1 _ _ h2, h3⟩
  cases op with
  | setMaxDelay m =>
    obtain ⟨h0, h1, h2⟩ := ho
    have hlen : s.memory.length = l.hist.length := by rw [← h.hist]; simp
    by_cases hm : (m + 1) * size T ≤ isizeMax
    · simpa only [SeamLinear.call, hm, or_true, if_true] using main ⟨hm, h0.resolve_right (fun h => h hm)⟩
    by_cases hc : m < l.hist.length
    · simp only [SeamLinear.call, hc, true_or, if_true, SeamLinear.step]
      have : s.step b (.setMaxDelay m) = .ok (s, .unit) := by
        simp only [LinearDelay.step, LinearDelay.setMaxDelay_small (hlen ▸ hc), Res.ok_bind]
      exact ⟨s, hag.1 _ _ this, h, hN⟩
    · simp only [SeamLinear.call, hc, hm, or_false, if_false]
      have : s.step b (.setMaxDelay m) = .error .panic := by
        simp only [LinearDelay.step, LinearDelay.setMaxDelay]
        rw [if_neg (by omega)]
        by_cases h3 : m + 1 < usizeMod
        · rw [uAdd_ok h3, Res.ok_bind, vecResize_panic (by omega) hm]; rfl
        · have : uAdd b m 1 = .error .panic := by
            unfold uAdd
            rw [if_neg h3, if_pos (h2.resolve_right h3)]
          rw [this]; rfl
      have h2 := hag.2 _ this
      exact Prod.ext (C113_linear_intact s hmod trivial h2) h2
  | process x => exact main trivial
  | setDelay d => exact main trivial
  | nextOut => exact main trivial
  | tapOut k => exact main ho
  | tapIn v k => exact main ho
  | addTo v k => exact main ho
  | clear => exact main trivial

theorem LinearDelay.session_models [Target] (hsz : 4 ≤ size T) {place : Placement D T} {N : ℕ} (hp : PlacedBy b N place)
    {ops : List (LinOp D T)} : ∀ {s : LinearDelay D T} {l : SeamLinear D T}, s.Models l → l.hist.length ≤ N →
      (∀ op ∈ ops, op.Any b N) → (session (LinearDelay.call b) s ops).2 = l.session place ops := by
  induction ops with
  | nil => intro _ _ _ _ _; rfl
  | cons op ops ih =>
    intro s l h0 hN ha
    have h1 := LinearDelay.call_models (b := b) hsz hp h0 hN (ha op (by simp))
    unfold SeamLinear.session
    cases hst : l.call place op with
    | none =>
      rw [hst] at h1
      have h1' : LinearDelay.call b op s = (s, .error .panic) := h1
      simp only [session, h1', ih h0 hN fun op h => ha op (by simp [h])]
    | some r =>
      obtain ⟨l', o⟩ := r
      rw [hst] at h1
      obtain ⟨s', h2, h3, h4⟩ := h1
      simp only [session, h2, ih h3 h4 fun op h => ha op (by simp [h])]

/-- **C113**, `LinearDelay` in exact arithmetic: a program that catches panics and goes on sees the abstract interpolating line
from which the panicking calls have been left out. -/
theorem C113_linear_session [Target] {m : ℕ} (hm : Allocatable ℝ m) (d : ℝ) :
    ∃ s : LinearDelay ℝ ℝ, LinearDelay.new b d m = .ok s ∧ ∀ ops : List (LinOp ℝ ℝ), (∀ op ∈ ops, op.Any b usizeMod) →
      (session (LinearDelay.call b) s ops).2 = (SeamLinear.new exactPlace d m).session exactPlace ops := by
  have hlen : m + 1 ≤ isizeMax := le_isizeMax_of_mul (size_pos (T := ℝ)) hm
  obtain ⟨s, h1, h2⟩ := LinearDelay.new_models (b := b) placedBy_exact hm (by have := target; omega) d
  refine ⟨s, h1, fun ops ha => LinearDelay.session_models (b := b) (by simp [FloatOps.size]) placedBy_exact h2 ?_ ha⟩
  have := target
  simp [SeamLinear.new, SeamLinear.set]; omega

/-- **C113**, `LinearDelay` in floating point up to 2^24 slots: the same, with the placement of C77. -/
theorem C113_linear_session_ieee [Target] {L32 : Libm binary32} {f : Fmt} {L : Libm f} (hp : 24 ≤ f.p) (hem : f.emin ≤ -149) :
    ∃ place : Placement (Fl L32) (Fl L), SoundPlace (2 ^ 24) place ∧
      ∀ (b : Build) (m : ℕ) (d : Fl L32), Allocatable (Fl L) m → m < 2 ^ 24 →
        ∃ s : LinearDelay (Fl L32) (Fl L), LinearDelay.new b d m = .ok s ∧
          ∀ ops : List (LinOp (Fl L32) (Fl L)), (∀ op ∈ ops, op.Any b (2 ^ 24)) →
            (session (LinearDelay.call b) s ops).2 = (SeamLinear.new place d m).session place ops := by
  refine ⟨ieeePlace, sound_ieee hp hem, fun b m d hm hl => ?_⟩
  obtain ⟨s, h1, h2⟩ := LinearDelay.new_models (b := b) (placedBy_ieee (L := L)) hm (by omega) d
  refine ⟨s, h1, fun ops ha => LinearDelay.session_models (b := b) ?_ placedBy_ieee h2 ?_ ha⟩
  · show 4 ≤ (f.p + 11) / 8
    omega
  · simp [SeamLinear.new, SeamLinear.set]; omega

/-! ## The half-done `process` of a `LinearDelay` -/

omit [FloatOps D] [DelayTime D T] in
/-- A `process` that panics has stored the sample and moved the write position. -/
theorem LinearDelay.processBody_panic [Target] {s : LinearDelay D T} (hi : s.WInv) (hr : s.memory.length ≤ s.read_ptr)
    (hd : s.do_next_out = true) (x : T) : LinearDelay.processBody b x s = (s.pushed x, .error .panic) := by
  have hw := hi.hw
  have hlen := hi.len_le
  have hmod := isizeMax_lt
  unfold LinearDelay.processBody
  rw [bind_eval]
  simp only [idxSet_ok hw]
  rw [bind_assign, bind_eval]
  simp only [uAdd_ok (show s.write_ptr + 1 < usizeMod by omega)]
  rw [bind_assign, bind_eval]
  simp only [uRem_ok (x := s.write_ptr + 1) (show (s.memory.set s.write_ptr x).length ≠ 0 by rw [List.length_set]; omega)]
  rw [bind_assign, bind_apply]
  have hn : LinearDelay.nextOutBody (D := D) b (s.pushed x) = (s.pushed x, .error .panic) := by
    unfold LinearDelay.nextOutBody
    rw [bind_eval]
    simp only [show (s.pushed x).do_next_out = true from hd, if_true]
    rw [bind_eval]
    simp only [idx_panic (show (s.pushed x).memory.length ≤ (s.pushed x).read_ptr by simpa [LinearDelay.pushed] using hr)]
  have he : ({ s with memory := s.memory.set s.write_ptr x, write_ptr := (s.write_ptr + 1) % (s.memory.set s.write_ptr x).length } :
      LinearDelay D T) = s.pushed x := by simp [LinearDelay.pushed]
  simp only [he, hn]

omit [FloatOps D] [DelayTime D T] in
theorem LinearDelay.nextOut_panic_iff [Target] {s : LinearDelay D T} (hi : s.WInv) :
    s.nextOut b = .error .panic ↔ s.memory.length ≤ s.read_ptr ∧ s.do_next_out = true := by
  have hw := hi.hw
  cases hd : s.do_next_out with
  | false => simp [LinearDelay.nextOut, hd]
  | true =>
    by_cases hr : s.read_ptr < s.memory.length
    · obtain ⟨_, _, -, -, h⟩ := LinearDelay.nextOut_eq (b := b) hr hd (by have := hi.len_le; have := isizeMax_lt; omega)
      rw [h]
      simp; omega
    · simp only [LinearDelay.nextOut, hd, if_true, idx_panic (show s.memory.length ≤ s.read_ptr by omega)]
      simp; omega

theorem take_reverse_cons {α : Type} (x : α) (xs h : List α) (hh : 1 ≤ h.length) :
    ((x :: xs).reverse ++ h).take h.length = (xs.reverse ++ (x :: h.dropLast)).take (x :: h.dropLast).length := by
  rcases List.eq_nil_or_concat h with rfl | ⟨h', a, rfl⟩
  · simp at hh
  · have e : (x :: xs).reverse ++ (h' ++ [a]) = (xs.reverse ++ x :: h') ++ [a] := by simp
    have hd : (h' ++ [a]).dropLast = h' := by simp
    rw [List.concat_eq_append, e, hd, List.take_append_of_le_length (by simp)]
    simp

/-- **C113**, `LinearDelay`, the half-done call: if the read position is out of range (`next_out` panics; C24 has such lines),
every `process` panics, but its sample has been stored: the taps show it, while `get_delay` and `last_out` do not change. -/
theorem C113_linear_stuck [Target] {s : LinearDelay D T} (hs : LinearDelay.Reachable b s) {h : List T} (hst : s.Stores b h)
    (hp : s.nextOut b = .error .panic) (xs : List T) :
    (session (LinearDelay.call b) s (xs.map .process)).2 = xs.map (fun _ => .error .panic) ∧
    (session (LinearDelay.call b) s (xs.map .process)).1.Stores b ((xs.reverse ++ h).take h.length) ∧
    (session (LinearDelay.call b) s (xs.map .process)).1.getDelay = s.getDelay ∧
    (session (LinearDelay.call b) s (xs.map .process)).1.lastOut = s.lastOut ∧
    (session (LinearDelay.call b) s (xs.map .process)).1.nextOut b = .error .panic := by
  have hi := hs.winv
  obtain rfl := hst.eq hi.stores
  clear hst hs
  induction xs generalizing s with
  | nil => exact ⟨rfl, by rw [List.reverse_nil, List.nil_append, List.take_length]; exact hi.stores, rfl, rfl, hp⟩
  | cons x xs ih =>
    obtain ⟨hr, hd⟩ := (LinearDelay.nextOut_panic_iff hi).1 hp
    have hw := hi.hw
    have hl : (s.pushed x).memory.length = s.memory.length := by simp [LinearDelay.pushed]
    have hi' : (s.pushed x).WInv := ⟨by rw [hl]; exact Nat.mod_lt _ (by omega), by rw [hl]; exact hi.cap⟩
    have hh : (s.pushed x).hist = x :: s.hist.dropLast := histOf_push hw x
    have hp' : (s.pushed x).nextOut b = .error .panic :=
      (LinearDelay.nextOut_panic_iff hi').2 ⟨by rw [hl]; exact hr, hd⟩
    have hc : LinearDelay.call b (.process x) s = (s.pushed x, .error .panic) := by
      simp only [LinearDelay.call, bind_apply, LinearDelay.processBody_panic (b := b) hi hr hd x]
    obtain ⟨h1, h2, h3, h4, h5⟩ := ih hp' hi'
    simp only [List.map_cons, session, hc]
    refine ⟨by rw [h1], ?_, h3, h4, h5⟩
    rw [take_reverse_cons x xs _ (by simp; omega), ← hh]
    exact h2

/-- The object such calls leave behind. -/
theorem LinearDelay.session_pushed [Target] {s : LinearDelay D T} (hi : s.WInv) (hp : s.nextOut b = .error .panic) (xs : List T) :
    (session (LinearDelay.call b) s (xs.map .process)).1.WInv ∧
    (session (LinearDelay.call b) s (xs.map .process)).1.memory.length = s.memory.length ∧
    (session (LinearDelay.call b) s (xs.map .process)).1.do_next_out = true ∧
    (session (LinearDelay.call b) s (xs.map .process)).1.write_ptr = (s.write_ptr + xs.length) % s.memory.length ∧
    (∀ v ∈ (session (LinearDelay.call b) s (xs.map .process)).1.memory, v ∈ xs ∨ v ∈ s.memory) := by
  induction xs generalizing s with
  | nil =>
    exact ⟨hi, rfl, ((LinearDelay.nextOut_panic_iff hi).1 hp).2, (Nat.mod_eq_of_lt hi.hw).symm, fun v h => .inr h⟩
  | cons x xs ih =>
    obtain ⟨hr, hd⟩ := (LinearDelay.nextOut_panic_iff hi).1 hp
    have hw := hi.hw
    have hl : (s.pushed x).memory.length = s.memory.length := by simp [LinearDelay.pushed]
    have hi' : (s.pushed x).WInv := ⟨by rw [hl]; exact Nat.mod_lt _ (by omega), by rw [hl]; exact hi.cap⟩
    have hp' : (s.pushed x).nextOut b = .error .panic :=
      (LinearDelay.nextOut_panic_iff hi').2 ⟨by rw [hl]; exact hr, hd⟩
    have hc : LinearDelay.call b (.process x) s = (s.pushed x, .error .panic) := by
      simp only [LinearDelay.call, bind_apply, LinearDelay.processBody_panic (b := b) hi hr hd x]
    obtain ⟨h1, h2, h3, h4, h5⟩ := ih hi' hp'
    simp only [List.map_cons, session, hc]
    refine ⟨h1, h2.trans hl, h3, ?_, fun v hv => ?_⟩
    · rw [h4, hl]
      show ((s.write_ptr + 1) % s.memory.length + xs.length) % s.memory.length = _
      rw [Nat.mod_add_mod, List.length_cons]
      congr 1; omega
    · rcases h5 v hv with h | h
      · exact .inl (by simp [h])
      · rcases List.mem_or_eq_of_mem_set h with h | rfl
        · exact .inr h
        · exact .inl (by simp)

end LinearDelay

section Recover
variable {L32 : Libm binary32} {f : Fmt} {L : Libm f} {b : Build}

/-- `set_delay(0)` while the write position is at most 2^24, on a line of any length. -/
theorem setDelay_zero [Target] {s : LinearDelay (Fl L32) (Fl L)} (hi : s.WInv) (hw24 : s.write_ptr ≤ 2 ^ 24) :
    ∃ s', s.setDelay b zero = .ok s' ∧ s'.Eff 0 ∧ s'.alpha.Finite ∧ s'.alpha.toReal = 0 ∧
      s'.om_alpha.Finite ∧ s'.om_alpha.toReal = 1 := by
  have hw := hi.hw
  have hlen := hi.len_le
  have ht := target
  obtain ⟨m1, m2⟩ := ofUsize_fp (L32 := L32) (n := s.memory.length - 1) (by omega)
  have hm0 : 0 ≤ rnd binary32 ((s.memory.length - 1 : ℕ) : ℝ) := rnd_nonneg (by positivity)
  have hclip : clipDelay (zero : Fl L32) (ofUsize (s.memory.length - 1)) = zero := by
    unfold clipDelay
    rw [(Fl.lt_false_iff m1 Fl.zero_finite).mpr (by rw [Fl.zero_toReal, m2]; exact hm0)]
    simp only [Bool.false_eq_true, if_false]
    rw [(Fl.lt_false_iff Fl.zero_finite Fl.zero_finite).mpr le_rfl]
    rfl
  obtain ⟨pos, hpos, p1, p2, -, -⟩ := loop_fin (L32 := L32) (w := s.write_ptr) (n := s.memory.length) hw (by omega)
    Fl.zero_finite (by rw [Fl.zero_toReal]) (by rw [Fl.zero_toReal]; exact hm0)
  have hpr : pos.toReal = s.write_ptr := by
    rw [p2, Fl.zero_toReal]
    unfold posOf
    simp only
    rw [sub_zero, rnd_of_isRep (isRep32_nat hw24), rnd_of_isRep (isRep32_nat hw24), if_neg (by push Not; positivity)]
  have hu : DelayTime.toUsize (Fl L) pos = s.write_ptr :=
    toUsize_val p1 (by rw [hpr]; positivity) (by omega) hpr.ge (by rw [hpr]; linarith)
  have h := LinearDelay.setDelay_eq (b := b) (T := Fl L) (s := s) (d := zero) (by omega) (by rw [hclip]; exact hpos)
  simp only [hu] at h
  rw [if_neg (show ¬ s.write_ptr = s.memory.length by omega)] at h
  obtain ⟨r1, r2⟩ := ofUsize_fp (L32 := L32) (n := s.write_ptr) (by omega)
  rw [rnd_of_isRep (isRep32_nat hw24)] at r2
  obtain ⟨a1, a2⟩ := Fl.sub_val p1 r1 (by rw [hpr, r2, sub_self]; exact noOvf_zero)
  rw [hpr, r2, sub_self, rnd_zero] at a2
  obtain ⟨c1, c2⟩ := castTo_val (L := L) a1 (by rw [a2]; exact noOvf_zero)
  rw [a2, rnd_zero] at c2
  obtain ⟨o1, o2⟩ := Fl.sub_val (Fl.one_finite (L := L)) c1 (by rw [c2]; simpa using noOvf_one)
  rw [c2, Fl.one_toReal, sub_zero, rnd_of_isRep (isRep_one f)] at o2
  exact ⟨_, h, ⟨by show 0 < s.memory.length; omega, by simp⟩, c1, c2, o1, o2⟩

/-- **C113**, `LinearDelay`, on the line that refutes C24 (2^24+3 slots, `f32` delay strictly between 0 and 1): up to 2^24 finite
samples are fed to it, all calls panic and are caught; then `set_delay(0)` makes it usable again, and it returns (`==`) its
input from then on. -/
theorem C113_linear_recovers [Target] (hm : Allocatable (Fl L) (2 ^ 24 + 2)) {d : Fl L32} (hd : d.Finite) (h0 : 0 < d.toReal)
    (h1 : d.toReal < 1) :
    ∃ s : LinearDelay (Fl L32) (Fl L), LinearDelay.new b d (2 ^ 24 + 2) = .ok s ∧ s.nextOut b = .error .panic ∧
      ∀ xs : List (Fl L), xs.length ≤ 2 ^ 24 → (∀ v ∈ xs, v.Finite) →
        (session (LinearDelay.call b) s (xs.map .process)).2 = xs.map (fun _ => .error .panic) ∧
        ∃ s', (session (LinearDelay.call b) s (xs.map .process)).1.setDelay b zero = .ok s' ∧
          ∀ x : ℕ → Fl L, (∀ n, (x n).Finite) → ∃ y, Responds b s' x y ∧ ∀ n, Fl.eq (y n) (x n) = true := by
  obtain ⟨s, hn, hp⟩ := C24_false_for_long_lines (b := b) hm hd h0 h1
  have hR : LinearDelay.Reachable b s := .new hm hn
  obtain ⟨f1, f2, hi, f4, -⟩ := LinearDelay.new_frame hm hn
  have hlen : s.memory.length = 2 ^ 24 + 3 := by rw [f1, List.length_replicate]
  have hno : s.nextOut b = .error .panic := by
    refine (LinearDelay.nextOut_panic_iff hi).2 ⟨?_, f4⟩
    by_contra hr
    obtain ⟨e, he⟩ := LinearDelay.eff_of_lt hi.hw (by omega)
    obtain ⟨_, _, _, -, -, hq, -⟩ := LinearDelay.process_spec (b := b) hi he f4 zero
    rw [hp] at hq; cases hq
  refine ⟨s, hn, hno, fun xs hl hx => ?_⟩
  obtain ⟨g1, g2, g3, g4, g5⟩ := LinearDelay.session_pushed hi hno xs
  refine ⟨(C113_linear_stuck hR hi.stores hno xs).1, ?_⟩
  generalize (session (LinearDelay.call b) s (xs.map .process)).1 = t at g1 g2 g3 g4 g5
  rw [f2, hlen, zero_add, Nat.mod_eq_of_lt (by omega)] at g4
  obtain ⟨s', k1, k2, k3, k4, k5, k6⟩ := setDelay_zero (b := b) g1 (by omega)
  obtain ⟨hmem, hw, -, hdn, -⟩ := LinearDelay.setDelay_frame k1
  have hi' : s'.WInv := ⟨by rw [hmem, hw]; exact g1.hw, by rw [hmem]; exact g1.cap⟩
  have hh : ∀ v ∈ s'.hist, v.Finite := by
    intro v hv
    have : v ∈ t.memory := by
      unfold LinearDelay.hist histOf at hv
      rw [hmem] at hv
      rcases List.mem_append.1 hv with h | h
      · exact List.mem_of_mem_take (List.mem_reverse.1 h)
      · exact List.mem_of_mem_drop (List.mem_reverse.1 h)
    rcases g5 v this with h | h
    · exact hx v h
    · rw [f1] at h
      rw [List.eq_of_mem_replicate h]
      exact Fl.zero_finite
  refine ⟨s', k1, fun x hx => ⟨_, LinearDelay.responds (b := b) hi' k2 (hdn.trans g3) x, fun n => ?_⟩⟩
  have := interp_int (delayedBy_finite hh hx 0 n) (delayedBy_finite hh hx (older s'.memory.length 0) n) k5 k6 k3 k4
  exact this

end Recover

section Examples

/-- Non-vacuity of the session theorem: on a line of 2 slots a tap out of range panics, a maximum of `usize::MAX - 1` cannot be
allocated, and the calls around them are unaffected. -/
example [Target] (b : Build) : ∃ s : Delay ℝ, Delay.new b 1 1 = .ok s ∧
    (session (Delay.call b) s [.process 4, .tapIn 9 7, .setMaxDelay (usizeMod - 2), .process 5, .getMaxDelay]).2 =
      [.ok (.sample 0), .error .panic, .error .panic, .ok (.sample 4), .ok (.nat 1)] := by
  have ht := target
  obtain ⟨s, h1, h2⟩ := C113_delay_session (b := b) (T := ℝ) (d := 1) (m := 1) (by simp [FloatOps.size])
    (by unfold Allocatable; simp [FloatOps.size]; omega)
  refine ⟨s, h1, ?_⟩
  rw [h2 _ (by
    intro op hop
    simp only [List.mem_cons, List.not_mem_nil, or_false] at hop
    rcases hop with rfl | rfl | rfl | rfl | rfl
    · trivial
    · show 7 < usizeMod; omega
    · exact ⟨by omega, .inr (by omega)⟩
    · trivial
    · trivial)]
  have ha : ¬ (usizeMod - 2 < 2) := by omega
  have hb : ¬ ((usizeMod - 2 + 1) * size ℝ ≤ isizeMax) := by simp [FloatOps.size]; omega
  have hc : ¬ (usizeMod ≤ 7 + 1) := by omega
  simp [SeamLine.session, SeamLine.call, SeamLine.step, SeamLine.new, SeamLine.tap?, tapOf, List.replicate, ha, hb, hc]

end Examples

section HalfDone
variable {T : Type} [FloatOps T]

/-- **C113**, `Delay`, the one exception, in release builds: after `set_max_delay(usize::MAX)`, which truncates the line to nothing,
`set_delay(1)` and a new `set_max_delay(0)`, every `process` panics with its sample already stored. The four calls return. -/
theorem C113_delay_half_done [Target] (hsz : size T ≤ isizeMax) : ∃ s0 s : Delay T, Delay.new ⟨false⟩ 0 0 = .ok s0 ∧
    s0.run ⟨false⟩ [.setMaxDelay (usizeMod - 1), .setDelay 1, .setMaxDelay 0] = .ok (s, [.unit, .unit, .unit]) ∧
    s.tapOut ⟨false⟩ 0 = .ok zero ∧
    ∀ x, (Delay.call ⟨false⟩ (.process x) s).2 = .error .panic ∧
      (Delay.call ⟨false⟩ (.process x) s).1.tapOut ⟨false⟩ 0 = .ok x := by
  have ht := target
  let st (mem : List T) (r d : ℕ) : Delay T := { memory := mem, output := zero, read_ptr := r, write_ptr := 0, delay := d }
  have hw : uAdd ⟨false⟩ (usizeMod - 1) 1 = .ok 0 := by
    unfold uAdd
    rw [if_neg (by omega)]
    simp [show usizeMod - 1 + 1 = usizeMod by omega]
  have hs : uSub ⟨false⟩ 0 1 = .ok (usizeMod - 1) := by
    unfold uSub
    simp [Nat.mod_eq_of_lt (show usizeMod - 1 < usizeMod by omega)]
  have h1 : Delay.new ⟨false⟩ 0 0 = .ok (st [zero] 0 0) := by
    unfold Delay.new
    rw [uAdd_ok (by omega), Res.ok_bind]
    unfold vecNew
    rw [if_pos (by simpa using hsz), Res.ok_bind]
    unfold Delay.setDelay
    simp [uSub, Res.ok_bind, st]
  have h2 : (st [zero] 0 0).setMaxDelay ⟨false⟩ (usizeMod - 1) = .ok (st [] 0 0) := by
    unfold Delay.setMaxDelay
    rw [if_neg (by simp [st]; omega), hw, Res.ok_bind]
    simp [vecResize, st, Res.ok_bind]
  have h3 : (st [] 0 0).setDelay ⟨false⟩ 1 = .ok (st [] (usizeMod - 1) 1) := by
    unfold Delay.setDelay
    simp only [st, List.length_nil, hs, Res.ok_bind]
    rw [if_neg (show ¬ 1 > usizeMod - 1 by omega), if_neg (by omega), uAdd_ok (by omega), Res.ok_bind, Nat.add_zero, hs, Res.ok_bind]
  have h4 : (st [] (usizeMod - 1) 1).setMaxDelay ⟨false⟩ 0 = .ok (st [zero] (usizeMod - 1) 1) := by
    unfold Delay.setMaxDelay
    rw [if_neg (by simp [st]), uAdd_ok (by omega), Res.ok_bind]
    unfold vecResize
    simp only [st, List.length_nil]
    rw [if_neg (by omega), if_pos (by simpa using hsz), Res.ok_bind]
    rfl
  have htap : ∀ (x : T) (r d : ℕ), (st [x] r d).tapOut ⟨false⟩ 0 = .ok x := by
    intro x r d
    unfold Delay.tapOut
    rw [tapIndex_ok (by simp [st]) (by simp [st]) (by simp [st]; omega), Res.ok_bind]
    simp [st, slot, idx]
  refine ⟨st [zero] 0 0, st [zero] (usizeMod - 1) 1, h1, ?_, htap _ _ _, fun x => ?_⟩
  · simp only [Delay.run, Delay.step, h2, h3, h4, Res.ok_bind]
  · have : Delay.call ⟨false⟩ (.process x) (st [zero] (usizeMod - 1) 1) = (st [x] (usizeMod - 1) 1, .error .panic) := by
      simp only [Delay.call, Delay.processBody, bind_apply, eval_apply, assign_apply, st,
        idxSet_ok (v := [(zero : T)]) (i := 0) (x := x) (by simp), uAdd_ok (show 0 + 1 < usizeMod by omega), List.set_cons_zero,
        List.length_singleton, uRem_ok (x := 0 + 1) (y := 1) (by omega), idx_panic (v := [x]) (i := usizeMod - 1) (by simp; omega)]
    rw [this]
    exact ⟨rfl, htap _ _ _⟩

end HalfDone

section Block
variable {σ T : Type} [Processor σ T] {b : Build} {proc : T → Body σ T}

theorem blockLoopBody_does (hp : ∀ x, (proc x).Does (fun s => Processor.process b s x)) (s : σ) (xs : List T) :
    blockLoop b s xs = (blockLoopBody proc s xs).2.map fun _ => (blockLoopBody proc s xs).1 := by
  induction xs generalizing s with
  | nil => rfl
  | cons x xs ih =>
    have h1 := hp x s
    simp only at h1
    unfold blockLoop blockLoopBody
    rw [h1]
    rcases proc x s with ⟨s1, e | y⟩
    · rfl
    · simp only [Except.map, Res.ok_bind]
      have := ih s1
      rw [this]
      rcases blockLoopBody proc s1 xs with ⟨⟨s2, ys⟩, e | u⟩ <;> rfl

omit [Processor σ T] in
theorem processBlockBody_apply (s : σ) (xs : List T) : processBlockBody proc (s, xs) =
    match (blockLoopBody proc s xs).2 with
    | .ok _ => ((blockLoopBody proc s xs).1,
        match (blockLoopBody proc s xs).1.2.getLast? with
        | some y => .ok y
        | none => .error .panic)
    | .error e => ((blockLoopBody proc s xs).1, .error e) := by
  show Body.bind (fun p => blockLoopBody proc p.1 p.2) _ (s, xs) = _
  unfold Body.bind
  simp only
  cases (blockLoopBody proc s xs).2 <;> rfl

/-- **C113**, `process_block`: the transcription that keeps the slice agrees with the model of the other properties. -/
theorem C113_block_agrees (hp : ∀ x, (proc x).Does (fun s => Processor.process b s x)) (s : σ) (xs : List T) :
    processBlock b s xs = (processBlockBody proc (s, xs)).2.map fun y =>
      ((processBlockBody proc (s, xs)).1.1, (processBlockBody proc (s, xs)).1.2, y) := by
  unfold processBlock
  rw [blockLoopBody_does hp s xs, processBlockBody_apply]
  rcases blockLoopBody proc s xs with ⟨⟨s2, ys⟩, e | u⟩
  · rfl
  · simp only [Except.map, Res.ok_bind]
    cases ys.getLast? <;> rfl

/-- **C113**, `process_block`: what a panic leaves behind. On an empty slice nothing has changed. Otherwise some sample's `process`
panicked: the samples before it have been replaced by their outputs, it and those after it are untouched, and the processor is
as that `process` call left it. -/
theorem C113_block (hp : ∀ x, (proc x).Does (fun s => Processor.process b s x)) {s : σ} {xs : List T} {e : Fault}
    (h : (processBlockBody proc (s, xs)).2 = .error e) :
    (xs = [] ∧ (processBlockBody proc (s, xs)).1 = (s, [])) ∨
    ∃ pre x post ys s1, xs = pre ++ x :: post ∧ Steps b s pre ys s1 ∧ (proc x s1).2 = .error e ∧
      (processBlockBody proc (s, xs)).1 = ((proc x s1).1, ys ++ x :: post) := by
  have key : ∀ (xs : List T) (s : σ), (blockLoopBody proc s xs).2 = .error e →
      ∃ pre x post ys s1, xs = pre ++ x :: post ∧ Steps b s pre ys s1 ∧ (proc x s1).2 = .error e ∧
        (blockLoopBody proc s xs).1 = ((proc x s1).1, ys ++ x :: post) := by
    intro xs
    induction xs with
    | nil => intro s h; cases h
    | cons x xs ih =>
      intro s h
      have h1 := hp x s
      simp only at h1
      unfold blockLoopBody at h ⊢
      cases hr : (proc x s).2 with
      | error e' =>
        simp only [hr] at h ⊢
        cases h
        exact ⟨[], x, xs, [], s, rfl, .nil s, hr, rfl⟩
      | ok y =>
        simp only [hr] at h ⊢
        obtain ⟨pre, z, post, ys, s1, k1, k2, k3, k4⟩ := ih _ h
        rw [hr] at h1
        refine ⟨x :: pre, z, post, y :: ys, s1, by rw [k1]; rfl, .cons h1 k2, k3, ?_⟩
        rw [k4]; rfl
  cases hb : (blockLoopBody proc s xs).2 with
  | error e' =>
    have hE : processBlockBody proc (s, xs) = ((blockLoopBody proc s xs).1, .error e') := by
      rw [processBlockBody_apply]
      simp only [hb]
    rw [hE] at h ⊢
    cases h
    exact .inr (key xs s hb)
  | ok u =>
    left
    have hE : processBlockBody proc (s, xs) = ((blockLoopBody proc s xs).1,
        match (blockLoopBody proc s xs).1.2.getLast? with
        | some y => .ok y
        | none => .error .panic) := by
      rw [processBlockBody_apply]
      simp only [hb]
    have hlen : ∀ (xs : List T) (s : σ), (blockLoopBody proc s xs).1.2.length = xs.length := by
      intro xs
      induction xs with
      | nil => intro s; rfl
      | cons x xs ih =>
        intro s
        unfold blockLoopBody
        cases hr : (proc x s).2 with
        | error e' => simp
        | ok y => simp [ih]
    rw [hE] at h
    cases xs with
    | nil => exact ⟨rfl, by rw [hE]; rfl⟩
    | cons x xs =>
      exfalso
      have := hlen (x :: xs) s
      revert h
      cases hg : (blockLoopBody proc s (x :: xs)).1.2.getLast? with
      | some y => simp
      | none =>
        rw [List.getLast?_eq_none_iff] at hg
        rw [hg] at this
        simp at this

end Block

section BlockExamples

/-- The hypothesis of the block theorems holds for both delay lines. -/
theorem C113_block_delay [Target] {T : Type} [FloatOps T] (b : Build) (x : T) :
    (Delay.processBody b x).Does (fun s => Processor.process b s x) := Delay.processBody_does x

theorem C113_block_linear [Target] {D T : Type} [FloatOps D] [FloatOps T] [DelayTime D T] (b : Build) (x : T) :
    (LinearDelay.processBody (D := D) b x).Does (fun s => Processor.process b s x) := LinearDelay.processBody_does x

/-- A block on a line whose read position is out of range: the slice is untouched, the first sample is in the line. -/
example [Target] {D T : Type} [FloatOps D] [FloatOps T] [DelayTime D T] (b : Build) {s : LinearDelay D T} (hi : s.WInv)
    (hp : s.nextOut b = .error .panic) (x : T) (xs : List T) :
    processBlockBody (LinearDelay.processBody b) (s, x :: xs) = ((s.pushed x, x :: xs), .error .panic) := by
  obtain ⟨hr, hd⟩ := (LinearDelay.nextOut_panic_iff hi).1 hp
  rw [processBlockBody_apply, blockLoopBody, LinearDelay.processBody_panic hi hr hd]

end BlockExamples
end Rasp
