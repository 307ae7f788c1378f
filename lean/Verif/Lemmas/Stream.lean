import Verif.Spec.Stream

/-! # Lemmas about streams of `process` calls -/

namespace Rasp
variable {σ T : Type} [Processor σ T] {b : Build}

theorem Steps.length {s s' : σ} {xs ys : List T} (h : Steps b s xs ys s') : ys.length = xs.length := by
  induction h with
  | nil => rfl
  | cons _ _ ih => simp [ih]

theorem blockLoop_ok_iff {s s' : σ} {xs ys : List T} :
    blockLoop b s xs = .ok (s', ys) ↔ Steps b s xs ys s' := by
  induction xs generalizing s ys with
  | nil =>
    constructor
    · intro h
      simp only [blockLoop, Except.ok.injEq, Prod.mk.injEq] at h
      obtain ⟨rfl, rfl⟩ := h
      exact .nil _
    · rintro ⟨⟩; rfl
  | cons x xs ih =>
    constructor
    · intro h
      simp only [blockLoop, bind, Except.bind] at h
      cases hp : Processor.process b s x with
      | error e => rw [hp] at h; simp at h
      | ok r =>
        obtain ⟨s1, y⟩ := r
        rw [hp] at h
        simp only at h
        cases hl : blockLoop b s1 xs with
        | error e => rw [hl] at h; simp at h
        | ok r2 =>
          obtain ⟨s2, ys2⟩ := r2
          rw [hl] at h
          simp only [Except.ok.injEq, Prod.mk.injEq] at h
          obtain ⟨rfl, rfl⟩ := h
          exact .cons hp (ih.1 hl)
    · intro h
      cases h with
      | cons hp t =>
        simp only [blockLoop, bind, Except.bind, hp, ih.2 t]

theorem blockLoop_error_iff {s : σ} {xs : List T} {e : Fault} :
    blockLoop b s xs = .error e ↔
      ∃ pre x post ys s1, xs = pre ++ x :: post ∧ Steps b s pre ys s1 ∧
        Processor.process b s1 x = .error e := by
  induction xs generalizing s with
  | nil => simp [blockLoop]
  | cons x xs ih =>
    simp only [blockLoop, bind, Except.bind]
    cases hp : Processor.process b s x with
    | error e' =>
      simp only [Except.error.injEq]
      constructor
      · rintro rfl; exact ⟨[], x, xs, [], s, rfl, .nil _, hp⟩
      · rintro ⟨pre, x', post, ys, s1, hx, hs, he⟩
        cases hs with
        | nil => simp at hx; rw [← hx.1, hp] at he; simpa using he
        | cons h1 t => simp at hx; rw [← hx.1, hp] at h1; simp at h1
    | ok r =>
      obtain ⟨s1, y⟩ := r
      have key : (blockLoop b s1 xs >>= fun v => (.ok (v.1, y :: v.2) : Res (σ × List T))) = .error e ↔
          blockLoop b s1 xs = .error e := by
        cases blockLoop b s1 xs <;> simp [bind, Except.bind]
      refine Iff.trans (show _ ↔ blockLoop b s1 xs = .error e from key) ?_
      rw [ih]
      constructor
      · rintro ⟨pre, x', post, ys, s2, rfl, hs, he⟩
        exact ⟨x :: pre, x', post, y :: ys, s2, rfl, .cons hp hs, he⟩
      · rintro ⟨pre, x', post, ys, s2, hx, hs, he⟩
        cases hs with
        | nil => simp at hx; rw [← hx.1, hp] at he; simp at he
        | cons h1 t =>
          simp at hx
          obtain ⟨rfl, rfl⟩ := hx
          rw [hp] at h1
          simp only [Except.ok.injEq, Prod.mk.injEq] at h1
          obtain ⟨rfl, rfl⟩ := h1
          exact ⟨_, x', post, _, s2, rfl, t, he⟩

theorem Steps.append {s s' s'' : σ} {xs ys xs' ys' : List T} (h : Steps b s xs ys s')
    (h' : Steps b s' xs' ys' s'') : Steps b s (xs ++ xs') (ys ++ ys') s'' := by
  induction h with
  | nil => exact h'
  | cons hp _ ih => exact .cons hp (ih h')

theorem Steps.split {s s'' : σ} {xs xs' zs : List T} (h : Steps b s (xs ++ xs') zs s'') :
    ∃ ys ys' s', zs = ys ++ ys' ∧ Steps b s xs ys s' ∧ Steps b s' xs' ys' s'' := by
  induction xs generalizing s zs with
  | nil => exact ⟨[], zs, s, rfl, .nil _, h⟩
  | cons x xs ih =>
    cases h with
    | cons hp t =>
      obtain ⟨ys, ys', s', rfl, h1, h2⟩ := ih t
      exact ⟨_ :: ys, ys', s', rfl, .cons hp h1, h2⟩

theorem Steps.functional {s s1 s2 : σ} {xs ys zs : List T} (h1 : Steps b s xs ys s1)
    (h2 : Steps b s xs zs s2) : ys = zs ∧ s1 = s2 := by
  induction h1 generalizing zs with
  | nil => cases h2; exact ⟨rfl, rfl⟩
  | cons hp _ ih =>
    cases h2 with
    | cons hp' t =>
      rw [hp] at hp'
      simp only [Except.ok.injEq, Prod.mk.injEq] at hp'
      obtain ⟨rfl, rfl⟩ := hp'
      obtain ⟨rfl, rfl⟩ := ih t
      exact ⟨rfl, rfl⟩

theorem Steps.last {s s' : σ} {xs ys : List T} {y : T} (h : Steps b s xs ys s')
    (hy : ys.getLast? = some y) :
    ∃ s1 x, Processor.process b s1 x = .ok (s', y) := by
  induction h with
  | nil => simp at hy
  | cons hp t ih =>
    cases t with
    | nil => simp at hy; subst hy; exact ⟨_, _, hp⟩
    | cons hp' t' => exact ih (by simpa [List.getLast?_cons_cons] using hy)

/-- Outputs are determined by the inputs. -/
theorem Responds.unique {s : σ} {x y y' : ℕ → T} (h : Responds b s x y) (h' : Responds b s x y') : y = y' := by
  obtain ⟨st, h0, hs⟩ := h
  obtain ⟨st', h0', hs'⟩ := h'
  have key : ∀ n, st n = st' n := by
    intro n
    induction n with
    | zero => rw [h0, h0']
    | succ n ih =>
      have h1 := hs n
      have h2 := hs' n
      rw [ih, h2] at h1
      simp only [Except.ok.injEq, Prod.mk.injEq] at h1
      exact h1.1.symm
  funext n
  have h1 := hs n
  have h2 := hs' n
  rw [key n, h2] at h1
  simp only [Except.ok.injEq, Prod.mk.injEq] at h1
  exact h1.2.symm

/-- A processor that never panics responds to every stream. -/
theorem NeverPanics.responds (hσ : NeverPanics σ) (b : Build) (s : σ) (x : ℕ → T) :
    ∃ y, Responds b s x y := by
  choose f g hfg using fun s x => hσ b s x
  let st : ℕ → σ := fun n => Nat.rec s (fun k r => f r (x k)) n
  exact ⟨fun n => g (st n) (x n), st, rfl, fun n => hfg _ _⟩

/-- `Responds` is the limit of `Steps` over all finite prefixes. -/
theorem responds_iff_steps {s : σ} {x y : ℕ → T} :
    Responds b s x y ↔
      ∀ n, ∃ s', Steps b s ((List.range n).map x) ((List.range n).map y) s' := by
  constructor
  · rintro ⟨st, h0, hs⟩ n
    refine ⟨st n, ?_⟩
    induction n with
    | zero => simpa [← h0] using Steps.nil (b := b) (st 0)
    | succ n ih =>
      simp only [List.range_succ, List.map_append, List.map_cons, List.map_nil]
      exact ih.append (.cons (hs n) (.nil _))
  · intro h
    choose st hst using h
    have h0 : st 0 = s := by
      have := hst 0
      simp only [List.range_zero, List.map_nil] at this
      cases this; rfl
    refine ⟨st, h0, fun n => ?_⟩
    have h1 := hst (n + 1)
    simp only [List.range_succ, List.map_append, List.map_cons, List.map_nil] at h1
    obtain ⟨ys, ys', s', hy, h2, h3⟩ := h1.split
    obtain ⟨rfl, rfl⟩ := (hst n).functional h2
    have hy' := List.append_cancel_left hy
    subst hy'
    cases h3 with
    | cons hp t => cases t; exact hp

/-- Two runs stay related when one step keeps them related. -/
theorem Responds.transfer {τ : Type} [Processor τ T] {b : Build} (R : σ → τ → Prop)
    (hR : ∀ s t x s' y, R s t → Processor.process b s x = .ok (s', y) →
      ∃ t', Processor.process b t x = .ok (t', y) ∧ R s' t')
    {s : σ} {t : τ} (h0 : R s t) {x y : ℕ → T} (h : Responds b s x y) : Responds b t x y := by
  obtain ⟨st, hst0, hst⟩ := h
  choose! f hf using hR
  let tt : ℕ → τ := fun n => Nat.rec t (fun k r => f (st k) r (x k) (st (k + 1)) (y k)) n
  have key : ∀ n, R (st n) (tt n) := by
    intro n
    induction n with
    | zero => rw [hst0]; exact h0
    | succ n ih => exact (hf _ _ _ _ _ ih (hst n)).2
  exact ⟨tt, rfl, fun n => (hf _ _ _ _ _ (key n) (hst n)).1⟩

theorem SameFuture.of_eq {s t : σ} (h : s = t) : SameFuture s t := by
  subst h; intro b x y; rfl

/-- Two states with the same one-step behaviour have the same future. -/
theorem SameFuture.of_step {s t : σ}
    (h : ∀ b x, Processor.process b s x = Processor.process b t x) : SameFuture s t := by
  have aux : ∀ s t : σ, (∀ b x, Processor.process b s x = Processor.process b t x) →
      ∀ b (x y : ℕ → T), Responds b s x y → Responds b t x y := by
    intro s t h b x y ⟨st, h0, hs⟩
    refine ⟨fun n => if n = 0 then t else st n, by simp, fun n => ?_⟩
    cases n with
    | zero => have := hs 0; rw [h0, h] at this; simpa using this
    | succ n => simpa using hs (n + 1)
  exact fun b x y => ⟨aux s t h b x y, aux t s (fun b x => (h b x).symm) b x y⟩

end Rasp

namespace Rasp
variable {σ T : Type} [Processor σ T] {b : Build}

/-- To show `Responds`, exhibit an indexed invariant under which each step succeeds with the wanted output. -/
theorem responds_of_inv {s : σ} {x y : ℕ → T} (P : ℕ → σ → Prop) (h0 : P 0 s)
    (hP : ∀ n s, P n s → ∃ s', Processor.process b s (x n) = .ok (s', y n) ∧ P (n + 1) s') :
    Responds b s x y := by
  choose! f hf using hP
  let st : ℕ → σ := fun n => Nat.rec s (fun k r => f k r) n
  have key : ∀ n, P n (st n) := by
    intro n
    induction n with
    | zero => exact h0
    | succ n ih => exact (hf n _ ih).2
  exact ⟨st, rfl, fun n => (hf n _ (key n)).1⟩

end Rasp
