import Verif.Lemmas.Stream
import Verif.Lemmas.Res
import Verif.Model.Filters
import Verif.Model.Rbj
import Verif.Model.Analysis
import Verif.Model.Delay
import Verif.Model.LinearDelay

/-!
# C01–C03: block processing

Stated for an arbitrary `Processor`, hence for every type of the crate, every float type and every rounding.
-/

namespace Rasp
variable {σ T : Type} [Processor σ T] {b : Build}

/-- **C01.** `process_block` returns normally with state `s'`, slice contents `ys` and value `y` iff the calls of
`process` one by one return `ys` and lead to `s'`, and `y` is the last of `ys`. -/
theorem C01_processBlock_is_steps {s s' : σ} {xs ys : List T} {y : T} :
    processBlock b s xs = .ok (s', ys, y) ↔ Steps b s xs ys s' ∧ ys.getLast? = some y := by
  unfold processBlock
  rw [Res.bind_ok]
  constructor
  · rintro ⟨⟨s1, zs⟩, h1, h2⟩
    cases hl : zs.getLast? with
    | none => simp [hl] at h2
    | some z =>
      simp only [hl, Except.ok.injEq, Prod.mk.injEq] at h2
      obtain ⟨rfl, rfl, rfl⟩ := h2
      exact ⟨blockLoop_ok_iff.1 h1, hl⟩
  · rintro ⟨h1, h2⟩
    exact ⟨(s', ys), blockLoop_ok_iff.2 h1, by simp [h2]⟩

/-- **C01**, totality: on a non-empty slice, if the one-by-one calls succeed then so does `process_block`,
with the same outputs and state; slot `i` holds the `i`-th output because the lists are equal. -/
theorem C01_processBlock_of_steps {s s' : σ} {xs ys : List T} (hne : xs ≠ [])
    (h : Steps b s xs ys s') : ∃ y, ys.getLast? = some y ∧ processBlock b s xs = .ok (s', ys, y) := by
  have hys : ys ≠ [] := by
    intro h0
    have := h.length
    rw [h0] at this
    exact hne (List.length_eq_zero_iff.1 this.symm)
  exact ⟨ys.getLast hys, List.getLast?_eq_some_getLast hys,
    C01_processBlock_is_steps.2 ⟨h, List.getLast?_eq_some_getLast hys⟩⟩

/-- **C01**, failures: on a non-empty slice `process_block` fails iff one of the one-by-one calls fails, and with
the same fault. -/
theorem C01_processBlock_fails_iff {s : σ} {xs : List T} (hne : xs ≠ []) {e : Fault} :
    processBlock b s xs = .error e ↔
      ∃ pre x post ys s1, xs = pre ++ x :: post ∧ Steps b s pre ys s1 ∧
        Processor.process b s1 x = .error e := by
  rw [← blockLoop_error_iff]
  cases h : blockLoop b s xs with
  | error e' => simp [processBlock, h]
  | ok r =>
    obtain ⟨s', ys⟩ := r
    obtain ⟨y, -, hy⟩ := C01_processBlock_of_steps hne (blockLoop_ok_iff.1 h)
    simp [hy]

/-- **C02.** Cutting a stream into non-empty blocks at any positions is the same as one block: same samples, same
final state. -/
theorem C02_partition {s s' : σ} {bs : List (List T)} (hne : bs ≠ []) (hbs : ∀ xs ∈ bs, xs ≠ []) {zs : List T} :
    (∃ cs, Blocks b s bs cs s' ∧ cs.flatten = zs) ↔ ∃ y, processBlock b s bs.flatten = .ok (s', zs, y) := by
  have key : ∀ (bs : List (List T)) (s : σ) (zs : List T), (∀ xs ∈ bs, xs ≠ []) →
      ((∃ cs, Blocks b s bs cs s' ∧ cs.flatten = zs) ↔ Steps b s bs.flatten zs s') := by
    intro bs
    induction bs with
    | nil =>
      intro s zs _
      constructor
      · rintro ⟨cs, h, rfl⟩; cases h; exact .nil _
      · intro h
        simp only [List.flatten_nil] at h
        cases h; exact ⟨[], .nil _, rfl⟩
    | cons xs bs ih =>
      intro s zs hb
      have hb' : ∀ xs ∈ bs, xs ≠ [] := fun x hx => hb x (List.mem_cons_of_mem _ hx)
      constructor
      · rintro ⟨cs, h, rfl⟩
        cases h with
        | cons h t =>
          exact (C01_processBlock_is_steps.1 h).1.append ((ih _ _ hb').1 ⟨_, t, rfl⟩)
      · intro h
        obtain ⟨ys, ys', s1, rfl, h1, h2⟩ := Steps.split (by simpa using h)
        obtain ⟨cs, hc, rfl⟩ := (ih _ _ hb').2 h2
        obtain ⟨y, -, hy⟩ := C01_processBlock_of_steps (hb xs (by simp)) h1
        exact ⟨ys :: cs, .cons hy hc, rfl⟩
  rw [key bs s zs hbs]
  have hfl : bs.flatten ≠ [] := by
    cases bs with
    | nil => exact absurd rfl hne
    | cons x xs =>
      have := hbs x (by simp)
      simp [this]
  constructor
  · intro h
    obtain ⟨y, -, hy⟩ := C01_processBlock_of_steps hfl h
    exact ⟨y, hy⟩
  · rintro ⟨y, hy⟩
    exact (C01_processBlock_is_steps.1 hy).1

/-- **C02**, block shapes: each block keeps its length. -/
theorem C02_block_lengths {s s' : σ} {bs cs : List (List T)} (h : Blocks b s bs cs s') :
    cs.map List.length = bs.map List.length := by
  induction h with
  | nil => rfl
  | cons h _ ih => simp [ih, (C01_processBlock_is_steps.1 h).1.length]

/-- **C03.** An empty slice makes `process_block` panic, for every processor in every state. -/
theorem C03_empty_panics (s : σ) : processBlock b s ([] : List T) = .error .panic := rfl

/-- **C03.** A processor whose `process` never panics never panics on a non-empty slice. -/
theorem C03_nonempty_ok (h : NeverPanics σ) (s : σ) {xs : List T} (hne : xs ≠ []) :
    ∃ r, processBlock b s xs = .ok r := by
  cases hr : processBlock b s xs with
  | ok r => exact ⟨r, rfl⟩
  | error e =>
    obtain ⟨_, x, _, _, s1, _, _, he⟩ := (C01_processBlock_fails_iff hne).1 hr
    obtain ⟨s', y, hp⟩ := h b s1 x
    rw [hp] at he; simp at he

/-- **C03.** No filter and no analyser ever panics in `process`, over any float type. -/
theorem C03_filters_and_analysers_never_panic (T : Type) [FloatOps T] :
    NeverPanics (OnePole T) ∧ NeverPanics (OneZero T) ∧ NeverPanics (TwoPole T) ∧ NeverPanics (TwoZero T) ∧
    NeverPanics (Biquad1 T) ∧ NeverPanics (Biquad2 T) ∧
    NeverPanics (LowPass T) ∧ NeverPanics (HighPass T) ∧ NeverPanics (BandPass1 T) ∧ NeverPanics (BandPass2 T) ∧
    NeverPanics (BandStop T) ∧ NeverPanics (AllPass T) ∧ NeverPanics (Peak T) ∧ NeverPanics (LowShelf T) ∧
    NeverPanics (HighShelf T) ∧
    NeverPanics (LeakyIntegrator T) ∧ NeverPanics (PeakEnvDetector T) ∧ NeverPanics (RmsEnvDetector T) := by
  refine ⟨?_, ?_, ?_, ?_, ?_, ?_, ?_, ?_, ?_, ?_, ?_, ?_, ?_, ?_, ?_, ?_, ?_, ?_⟩ <;>
    exact fun _ _ _ => ⟨_, _, rfl⟩

/-! Non-vacuity. -/

/-- A two-block partition meets the hypotheses of `C02_partition`, and the run exists (OneZero over ℝ). -/
example : ∃ (bs : List (List ℝ)), bs ≠ [] ∧ (∀ xs ∈ bs, xs ≠ []) ∧ bs.length = 2 ∧
    ∃ r, processBlock ⟨true⟩ (OneZero.new : OneZero ℝ) bs.flatten = .ok r :=
  ⟨[[1, 2], [3]], by simp, by simp, rfl,
    C03_nonempty_ok (C03_filters_and_analysers_never_panic ℝ).2.1 _ (by simp)⟩

/-- A failing run, as in `C01_processBlock_fails_iff`: a `Delay` without memory (reachable in a release build by
`Delay::new(_, usize::MAX)`). -/
example [Target] : processBlock ⟨false⟩ ({ memory := [], output := 0, read_ptr := 0, write_ptr := 0, delay := 0 } : Delay ℝ)
    [1] = .error .panic := rfl

end Rasp
