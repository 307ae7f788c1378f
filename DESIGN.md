# Formal model of buosseph/rasp in Lean 4 — design

## 1. Shape of the model

rasp is a small generic DSP crate: every type is generic over `T: Float`. The model follows this:

* `Verif/Float/Ops.lean` — `class FloatOps T`: the operations of `num::traits::Float` / `FloatConst`
  the crate calls, **without any laws**. All of the crate's code is modelled once, over an arbitrary
  `FloatOps T` (files `Verif/Model/*.lean`).
* Theorems then come at three levels:
  1. **A: any `T` (no laws)** — "bit for bit" statements. They hold of the real `f32`/`f64` whatever their
     rounding, NaN payloads or `libm` do, as long as each operation is a function of its arguments.
  2. **I: IEEE** — `Verif/Float/Round.lean`, `Verif/Float/IEEE.lean`: floats as
     `nan | inf | fin` with signed zeros, where a finite value is a real number representable in the format
     (`Fmt`: precision `p`, exponent of the smallest number `emin`, largest exponent `emax`; `binary32` and
     `binary64` are instances) and `+ - * / sqrt`, integer casts, constants and conversions are *correctly
     rounded, ties to even*. `exp`, `cos`, `sin`, `log10`, `powf` are an arbitrary parameter `L : Libm f`
     (no accuracy assumed; each theorem names the hypothesis it needs). `Fl L` is the resulting type.
     Theorems hold for every format and library unless they name one.
  3. **R: exact arithmetic** — the instance `FloatOps ℝ`: the same code over the real numbers with the real
     `cos`, `exp`, ... Used for DSP-level facts (stability, frequency response, window identities).
     C73 and C74 connect it to level I: they bound the distance of the two runs on unbounded streams.
* `Verif/Rust/Target.lean` — the pointer width: `class Target` is a target with 64- or 32-bit `usize`/`isize`. Every
  definition and theorem that depends on it takes `[Target]`, so it holds for both.
* `Verif/Rust/Res.lean` — Rust outcomes: `Except Fault α` with faults `panic` and `diverge`; `usize`/`isize`
  arithmetic of that width with both build profiles (debug: overflow panics, release: wraps), `as` casts,
  bounds-checked indexing, `vec![z; n]`/`resize` with the capacity limit (`n * size_of T <= isize::MAX`).
* A `&mut self` method is a function returning the new state. `while` is `whileLoop`: the first iterate at which
  the condition is false, and `diverge` if there is none (no fuel, no bound); termination is a theorem (C22).

`Verif/Spec/*.lean` hold the small independent specifications: streams of calls (`Steps`, `Responds`), the shift
register, difference equations, frequency responses, analog prototypes, window shapes, error bounds. They do not
mention the model's helper functions. `Verif/Props/*.lean` hold the property theorems (`Cnn_...`), with
`example`s that meet the hypotheses; helper lemmas are in `Verif/Lemmas/*.lean`.

Every `fn` of `/repo/src` is modelled: `traits.rs` (Processor with the default `process_block`, `FloatConst`), `delay/*`,
`filter/*` with `rbj/*`, `analysis/*`, `window/*`, `util/mod.rs`. The derived impls of `Window` are in `Model/Derive.lean`. Not modelled: `#[cfg(test)]` code, doc tests.

## 2. Plan per property

| id | level | model and proof |
|----|-------|-----------------|
| C01–C03 | A | `processBlock` models the default trait method; induction over the slice, for an arbitrary `Processor` |
| C04 | A | one-step, for every type; lifted to blocks |
| C05 | A / I,R for rms | one-step for all types; the documented claim is refuted for OneZero/TwoZero |
| C06 | A | two-run equality: state after `clear` = fresh state with the same coefficients up to unobservable fields |
| C07–C11, C13–C15, C19 | A | refinement of `Delay` to a list (newest first); abstraction relation `mem[(w-1-k) mod n] = line[k]`, read offset; induction over operations |
| C12 | A | from the refinement; delay 0 refuted by witness |
| C16 | A | exact case analysis of the isize arithmetic; refutation of "is rejected" |
| C17, C18 | A | exact effect of `resize` on the abstraction relation; pre-wrap theorem; refutation after wrap |
| C20 | R | refinement of `LinearDelay` over (ℝ, ℝ) |
| C21, C22, C24 | I | rounding monotonicity: `w - d >= -fl(len)`; index bounds for sizes that are f32 values; refutation for 2^24+3 slots by computing the rounding |
| C23 | I | exactness of integer arithmetic below 2^24, `x*1 + y*0 == x` |
| C25 | R, I refutation | fractional part in [0,1); witness: tiny delay, 4096 slots |
| C26–C28 | A, I, R | case analysis of the cache flag |
| C29 | I | induction over streams with the invariant "memory finite, feedback coefficients zero"; refutation with inf |
| C30 | A | streams: the n-th output against the literal difference equation, with the code's evaluation order |
| C31, C32, C34, C48 | R | `ImplementsFrom`: a filter in any state is a difference equation with two leftover terms |
| C33 | A | two-run |
| C35 | R | factor the characteristic polynomial over ℂ, two one-pole bounds (`Lemmas/Recur.lean`) |
| C36, C37 | A | direct |
| C38–C41 | R | Jury triangle from the cookbook formulas; sinusoidal particular solution + decaying transient |
| C42–C44 | R | algebra on coefficients + uniqueness of solutions of difference equations |
| C45, C49 | A/I | setter guards, induction over call sequences |
| C46, C50 | I | rounding monotonicity, `fl(alpha*d) <= y - x`, tie-to-even argument for gain = 1 |
| C47, C51, C54 | R | closed form by induction |
| C52 | I | `abs`, `mul` sign lemmas |
| C53 | I | exactness of `x + 0*(e-x)`; `sqrt(fl(x²)) = |x|`; refutation for -1 |
| C55–C57 | A | induction over the iterator |
| C58–C61 | R (C58–C60 also I) | trigonometric identities; exactness of half-integers; first Blackman value by computing the rounding |
| C62 | I | `0/0 = NaN`, propagation |
| C63, C65, C66 | R | `Real.logb`, `rpow` |
| C64, C67 | I | guard analysis |
| C68 | I | NaN and infinity propagation through the smoothing step, from every reachable state |
| C69 | R | sinusoidal particular solution + decaying transient, from every state |
| C70, C71 | R | the cookbook polynomials against the bilinear transform; the gain as a function of `tan` |
| C72 | R | exponentially growing solutions; resonant input for poles on the unit circle |
| C73 | I against R | local rounding error of one step (`Near` calculus) pushed through the recursion with poles p, q; strong induction on finiteness |
| C74 | I against R | local rounding error; the detector step is a contraction even across its two branches |
| C75 | A | `SeamLine`, an abstract line with the effective delay and the growth seam; one simulation step per call, induction over the calls |
| C76 | A, I | case split on the maximum; the position loop on an empty line adds 0 forever |
| C77 | R, I | `SeamLinear`, C75's abstract line with weights and a pending output; the simulation is generic in the arithmetic, given a placement of the read position |
| C78 | I against R | two roundings of the position, exact fractional part, Lipschitz bound of the interpolation |
| C79 | I against R | computed `1 - cos` is zero, hence all feedforward coefficients; error bounds for the computed angle in f32 |
| C80 | I (f32) against R | rounded coefficients in closed form; the silent recursion carried out by the kernel with natural numbers (`LowRun`), a transient of 22272 steps and a cycle of 24678 steps that multiplies the state by 64; soundness of the integer run against the model |
| C81 | I against R | one silent step is `rnd (g * level)`; a decreasing sequence on the grid becomes constant; fixed points of `t ↦ rnd (g t)` are at most `tiny / (2 (1 - g))` |
| C82 | R | summability of the response, its Fourier series on the circle, Parseval; causality for the bound at every moment |
| C83 | I against R | forward errors of angle, cos, sin, numerators and quotients (`Fl.Approx`); stability margin of the exact poles and its perturbation; C73 for the recursion with the stored coefficients plus the effect of the coefficient errors |
| C84 | I against R | as C83 for Peak, LowShelf, HighShelf; relative errors carried along with a scale for each intermediate (`Near`), gain within [1/G, G]; pole margin of the shelves from their sums and products |
| C85 | I | a simulation relation between the two runs: coefficients and pointers equal, stored samples opposite; rounding to nearest even is odd, so every +, -, * preserves `Opposite` |
| C86 | R | the squared gain is a ratio of quadratic forms in cos^2(w/2) and sin^2(w/2)/tan^2(w0/2) (from C70 and the Nyquist gains); the sign of one determinant decides rising or falling; `HasGain.unique` makes the gain well defined |
| C87 | R | linear and time-invariant (C32) plus causality give the convolution; delay lines by their closed forms (C07, C19, C20, C28); commutation through the product of power series |
| C88 | R | roots of unity sum to zero; the cosine shapes are decreasing functions of the cosine |
| C89 | R, I | simulation of two runs; each rounded operation is monotone and the two branches are separated by the level; explicit counterexample at 2^p |
| C90 | A, I | simulation up to signs of zeros, whose congruence lemmas follow from those of C85; the delay lines through the contents of the line |
| C91 | R | exchanging the sides of the difference equation of C30; for the converse two streams that differ in their first sample and have the same first output |
| C92 | A, I, R | for Delay the contents of the line along the loop; for LinearDelay that process after next_out is process (C27); strong induction and a telescoping energy balance for the comb and the all-pass |
| C93 | R | all denominators turned by w are (cos w - cos w0) + i alpha sin w; cross products order the angles |
| C94 | R | the closed form solves the recurrence and C30 makes the solution unique; quadratic formula |
| C95 | R | second-order recurrences with vanishing input; induction over the chain; roots of -1 pair up to the sections; difference equations as identities of formal power series |
| C96 | I | rounding commutes with powers of two above the subnormal range, subnormal sums are exact; simulation with a relation that is void after overflow |
| C97 | I | absolute error propagated through each operation; conversions of index and size have relative errors that cancel in the quotient |
| C98 | I | rounding error of each operation; the error of an exponent becomes a relative error through exp, and back through log; the floor constant is rounded twice and compared with 1e-6 |
| C99 | I | rounding of -1/n and of exp; x*exp(-x) is bounded, so an argument with a relative error gives an absolute error of the gain; logarithm of the gain for the time constant; numbers next to 1 for saturation; induction over the stream |
| C100 | R, A | state invariants naming what each memory holds; uniqueness of the solution of the recursion; for the growth, the two terms of the recursion never have opposite signs; states agree after the setter for the rest |
| C101 | A, R, I | both states side by side; convexity of the square for RMS against peak, with the case that the level lies between the two readings; monotone rounding for the order of gains |
| C102 | R | C20 for fixed delays; f(t) + M t^2/2 and -f(t) + M t^2/2 are convex, which gives the error bound; the moving delay by an invariant on the stored history with set_delay before each step |
| C103 | R | gain profiles of C86 extended to Peak; the half tangents of the edges have product tan^2(w0/2) and difference tan(w0/2)/q, which is the sinh formula; derivative of the logarithm of 2 arctan(tan(w0/2) e^s) at 0 for the limit; 81 < (1+sqrt 2)^5 for the counterexample |
| C104 | R, I | periodicity of sin and cos; at the edges alpha is zero and the numerator a multiple of the denominator; a2^2 > a0^2 gives a pole outside, no common root with the numerator (for the shelves a common root forces slope 1/2), then C72; IEEE: classes of not finite numbers through the formulas, bounds that survive overflow for the negative radicands |
| C105 | R | the distance from the limit solves the homogeneous recurrence; if it stayed positive the ratios of successive values would fall by at least a constant at every step; with real poles p, r >= 0 the differences d satisfy d[n+1] - r d[n] >= 0 |
| C106 | R | a quadratic form in two successive values of the impulse response falls by exactly the square of the older one at each step, so the energy telescopes; output as convolution (C87), then the expectation of the double sum; non-vacuity of white noise from independent fair coins on the infinite product space |
| C107 | R | output as convolution (C87); the worst input takes the signs of the reversed impulse response; step responses of C105 decide the sign of the impulse response; HighPass is a LowPass mirrored in frequency with every other sample of the impulse response negated |
| C108 | I | per-sample rounding error plus |g| times the worst error so far contracts to a fixed bound (strong induction); loop structure from C92, interpolation error from C78, causality of the loop to truncate the input |
| C109 | I | invariant: the line holds the past samples and the write pointer is n mod (m+1) whatever the delays were; one set_delay is analysed by the lemmas of C78; just below a whole number N the spacing of f32 is over N/2^25, so a position closer to N rounds to N, wraps to slot 0 and leaves the weight N |
| C110 | R | the step is a contraction in the envelope, so N steps have a fixed point; summing the step over a period: (1-r) times the excess equals (1-a) times the deficit; closed form of the smoothed cosine; Cauchy-Schwarz; some sample in half a period is within w/2 of the crest |
| C111 | R | geometric sums of roots of unity; a cosine factor moves the spectrum; over n points three geometric sums combine to one fraction |
| C112 | I | induction over the list of stages; detectors are monotone and commute with shifts, hence nonexpansive (RMS: Minkowski); pole margins bound the peak gain |
| C113 | A (Delay, blocks), R and I (LinearDelay) | a second, statement-by-statement transcription in a monad that keeps the object on failure, proved to agree with the first; simulation of C75/C77 extended to failing calls |
| C114 | R, I | difference equations under the change of sign of odd samples; simulation whose relation alternates between equal and opposite |
| C115 | R, I | rounding commutes with powers of two above the subnormal range (C96); a common factor cancels in the quotient before rounding |
| C116 | A, R | refinement to the shift register (C08), invariant on what each tap has received so far; C13 for LinearDelay |
| C117 | I | simulation up to the sign of zero (Fl.Same) that one finite step preserves; explicit samples for the refutation |
| C118 | A | the methods not overridden are std's defaults, transcribed with their assertion |
| C119 | I | triangle inequality on C83 and C44; C112's chain of two stages on C84 and C43; C80 for the failure |
| C120 | R | C69's responses; derivative of the logarithm of the response; the phase of C93 for the integral |
| C121 | A, R, I | sums of roots of unity over one hop class; C97 and an induction over the overlapping frames for the rounding |
| C122 | R, I | comparison of two difference equations on a click; the detectors' recursion as max/min; limits of the gain profiles of C86 |
| C123 | R, I | summable differences give the periodic solution; DFT of the difference equation; Parseval; C39, C71 for the gains; C73 for rounding |
| C124 | I, A | enumeration of the numbers of a format, pigeonhole on the memory after whole periods; C73 for the distance |
| C125 | A, R, I | C92 for the lines; convex combinations of the past: the sum in the loop is kept, the energy falls by a variance; causality and truncation for gains and errors; pigeonhole for cycles |
| C126 | R, I | C124 with the periodic response of C110/C123: averages over whole periods agree up to the pointwise bound, levels by Minkowski's inequality |
| C127 | R | split the sum at the middle, closed forms of sum i z^i by induction; three geometric sums for Hann; half angles turn the polynomials in z = e^(-2ic) into sines |
| C128 | I | C92 (IEEE) with the filter as a second machine; strong induction over rounds with C78 for the line, Follows and GainAtMost for the filter; pigeonhole on the last m + 1 samples and the filter's state |
| C129 | R | one cosine: two geometric sums, multiplied out; linearity; Cauchy-Schwarz for the bound M/abs(sin c) |
| C130 | R | the closed forms of C127 and C129, reduced to c in [K pi/N, pi/2]; polynomial inequalities in sin^2 c / sin^2(pi/N), near the edge with sin(Nc) <= Nc - K pi |
| C131 | R | complex amplitudes; the distance from the limit contracts by abs(g) G per round, up to the vanishing tail of the impulse response |
| C132 | I | the spectrum is Lipschitz in the items; C97 for the items, C130 for the exact spectrum |
| C133 | R | sums of the impulse response of the poles, from its closed form where they are far apart and a first-order recursion where they are close; the eight numerators are combinations of band pass, low pass and a unit impulse |
| C134 | I | the error solves the recursion of the exact poles driven by the local errors, so it is at most their size times the sum of the impulse response of the poles (C133); feedback of the error into the local errors is absorbed by the precision hypothesis |
| C135 | R | energy norms; the kernel of a round, weighted exponentially, still contracts; power series for the loop; a real pole by the intermediate value theorem |
| C136 | A; R for telling windows apart | cases; the four-point windows are pairwise different |
| C137 | A, R, I | every line is a feedback loop of its own stream (C92); the energy in the lines changes by what goes in less what comes out; Minkowski; joint strong induction over all lines with the rounding of C108 |
| C138 | R, I | energy in the lines over D rounds: what comes out is at least what was in, and what goes in is at most (g y + c)^2; strong induction over rounds for finiteness; rounding of a running sum |
| C139 | I | multiples of 2^q below 2^(q+p) are representable; strong induction over rounds for the filters, with the state equations of C30 for Biquad2 |
| C140 | R | difference of two responses solves the equation without input; polar form; log((1+b)/(1-b)) series between 2b and 2b/(1-b^2) |
| C141 | I | step invariants (a stored value that is not finite); for the loops C92; sums of e and e-1 reach every number from (e-1)(e-2) on |
| C142 | I | relations kept by rounded sums with non-negative weights (monotone rounding), step invariants; the shifted step response dominates the step response; a monotone sequence of floats freezes |
| C143 | R | the recurrence solved backwards (resultant not 0); trigonometric parameters recovered from gains at 0 Hz and Nyquist; common factor of half-slope shelves cancelled; mirror images for HighShelf |
| C144 | A, I | a logical relation carried through every operation of Delay; triangle inequality through the common exact processor (bounds of C74, C83, C97) |
| C145 | R | spectrum of a symmetric window as a cosine sum, each term falling up to the first bin; C129/C127 at half a bin, where the cosine of the window length vanishes; sums of squares by C88 and product formulas; mean of the squared spectrum from the covariances |
| C146 | R | C70 and the derivative of tan at 0; tan x / x rises, since sin 2x < 2x |
| C147 | A, I | every checked operation either agrees or panics in debug, closed under sequencing; allocated lines stay below isize::MAX bytes, so no sum overflows; overflowing taps index out of bounds in release |
| C148 | R | expectation of finite double sums; absolutely summable double series regrouped by difference; Yule–Walker linear system with determinant (1−a2)((1+a2)²−a1²) |
| C149 | R | the step is the max (min) of two linear steps; induction on means and on second moments with vanishing cross terms; Chebyshev; first order recursion with converging input |
| C150 | I | difference to exact arithmetic sample by sample (C97), carried through the Fourier sum to C145; Minkowski for the noise |
| C151 | R | numerator times conjugate denominator of both shelves on the unit circle, whose angle avoids the negative axis; cross products order the angles |
| C152 | I | whatever depends on finitely many random floats is integrable; Minkowski and Cauchy-Schwarz carry the pointwise bounds of C74 and C83 to the means of C106, C148 and C149 |
| C153 | I | the mean square is a LeakyIntegrator on the squares, bit for bit (C101), which follows its exact twin (C74); the twin contracts towards the known response to a squared sinusoid (C110); roots compared away from zero, so the error is linear in u and not its root |
| C154 | I | C153 for the reading, C98 for the conversion, C134 and C133 for the filters, C40 and C71 for their gains; a relative error of the reading becomes decibels through log(1+e) |
| C155 | A, R, I | C116 for the program, phasors of C131 for the response, a symmetric sum equal to its conjugate for the phase, a geometric sum for averages, orthogonality for noise, an induction over the taps for the rounding |
| C156 | I, R | readings cover samples (C74), fall no faster than the release gain up to rounding, rounding is monotone, the impulse attains the suprema, C89 for scaling, C110 for sinusoids; two roundings computed for the refutation |
| C157 | A, R, I | recursions of C92, geometric series over common multiples, energy of C92, errors of C108 composed along the lists by induction |
| C158 | R, I | the derivative of the gain with respect to the edge is the spectrum of the window, which C129's formula keeps below its envelope; the envelope has an explicit antiderivative; errors of C97 and C155 |
| C159 | R, I | induction over the bands from the gain of C158; the edge pi is an impulse, weighted by the middle of the window, which is 1 (C60); errors of C97 and C155 |
| C160 | R, I | to_db and to_sample turn the gain into a power of theta/e; readings bounded as in C156, scaled as in C89, on sinusoids C110; in floats the errors of C98 through the exponent, with max(0, l - t) as one Lipschitz function so that both branches are covered |
| C161 | R, I | a smoothing step lies between its two arguments even when rounded (C50, C74); induction over the samples; exponentials of set_release (C49); C110 for sinusoids |
| C162 | R, I | induction over the list with the rising phase of C93; intermediate values and injectivity to count the frequencies; a cosine does not tend to 0; for f64 induction over the list with the error of C83 and the peak gain of C133 |
| C163 | R | induction over the list; gain ranges of C71, end gains of C39, cancelling pairs of C43, commuting convolutions of C87 |
| C164 | I | numerator and denominator of the stored coefficients have the same values, so the two memories of the transposed form stay zero; induction over the bands; finiteness from C84 |

No property is "not expressible"; what no model here exhibits is listed below.

## 3. What the proofs found in the code

Documented or expected behaviour that is false of the code (each refuted by a theorem, with the exact behaviour proved):

* `clear` of OneZero and TwoZero keeps `last_out` (C05).
* `Delay::next_out` does not predict the output at delay 0 (C12).
* Taps beyond the maximum are not always rejected (C16).
* `usize::MAX` as maximum gives an unusable empty line or an endless loop in release builds (C76).
* `set_max_delay` changes the effective delay of a fresh line and corrupts the history after wrapping (C18).
* `LinearDelay` can panic on lines longer than 2^24 slots (C24); its weights can leave [0,1], amplifying by up to the
  number of slots (C25); `next_out` changes later outputs for delays below 1, and in f32 just above 1 (C27), and survives `clear` (C28).
* One infinite or NaN sample silences a new recursive filter forever, until `clear` (C29), likewise the analysis types (C68);
  LeakyIntegrator also overflows to infinity and NaN on finite samples (C46).
* Biquad1 and Biquad2 differ when coefficients change mid-stream (C31).
* A new detector returns magnitudes, not the input (C53); attack and release lengths are time constants (C54).
* `ExactSizeIterator::len` of the windows is wrong after the first item (C56); Hamming overlaps to 1.08 (C61);
  five windows turn a one-sample slice into NaN (C62); in floats Blackman starts slightly below zero (C59).
* In f32, LowPass is silent for cutoffs up to sample_rate/26000 (C79), and HighPass and BandStop at 1 Hz, 48 kHz and
  q = 0.7071 are unstable: one sample followed by silence drives them to infinity and NaN (C80).
* After the input falls silent, OnePole, LeakyIntegrator and the detectors settle on a constant or alternating denormal number,
  not on zero, whenever their gain exceeds 1/2 (C81).
* In a feedback loop around a `Delay` with delay 0 the recursion reaches back over the whole line (C92).
* In f32 an attack of one second at 48 kHz is off by up to 1.4 percent, and lengths of 2^25 samples or more give a detector that
  never leaves zero (C99).
* Changing coefficients mid-stream is harmless for Biquad1 in the sense that each sample meets the current ones; Biquad2 mixes old and new (C100).
* With the same gains the peak detector never reads more than the RMS detector (C101).
* The module's formula for the digital bandwidth is an approximation, not an identity (C103).
* `set_coefficients` of the rbj filters accepts anything: frequencies above half of the sample rate and negative `q` give unstable
  filters, `q = 0`, slope 0, negative and too steep slopes give NaN forever (C104).
* Every rbj filter with `q` above 1/2 overshoots and rings for ever on a step (C105) and turns some input between -1 and 1 into a
  sample beyond 1, even the AllPass (C107); shelves of slope 1 always ring.
* In f32, setting a `LinearDelay` to a delay just above a whole number before every sample (a chorus at rest) gives a click once per
  turn of the buffer: the difference of two neighbouring samples times the number of slots (C109).
* A `PeakEnvDetector` whose attack is not faster than its release reads at most 0.71 of the peak of a sinusoid on average (C110).
* The windows are the symmetric ones: over `n - 1` points their spectra have the textbook zeros, over all `n` points a Hann window leaks into
  every bin but one (C111).
* Rounding errors of chains stay bounded (C112): each stage's error is multiplied by the gains of the later stages. Detectors never
  amplify a difference. The f64 crossover of two low-pass and two high-pass filters adds up to an all-pass filter within 0.00001.
* A panic of `LinearDelay::process` (a line longer than 2^24 slots) comes half-way: the sample is stored and the write position moved, the
  read position and the output are not. A caller that catches the panic and goes on meets it again at every `process` until
  `set_delay` succeeds in moving the read position back into the line (C113).
* The window iterators promise `ExactSizeIterator` but keep std's default `size_hint` of `(0, None)`: `len` of `window.take(k)`,
  `window.skip(k)`, `window.peekable()` or `samples.iter().zip(window)` panics (C118).
* In floating point `TwoPole` and `TwoZero` do not agree with `Biquad2`, only with `Biquad1` (C117).
* What is written of sizes and aliased taps holds for 32-bit targets with `usize::MAX = 2^32 - 1` in place of `2^64 - 1`: there a
  line of `f32` longer than 2^29 - 2 samples panics at its construction.

### The documentation, claim by claim

| documented | holds? | property |
|------------|--------|----------|
| `process_block` calls `process` on each sample (traits.rs:37) | yes; panics on an empty slice | C01–C03 |
| `clear` resets all memory to zero (traits.rs:46) | the past is forgotten, but `last_out` of `OneZero`, `TwoZero` keeps its value, and `LinearDelay` keeps a pending `next_out` | C05, C06, C19, C28 |
| `last_out` is the last computed output (traits.rs:49) | yes | C04 |
| taps are counted from the current input (traits.rs:58-67) | yes for taps in range; some out of range are accepted | C13–C16 |
| `delay` is clipped to `max_delay` (delay/mod.rs:27, 79, linear_delay.rs:28, 86) | yes | C10, C21 |
| `next_out` is the value of the next `tick` (delay/mod.rs:102, linear_delay.rs:120; there is no `tick`) | `Delay`: exactly if the delay is at least 1 | C12, C26, C27 |
| equations of the filters (filter/*.rs) | yes, except for the misprint in `TwoPole` | C30, C122 |
| a new filter does not alter the input (filter/*.rs) | for finite samples | C29 |
| the rbj filters implement the cookbook (rbj/mod.rs:1) | yes | C70 |
| `q = 0.7071` has no additional effect (rbj/mod.rs:5) | for the gain of `LowPass`, `HighPass` | C86, C105, C122 |
| conversion of `q` and bandwidth (rbj/mod.rs:14-15) | first formula only approximately | C103 |
| `BandPass1`: constant skirts, peak gain `q`; `BandPass2`: peak gain 0 dB (bandpass.rs:8, 74) | yes | C40, C86, C122 |
| rbj parameters are not validated (rbj/*.rs) | yes, with these consequences | C104 |
| `LeakyIntegrator` is a `OnePole` with `a1 = 1 - b0` (leaky_integrator.rs:8) | with the opposite sign of `a1` | C48, C122 |
| `alpha` outside `[0,1)` is ignored (leaky_integrator.rs:54) | yes | C45 |
| a new integrator does not alter the input (leaky_integrator.rs:23) | for finite samples whose differences do not overflow | C46, C122 |
| a new detector does not alter the input (peak_detector.rs:20, rms_detector.rs:20) | exactly without negative samples | C53, C122 |
| both lengths must be set for a detector to work (same lines) | no, one is enough | C110, C122 |
| `attack_length` is the number of samples to reach the target (lines 52, 85 of both) | no, a time constant | C54, C99 |
| lengths that are not positive are ignored (same lines) | yes, also infinite ones and NaN | C49 |
| small or non-finite samples are -120 dBFS, -120 dB or less and non-finite values are 0 (util/mod.rs:8, 23) | yes, but debug builds panic if the sign bit is set | C64, C67 |
| windows overlapping by 50% sum to a constant (window/mod.rs) | with odd sizes | C61, C121 |
| ends and `alpha` of the windows (window/mod.rs:27-39) | yes | C60, C97 |
| `apply_window` applies a window of the same size (window/mod.rs:43) | yes | C57 |

## 4. Trusted base

* Lean 4.33.0's kernel, and Mathlib as a library of kernel-checked proofs. Axioms: at most `propext`,
  `Classical.choice`, `Quot.sound`; `AXIOMS.md` (generated by `tools/axioms.py`) lists them for each theorem. No own
  axioms, no `sorry`, no `native_decide`/`bv_decide`.
* The reading of the Rust code: each definition cites file and lines. As a check, `tools/conformance/run.py` transcribes
  the crate's own unit tests onto the model, executed with Lean's `Float32` (1416 assertions, all agree). This is
  a test of the model's fidelity and no part of any proof.
* The reading of Rust/std/num semantics: IEEE-754 operations correctly rounded (Rust guarantees this for
  `+ - * / sqrt` on f32/f64 on SSE2 targets), saturating `as usize`, two's complement `isize`, `usize` of 64 or 32 bits
  (16-bit targets have no standard library and are left out; 32-bit x86 without SSE2 breaks the float assumption).
  `Lemmas/IEEE754.lean` proves that every float operation of the model, in every special case, does what the independent
  description in `Spec/IEEE754.lean` says (nearest number, ties to even, overflow threshold, infinities, signed zeros,
  comparisons on the extended real line, conversions), and `Lemmas/MachineInt.lean` that the integer operations are those of
  `BitVec usizeBits` with the two overflow behaviours, and the `Vec` operations and `while` what they should be.
  The `size_hint` and `len` of std's iterator adapters are transcribed from std's source (`Model/SizeHint.lean`, used by C118 only).
  `size_of` of a format is `(p + 11) / 8` bytes, which is 4 for binary32 and 8 for binary64.
* Hypotheses on the platform's math library, always explicit in the theorems that need them: `ExpUnit` (exp maps arguments
  with the sign bit set into [0,1]; C50, C68), `CosNaN` (cos of NaN is NaN; C62), `CosUnit` (cos stays in [-1,1]; C59 for
  Hann and Hamming), `CosZero` (cos 0 = 1; C59 for Blackman), `SmallAngle` (f32 cos and sin of angles up to 2^-12; C79, C80), `AccurateTrig` (cos and sin of angles in [-4, 4] within k units; C83, C84), `AccuratePow` (powers of ten with exponents in [-4, 4] within a relative error of k units; C84), `AccurateCos` (cos on [-20, 20] within k units; C97), `AccurateDb` (log10 and powers of ten within a relative error of k units; C98), `AccurateExp` and `RoundedExp` (exp of arguments up to zero within a relative error of k units, or correctly rounded; C99), `SinInvalid` (sin of infinities and NaN is NaN; C104). Each is shown to be satisfiable.
* Hypotheses on the format: windows need `67 <= emax`, util `7 <= p <= 53` and `-1074 <= emin`; binary32 and binary64 meet them.
* Not modelled: heap exhaustion (allocation below the capacity limit is assumed to succeed), sign and payload of computed
  NaNs (no theorem depends on them), `num::cast` failure (never fails for the casts used), performance, the
  stack, drops during unwinding, `#[cfg(test)]` code. What a panic leaves in the object is modelled in `Model/Unwind.lean` (C113),
  assuming that a failing index or `Vec::resize` changes nothing.
* Simplification: in exact arithmetic division by zero is 0 (Mathlib); theorems exclude it by their hypotheses.

## 5. Testing the theorems

`tools/mutations.py` lists realistic bugs as edits of the model, `tools/mutate.py` applies each to a scratch copy and
rebuilds. `seeded/LOG.jsonl` has one line per attempt with the theorems that failed and the theorems that were tightened
because of it.

How to read the log:

* Ids `M...` are whole builds. Every one of these mutants broke the build. `failed_directly` are the declarations with an
  error. `theorems_failed` are the listed theorems whose proof uses one of these declarations.
* That is weaker than "each of these statements is false for the mutant". Many errors are in a helper lemma whose proof
  follows the text of the definition, and such a lemma also breaks for an equivalent mutant (M010 and M011 are equivalent).
* The property numbers in `claim_broken` of M001 to M107 were assigned after the runs by reading the statements.
* Ids `S...` are checks of a statement itself: either its negation was proved for the mutant in a scratch copy, or the
  weakness was found by reading. The note of each entry says which. `built` is null where no whole build was run.
* Ids `A...` are edits made by `tools/automutate.py`: operators, constants, field names and record fields exchanged one at a time
  in every definition of the model. They ran against the state of C78, and each build stopped at the first module that fails,
  so `theorems_failed` is a lower bound, and `claim_broken` only repeats its property numbers. Edits that do not compile are
  left out. All survivors have a note; they led to `C04_lastOut_of_new`, `Lemmas/IEEE754.lean` and `Lemmas/MachineInt.lean`.
