{"id": "C01", "title": "process_block is sample-by-sample process", "statement": "For every processor, calling process_block on a non-empty slice leaves in slot i exactly what the i-th call of process would have returned, returns the last of these, and leaves the processor in the same state as the same calls of process one by one.", "quantifier": "every Processor implementation, every processor state, every non-empty slice of any length", "why_tests_cant": "slices are unbounded and the processor state is arbitrary; a test only runs a few short blocks", "anchors": ["src/traits.rs: Processor::process_block"]}
{"id": "C02", "title": "Block boundaries are inaudible", "statement": "Cutting a sample stream into blocks at any positions (all blocks non-empty) gives the same samples and the same final state as processing it as one block.", "quantifier": "every Processor, every state, every partition of every stream into non-empty blocks", "why_tests_cant": "the number of partitions is exponential in the stream length", "anchors": ["src/traits.rs: Processor::process_block"]}
{"id": "C03", "title": "process_block panics on an empty slice, and only there for filters and analysers", "statement": "process_block on an empty slice panics; on a non-empty slice the filters and analysers never panic.", "quantifier": "every Processor and state; every slice", "why_tests_cant": "absence of panics must hold for every state and block", "anchors": ["src/traits.rs: Processor::process_block"]}
{"id": "C04", "title": "last_out reports the most recent output", "statement": "Immediately after process returned y (or process_block whose last sample became y), last_out returns y, bit for bit, for every filter, delay line and analyser. Of a new object it returns zero.", "quantifier": "every Processor type, every state, every sample value including NaN and infinities, every float width", "why_tests_cant": "a test compares a few samples with a tolerance; the claim is bitwise and for all states", "anchors": ["src/traits.rs: Processor::last_out", "src/filter/*.rs: last_out", "src/analysis/*.rs: last_out", "src/delay/mod.rs: last_out", "src/delay/linear_delay.rs: last_out"]}
{"id": "C05", "title": "What clear does to last_out", "statement": "After clear, last_out returns zero for every processor type except OneZero and TwoZero. For these two it keeps its old value, so the documented 'Resets memory of all previous input and output to zero' is false for them.", "quantifier": "every Processor type and every reachable state", "why_tests_cant": "depends on the whole previous history", "anchors": ["src/traits.rs: Processor::clear", "src/filter/one_zero.rs: clear", "src/filter/two_zero.rs: clear"]}
{"id": "C06", "title": "clear forgets the past of a filter or analyser", "statement": "After clear, every later output equals the output of a freshly created object with the same coefficients or gains, whatever was processed before, including NaN and infinities; coefficients and gains survive clear.", "quantifier": "every filter and analyser type, every prior state, every later input stream, every float width", "why_tests_cant": "both the prior history and the later stream are unbounded", "anchors": ["src/traits.rs: Processor::clear", "src/filter/*.rs: clear", "src/filter/rbj/*.rs: clear", "src/analysis/*.rs: clear"]}
{"id": "C07", "title": "Delay is a pure integer delay", "statement": "A new Delay with delay d and maximum m outputs, for the n-th processed sample, the input from min(d,m) samples earlier, and zero while fewer samples have been seen.", "quantifier": "every d, m with m+1 allocatable, every input stream of any length (many times longer than the buffer)", "why_tests_cant": "wrap-around of the ring depends on stream length modulo m+1; no finite test covers all", "anchors": ["src/delay/mod.rs: Delay::new", "src/delay/mod.rs: process"]}
{"id": "C08", "title": "Delay refines an abstract shift register", "statement": "Under any sequence of process, set_delay, next_out, tap_out, tap_in, add_to, clear, last_out and get_delay, every returned value is that of a list of the last max_delay+1 samples (newest first): process pushes at the front and reads entry delay, taps address entry k.", "quantifier": "every operation sequence and every argument in range", "why_tests_cant": "histories are unbounded and the hidden pointers take every combination", "anchors": ["src/delay/mod.rs: Delay"]}
{"id": "C09", "title": "Delay never indexes out of bounds", "statement": "No call of new, set_delay, set_max_delay, get_*, process, process_block (non-empty), next_out, clear, or of a tap with tap_delay <= get_max_delay panics or overflows, in debug and in release builds, in any reachable state (given that the buffer can be allocated).", "quantifier": "every history of public calls, both overflow-check profiles", "why_tests_cant": "panic freedom is a property of all reachable states", "anchors": ["src/delay/mod.rs: Delay", "src/delay/mod.rs: TappableDelayLine for Delay"]}
{"id": "C10", "title": "Delay length is clipped to the maximum", "statement": "After new(d,m) or set_delay(d), get_delay returns min(d, get_max_delay()); after new(d,m), get_max_delay returns m; get_delay <= get_max_delay always.", "quantifier": "every d and m, every reachable state", "why_tests_cant": "all values of two unbounded arguments and all histories", "anchors": ["src/delay/mod.rs: Delay::new", "src/delay/mod.rs: Delay::set_delay", "src/delay/mod.rs: Delay::get_delay", "src/delay/mod.rs: Delay::get_max_delay"]}
{"id": "C11", "title": "set_delay only moves the read position", "statement": "set_delay changes no stored sample: every tap reads the same before and after, and the next outputs are the stored inputs at the new distance immediately, so that raising the delay replays older samples still in the line.", "quantifier": "every reachable state and every new delay", "why_tests_cant": "requires every previous history and every new delay", "anchors": ["src/delay/mod.rs: Delay::set_delay", "src/delay/mod.rs: process"]}
{"id": "C12", "title": "Delay::next_out predicts the next output exactly when the delay is at least 1", "statement": "With a current delay of at least 1, next_out returns the value that the next process call will return, whatever its sample. With delay 0, process returns its own argument and next_out the oldest stored sample, so the documented prediction is false there.", "quantifier": "every reachable state and every next sample", "why_tests_cant": "all states and all next inputs", "anchors": ["src/delay/mod.rs: Delay::next_out", "src/delay/mod.rs: process"]}
{"id": "C13", "title": "tap_out reads the k-th most recent sample", "statement": "After processing a stream in a new delay line, tap_out(k) returns the sample processed k steps before the latest, or zero if there is none, for all k <= get_max_delay, independently of the delay setting.", "quantifier": "every stream, every k up to the maximum, every delay setting, Delay and LinearDelay", "why_tests_cant": "wrap-around positions and k range over all values", "anchors": ["src/delay/mod.rs: tap_out", "src/delay/linear_delay.rs: tap_out"]}
{"id": "C14", "title": "tap_in writes exactly one tap", "statement": "After tap_in(v,k) with k <= get_max_delay, tap_out(k) is v and every other tap is unchanged; get_delay and last_out are unchanged.", "quantifier": "every reachable state, v, k, and every other tap j", "why_tests_cant": "frame condition over all other taps and states", "anchors": ["src/delay/mod.rs: tap_in", "src/delay/linear_delay.rs: tap_in"]}
{"id": "C15", "title": "add_to adds to exactly one tap and returns the sum", "statement": "add_to(v,k) with k <= get_max_delay returns old tap_out(k) + v, stores that value at tap k and changes no other tap.", "quantifier": "every reachable state, v, k", "why_tests_cant": "frame condition over all taps and states", "anchors": ["src/delay/mod.rs: add_to", "src/delay/linear_delay.rs: add_to"]}
{"id": "C16", "title": "Out-of-range taps are not always rejected", "statement": "With write position w and n = max_delay+1, a tap with tap_delay in [n, n+w-1] silently aliases tap tap_delay-n, a tap_delay near usize::MAX silently addresses the oldest samples and only the remaining values panic. This holds for tap_out, tap_in and add_to alike, so the expected rejection of every tap_delay > get_max_delay is false.", "quantifier": "every reachable state and every usize tap_delay, both overflow profiles", "why_tests_cant": "the outcome depends on the hidden write position, i.e. on the history length modulo the buffer size, and on wrap-around at the width of usize", "anchors": ["src/delay/mod.rs: tap_out, tap_in, add_to", "src/delay/linear_delay.rs: tap_out, tap_in, add_to"]}
{"id": "C17", "title": "Changing the maximum never shrinks the line", "statement": "set_max_delay(m) makes get_max_delay equal to max(m, old maximum), and leaves get_delay and last_out unchanged; when m <= old maximum it changes nothing.", "quantifier": "every reachable state and every m with m+1 allocatable", "why_tests_cant": "all states and all arguments", "anchors": ["src/delay/mod.rs: Delay::set_max_delay", "src/delay/linear_delay.rs: LinearDelay::set_max_delay"]}
{"id": "C18", "title": "When growing a delay line does not disturb the stream", "statement": "If at least get_delay() and at most the old max_delay samples have been processed since creation, then after set_max_delay the line keeps delaying by get_delay() samples and keeps its history. Otherwise this is false: raising the maximum of a fresh line from m to m' makes it delay by get_delay() + m' - m, and after wrapping zeros are spliced into the history at the write position.", "quantifier": "every stream before the change, every new maximum, every stream after it", "why_tests_cant": "depends on the position of the wrap relative to the resize", "anchors": ["src/delay/mod.rs: Delay::set_max_delay", "src/delay/linear_delay.rs: LinearDelay::set_max_delay"]}
{"id": "C19", "title": "clear empties a Delay but keeps its configuration", "statement": "After clear a Delay outputs zeros until get_delay() new samples have been processed and then exactly these, like a new Delay with the same delay and maximum; get_delay and get_max_delay are unchanged.", "quantifier": "every history of process/set_delay/taps/clear on a new line (no growth) before the clear and every stream after it", "why_tests_cant": "unbounded histories on both sides", "anchors": ["src/delay/mod.rs: clear"]}
{"id": "C20", "title": "LinearDelay interpolates linearly", "statement": "In exact arithmetic, a LinearDelay with delay d = n + f (0 <= f < 1) outputs (1-f)*x[t-n] + f*x[t-n-1], with zeros before the start of the stream.", "quantifier": "every real d in [0,max], every stream", "why_tests_cant": "all fractional delays and all stream lengths including every wrap position", "anchors": ["src/delay/linear_delay.rs: LinearDelay::set_delay", "src/delay/linear_delay.rs: next_out", "src/delay/linear_delay.rs: process"]}
{"id": "C21", "title": "LinearDelay delay time is clipped", "statement": "After new(d,m) or set_delay(d), get_delay is d clipped to [0, max_delay as f32], for every f32 d including infinities. (For NaN it stays NaN: then every output is NaN.)", "quantifier": "every f32 value, every reachable state", "why_tests_cant": "2^32 values times all states, including NaN and infinities", "anchors": ["src/delay/linear_delay.rs: LinearDelay::new", "src/delay/linear_delay.rs: LinearDelay::set_delay", "src/delay/linear_delay.rs: get_delay"]}
{"id": "C22", "title": "LinearDelay::set_delay terminates", "statement": "The pointer-normalising loop of set_delay runs at most once, for every f32 argument including NaN and infinities, and for every buffer size.", "quantifier": "every f32 argument, every buffer length, every write position", "why_tests_cant": "termination over all float inputs with rounding cannot be sampled", "anchors": ["src/delay/linear_delay.rs: LinearDelay::set_delay"]}
{"id": "C23", "title": "LinearDelay with an integer delay agrees with Delay", "statement": "In f32/f64 arithmetic, for buffers of at most 2^24 samples and integer delays, a LinearDelay fed finite samples returns outputs equal (==) to those of a Delay with the same delay.", "quantifier": "every integer delay, every buffer up to 2^24 samples, every stream of finite samples of any length", "why_tests_cant": "joint behaviour of two stateful objects over unbounded streams with float rounding", "anchors": ["src/delay/linear_delay.rs: LinearDelay", "src/delay/mod.rs: Delay"]}
{"id": "C24", "title": "LinearDelay never indexes out of bounds if its size is an f32 value", "statement": "If the number of slots is an f32 value (in particular up to 2^24), no sequence of set_delay (any f32, including NaN), process, next_out, clear and in-range taps panics. Without this condition it is false: a new line with 2^24+3 slots and a delay between 0 and 1 panics on its first process.", "quantifier": "every history of calls, every f32 delay, every buffer size", "why_tests_cant": "needs buffers of tens of millions of samples and every write position", "anchors": ["src/delay/linear_delay.rs: LinearDelay::set_delay", "src/delay/linear_delay.rs: next_out"]}
{"id": "C25", "title": "Interpolation weights are a convex combination in exact arithmetic only", "statement": "In exact arithmetic the two interpolation weights are in [0,1] and sum to 1, so the output never overshoots the stored samples. In f32 this is false: when write_ptr - delay + len rounds up to len the weights become len and 1-len, e.g. delay 1e-10 on a new 4096-slot line amplifies by -4095.", "quantifier": "every delay, every write position, every buffer size, with f32 rounding", "why_tests_cant": "the failing inputs are a thin set that sampling misses", "anchors": ["src/delay/linear_delay.rs: LinearDelay::set_delay"]}
{"id": "C26", "title": "LinearDelay::next_out announces the next output", "statement": "If next_out returned v and nothing else is called in between, the next process returns v, and repeated next_out calls return v again.", "quantifier": "every state and every next sample", "why_tests_cant": "all states and all next inputs", "anchors": ["src/delay/linear_delay.rs: next_out", "src/delay/linear_delay.rs: process"]}
{"id": "C27", "title": "When LinearDelay::next_out is only an observation", "statement": "With a delay of at least 1 in exact arithmetic, and with a delay of at least 2 in f32/f64 on lines of at most 2^24 slots (bit for bit, for all samples), calling next_out does not change later outputs; with delay exactly 1 in f32/f64 and finite samples it changes at most the sign of a zero. It is false for delays below 1 (the cached value ignores the newest sample) and in f32 just above 1: with delay 1+2^-23 on a line of 2^k slots a sample 1 may give the output 2^k, but 0 after next_out.", "quantifier": "every reachable state, every delay, every later stream", "why_tests_cant": "two-run property over all states", "anchors": ["src/delay/linear_delay.rs: next_out", "src/delay/linear_delay.rs: process"]}
{"id": "C28", "title": "clear empties a LinearDelay without a pending next_out", "statement": "If no next_out is pending, then after clear the outputs no longer depend on samples processed before: two runs of the same calls with different samples continue identically after clear, in any arithmetic and for any later calls, and in exact arithmetic the outputs are the interpolation of the new samples alone. After next_out this is false: the cached value survives clear and set_delay and is output by the next process.", "quantifier": "every state, every later stream", "why_tests_cant": "two-run property over all states", "anchors": ["src/delay/linear_delay.rs: clear", "src/delay/linear_delay.rs: next_out", "src/delay/linear_delay.rs: set_delay"]}
{"id": "C29", "title": "A new filter passes finite samples through", "statement": "A newly created OnePole, OneZero, TwoPole, TwoZero, Biquad1, Biquad2 (and every new rbj filter) returns each input sample unchanged, exactly in IEEE f32/f64 (up to the sign of zero), for all streams of finite samples. Once an infinity or NaN was processed all later outputs of the recursive types are NaN, while OneZero returns NaN for one further sample and TwoZero for two.", "quantifier": "every stream of finite samples of any length, both float widths", "why_tests_cant": "stream length and all float values", "anchors": ["src/filter/*.rs: new, process", "src/filter/rbj/*.rs: new, process"]}
{"id": "C30", "title": "Filters implement their documented difference equations", "statement": "For each filter type, the output stream from a fresh or cleared filter with given coefficients is the solution of its difference equation with zero initial conditions: y[n] = b0 x[n] + b1 x[n-1] + b2 x[n-2] - a1 y[n-1] - a2 y[n-2] with the coefficients the type has.", "quantifier": "every coefficient choice, every stream, every n", "why_tests_cant": "all coefficients and unbounded streams", "anchors": ["src/filter/one_pole.rs: process", "src/filter/one_zero.rs: process", "src/filter/two_pole.rs: process", "src/filter/two_zero.rs: process", "src/filter/biquad.rs: process"]}
{"id": "C31", "title": "Direct form I and transposed direct form II agree", "statement": "With the same constant coefficients, Biquad1 and Biquad2 return the same outputs for the same inputs in exact arithmetic. If coefficients change mid-stream without clear this is false.", "quantifier": "every coefficient choice and every stream", "why_tests_cant": "all coefficients and unbounded streams", "anchors": ["src/filter/biquad.rs: Biquad1, Biquad2"]}
{"id": "C32", "title": "Filters are linear and time-invariant", "statement": "In exact arithmetic, the response to a*x + b*u is a times the response to x plus b times the response to u, and prepending k zeros to the input of a fresh filter prepends k zeros to the output.", "quantifier": "every filter type, coefficients, pair of streams, scalars, delay k", "why_tests_cant": "all pairs of unbounded streams", "anchors": ["src/filter/*.rs: process"]}
{"id": "C33", "title": "Feedforward filters have finite memory", "statement": "The output of OneZero (TwoZero) depends only on the current and the last one (two) samples and the coefficients, bit for bit: older history, including NaN or infinities, has no effect.", "quantifier": "every two histories sharing the last samples, every float width", "why_tests_cant": "two-run property over all histories", "anchors": ["src/filter/one_zero.rs: process", "src/filter/two_zero.rs: process"]}
{"id": "C34", "title": "Small filters are biquads", "statement": "OnePole, OneZero, TwoPole and TwoZero return the same outputs as a biquad whose missing coefficients are zero (exact arithmetic).", "quantifier": "every coefficient choice and stream", "why_tests_cant": "all coefficients and unbounded streams", "anchors": ["src/filter/*.rs: process"]}
{"id": "C35", "title": "Stable filters stay bounded", "statement": "In exact arithmetic, OnePole with |a1|<1 and TwoPole/Biquad1/Biquad2 with |a2|<1 and |a1|<1+a2 produce bounded outputs from bounded inputs, with a bound independent of the stream length, and decay to zero on zero input.", "quantifier": "every stable coefficient choice, every bounded infinite stream", "why_tests_cant": "a statement about infinite streams", "anchors": ["src/filter/one_pole.rs: process", "src/filter/two_pole.rs: process", "src/filter/biquad.rs: process"]}
{"id": "C36", "title": "set_coefficients on basic filters keeps the signal memory", "statement": "set_coefficients of the six basic filters sets exactly the given coefficients and changes neither last_out nor the stored samples; it is equivalent to assigning the public fields.", "quantifier": "every state and coefficients", "why_tests_cant": "all states", "anchors": ["src/filter/*.rs: set_coefficients"]}
{"id": "C37", "title": "rbj set_coefficients discards the signal memory", "statement": "After set_coefficients of any rbj filter, all outputs equal those of a new filter given the same parameters: neither earlier samples nor earlier parameters matter, bit for bit.", "quantifier": "every rbj type, every prior history, every parameters (also invalid ones), every later stream, every float width", "why_tests_cant": "two-run property over all histories", "anchors": ["src/filter/rbj/*.rs: set_coefficients"]}
{"id": "C38", "title": "rbj filters are stable for valid parameters", "statement": "For 0 < frequency < sample_rate/2, q > 0 (0 < shelf_slope <= 1 for shelves), any dB gain, every rbj filter maps bounded inputs to bounded outputs and its response to silence decays to zero (exact arithmetic).", "quantifier": "every parameter choice in the valid range, every bounded infinite stream", "why_tests_cant": "continuum of parameters and infinite streams", "anchors": ["src/filter/rbj/*.rs: set_coefficients"]}
{"id": "C39", "title": "rbj gains at DC and at Nyquist", "statement": "For valid parameters, a constant input c makes the output converge to g0*c and an alternating input c,-c,c,... makes it converge to gN times the input, with (g0,gN): LowPass (1,0), HighPass (0,1), BandPass1/2 (0,0), BandStop (1,1), AllPass (1,1), Peak (1,1), LowShelf (10^(dB/20),1), HighShelf (1,10^(dB/20)).", "quantifier": "every valid parameter choice, every c", "why_tests_cant": "limits of infinite streams for a continuum of parameters", "anchors": ["src/filter/rbj/*.rs: set_coefficients"]}
{"id": "C40", "title": "rbj gains at the centre frequency", "statement": "For valid parameters and a sinusoid at the centre frequency with any amplitude and phase, the output converges to: 0 for BandStop; the input for BandPass2; q times the input for BandPass1; 10^(dB/20) times the input for Peak; minus the input for AllPass; q times the quarter-period-shifted input for LowPass and HighPass.", "quantifier": "every valid parameter choice, amplitude and phase", "why_tests_cant": "limits of infinite streams for a continuum of parameters", "anchors": ["src/filter/rbj/*.rs: set_coefficients"]}
{"id": "C41", "title": "AllPass keeps the amplitude of every frequency", "statement": "For valid parameters, the AllPass steady-state response to a sinusoid of any frequency is a sinusoid of the same frequency and the same amplitude.", "quantifier": "every valid parameter choice and every input frequency, amplitude and phase", "why_tests_cant": "continuum of frequencies", "anchors": ["src/filter/rbj/allpass.rs: set_coefficients"]}
{"id": "C42", "title": "Zero-gain equalisers are transparent", "statement": "Peak, LowShelf and HighShelf with db_gain = 0 return the input unchanged (exact arithmetic).", "quantifier": "every valid frequency and q or slope, every stream", "why_tests_cant": "continuum of parameters and unbounded streams", "anchors": ["src/filter/rbj/peak.rs", "src/filter/rbj/lowshelf.rs", "src/filter/rbj/highshelf.rs"]}
{"id": "C43", "title": "Boost and cut cancel", "statement": "Feeding the output of Peak (LowShelf, HighShelf) with gain g into one with gain -g and the same other parameters restores the original signal (exact arithmetic).", "quantifier": "every valid parameter choice, every stream", "why_tests_cant": "continuum of parameters and unbounded streams", "anchors": ["src/filter/rbj/peak.rs", "src/filter/rbj/lowshelf.rs", "src/filter/rbj/highshelf.rs"]}
{"id": "C44", "title": "rbj filters with equal parameters are complementary", "statement": "With the same sample rate, frequency and q: LowPass + HighPass = BandStop, BandStop + BandPass2 = identity, BandStop - BandPass2 = AllPass, BandPass1 = q * BandPass2, sample by sample (exact arithmetic).", "quantifier": "every valid parameter choice, every stream", "why_tests_cant": "continuum of parameters and unbounded streams", "anchors": ["src/filter/rbj/*.rs: set_coefficients"]}
{"id": "C45", "title": "LeakyIntegrator alpha stays in [0,1)", "statement": "After any sequence of calls, get_alpha is in [0,1) (never NaN); set_alpha with an argument outside [0,1) or NaN changes nothing, and with one inside sets it exactly.", "quantifier": "every history of set_alpha/process/clear, every float argument", "why_tests_cant": "all float values including NaN and all histories", "anchors": ["src/analysis/leaky_integrator.rs: set_alpha, get_alpha"]}
{"id": "C46", "title": "LeakyIntegrator output lies between input and previous output", "statement": "In IEEE f32/f64 arithmetic with round-to-nearest-even, each output lies between the current input and the previous output (inclusive), for all finite values whose difference does not overflow; hence the output never leaves the interval spanned by zero and the inputs so far, and never becomes NaN.", "quantifier": "every finite state and input, both widths, every stream", "why_tests_cant": "all pairs of floats with rounding, streams of any length", "anchors": ["src/analysis/leaky_integrator.rs: process"]}
{"id": "C47", "title": "LeakyIntegrator step response", "statement": "In exact arithmetic, with constant input c, after n samples the output is c + alpha^n (y0 - c), so it converges to c monotonically.", "quantifier": "every alpha in [0,1), start value, c and n", "why_tests_cant": "infinite streams and a continuum of parameters", "anchors": ["src/analysis/leaky_integrator.rs: process"]}
{"id": "C48", "title": "LeakyIntegrator is a OnePole", "statement": "In exact arithmetic a LeakyIntegrator with gain alpha gives the same outputs as OnePole with b0 = 1 - alpha and a1 = -alpha.", "quantifier": "every alpha in [0,1) and every stream", "why_tests_cant": "unbounded streams", "anchors": ["src/analysis/leaky_integrator.rs: process", "src/filter/one_pole.rs: process"]}
{"id": "C49", "title": "Detector gain setters reject invalid lengths", "statement": "set_attack/set_release with a length that is zero, negative, NaN or infinite change nothing; with a valid one they change only their own gain, to exp(-1/length), which is in (0,1) in exact arithmetic; attack and release never affect each other or the envelope.", "quantifier": "every state and every float argument", "why_tests_cant": "all float values including NaN and infinities", "anchors": ["src/analysis/peak_detector.rs: set_attack, set_release", "src/analysis/rms_detector.rs: set_attack, set_release"]}
{"id": "C50", "title": "Envelopes stay non-negative and bounded", "statement": "In IEEE f32/f64, for input streams within [-1,1], the outputs of PeakEnvDetector and RmsEnvDetector are in [0,1] and never NaN, for any gains in [0,1] and any interleaving of gain changes; for Peak the same holds with 1 replaced by any bound with an even significand.", "quantifier": "every stream in [-1,1], every history of setter calls, both widths", "why_tests_cant": "rounding errors accumulate over unbounded streams; extreme values are rarely sampled", "anchors": ["src/analysis/peak_detector.rs: process", "src/analysis/rms_detector.rs: process"]}
{"id": "C51", "title": "Envelope follows between envelope and level", "statement": "In exact arithmetic each new envelope lies between the previous envelope and the rectified (squared) input, rising uses the attack gain and falling the release gain, and larger input magnitudes never give smaller envelopes.", "quantifier": "every pair of streams ordered in magnitude, every gains in [0,1]", "why_tests_cant": "two-run property over unbounded streams", "anchors": ["src/analysis/peak_detector.rs: process", "src/analysis/rms_detector.rs: process"]}
{"id": "C52", "title": "Detectors ignore the sign of the input", "statement": "Flipping the signs of any subset of input samples does not change any output of the Peak or RMS detector, bit for bit in IEEE arithmetic.", "quantifier": "every stream and sign pattern, both widths", "why_tests_cant": "exponentially many sign patterns", "anchors": ["src/analysis/peak_detector.rs: process", "src/analysis/rms_detector.rs: process"]}
{"id": "C53", "title": "A new detector returns magnitudes", "statement": "A detector without attack and release set returns the magnitude |x| of each finite sample (for RMS: if its square neither overflows nor underflows). So the documented claim that it returns the input unchanged is false for negative samples.", "quantifier": "every stream of finite samples", "why_tests_cant": "all float values and histories", "anchors": ["src/analysis/peak_detector.rs: new", "src/analysis/rms_detector.rs: new"]}
{"id": "C54", "title": "Attack and release times are time constants", "statement": "In exact arithmetic the distance to a constant target shrinks by exactly exp(-n/length) after n samples: after attack_length (release_length) samples a fraction 1-1/e of the way is covered and the target is never reached. So the documented meaning of the lengths, the number of samples to reach the target, is false.", "quantifier": "every length, start level, target and n", "why_tests_cant": "infinite streams and a continuum of parameters", "anchors": ["src/analysis/peak_detector.rs: set_attack, set_release, process", "src/analysis/rms_detector.rs: set_attack, set_release, process"]}
{"id": "C55", "title": "Window iterators yield exactly size items", "statement": "Each window iterator created with size n yields exactly n items and afterwards None forever, never panicking, including n = 0.", "quantifier": "every n, every window type, every number of further calls", "why_tests_cant": "all sizes and any number of next calls", "anchors": ["src/window/*.rs: Iterator::next"]}
{"id": "C56", "title": "Window iterator len is always the full size", "statement": "ExactSizeIterator::len returns the full size at all times. So the required number of items still to come is only right before the first next.", "quantifier": "every n and every number of items already taken", "why_tests_cant": "all sizes and positions", "anchors": ["src/window/*.rs: ExactSizeIterator::len"]}
{"id": "C57", "title": "apply_window multiplies pointwise", "statement": "apply_window keeps the slice length, never panics, multiplies sample i by the i-th item of the window iterator of the slice's length, and with Rectangular leaves the slice unchanged, bit for bit.", "quantifier": "every slice of any length, every window, every float width", "why_tests_cant": "unbounded slices", "anchors": ["src/window/mod.rs: apply_window"]}
{"id": "C58", "title": "Windows are symmetric", "statement": "Window value i equals value n-1-i for all i < n: for all six shapes in exact arithmetic, and bit for bit in IEEE f32/f64 for Triangular and Bartlett up to 2^24 (f32) / 2^53 (f64) points.", "quantifier": "every size n >= 2 and index", "why_tests_cant": "all sizes", "anchors": ["src/window/*.rs: generate_window"]}
{"id": "C59", "title": "Windows stay within [0,1]", "statement": "In exact arithmetic all window values are in [0,1] (n >= 2), so apply_window never increases a magnitude. In IEEE f32/f64 the same holds for Triangular and Bartlett, and for Hann and Hamming if the library cos stays in [-1,1]; the first Blackman value is slightly negative.", "quantifier": "every size and index, every sample", "why_tests_cant": "all sizes", "anchors": ["src/window/*.rs: generate_window", "src/window/mod.rs: apply_window"]}
{"id": "C60", "title": "Window end and centre values", "statement": "For n >= 2 the end values are 0 (Bartlett, Hann, Blackman), 0.08 (Hamming), 0.00006 (Blackman-Harris), 1/n (Triangular); for odd n >= 3 the centre value is 1 for all six (exact arithmetic).", "quantifier": "every n", "why_tests_cant": "all sizes", "anchors": ["src/window/*.rs: generate_window"]}
{"id": "C61", "title": "Half-overlapped windows sum to a constant", "statement": "Overlapped by 50%, Bartlett and Hann windows of odd size with hop (n-1)/2 and Triangular windows of even size with hop n/2 sum to 1, and Hamming windows of odd size to 1.08, or 1.16 at the samples where three windows meet (exact arithmetic). So the module comment is false for Hamming, and for Bartlett windows of even size.", "quantifier": "every size and index", "why_tests_cant": "all sizes", "anchors": ["src/window/mod.rs: comment lines 15-18", "src/window/*.rs: generate_window"]}
{"id": "C62", "title": "One-sample windows", "statement": "Windowing a one-sample slice with Bartlett, Hann, Hamming, Blackman or Blackman-Harris divides 0 by 0 and makes the sample NaN (given that cos of NaN is NaN), so the result is not finite. Triangular and Rectangular keep a finite sample.", "quantifier": "every sample value, both float widths", "why_tests_cant": "all float values", "anchors": ["src/window/*.rs: generate_window", "src/window/mod.rs: apply_window"]}
{"id": "C63", "title": "to_db and to_sample are inverse above the floor", "statement": "In exact arithmetic to_sample(to_db(s)) = s for s > 1e-6 and to_db(to_sample(d)) = d for d > -120.", "quantifier": "every real s, d above the floor", "why_tests_cant": "continuum", "anchors": ["src/util/mod.rs: to_db, to_sample"]}
{"id": "C64", "title": "Conversions saturate at the floor", "statement": "In IEEE f32/f64, to_db returns -120 for every sample that is at most 1e-6, NaN or infinite, and to_sample returns 0 for every value that is at most -120, NaN or infinite; the floor values map to each other.", "quantifier": "every float value, both widths", "why_tests_cant": "all float values, including NaN and infinities", "anchors": ["src/util/mod.rs: to_db, to_sample"]}
{"id": "C65", "title": "to_db and to_sample are monotone", "statement": "In exact arithmetic both conversions are monotone, and strictly monotone above the floor; to_db is at least -120 and to_sample at least 0 everywhere.", "quantifier": "every pair of reals", "why_tests_cant": "continuum", "anchors": ["src/util/mod.rs: to_db, to_sample"]}
{"id": "C66", "title": "Gain in dB is additive", "statement": "In exact arithmetic to_db(apply_gain(s, to_sample(d))) = to_db(s) + d whenever s and the result are above 1e-6 and d > -120.", "quantifier": "every real s, d", "why_tests_cant": "continuum", "anchors": ["src/util/mod.rs: apply_gain, to_db, to_sample"]}
{"id": "C67", "title": "Debug assertions of util", "statement": "In debug builds to_db panics exactly on samples with the sign bit set (including -0.0 and negative NaN) and apply_gain exactly on ratios that are not finite or have the sign bit set; in release builds neither ever panics.", "quantifier": "every float value", "why_tests_cant": "all float values", "anchors": ["src/util/mod.rs: to_db, apply_gain"]}
{"id": "C68", "title": "Analysis types and non-finite samples", "statement": "In IEEE f32/f64, in every reachable state of LeakyIntegrator, PeakEnvDetector and RmsEnvDetector, one NaN or infinite sample makes every later output NaN, whatever follows, until clear; for RMS a finite sample whose square overflows does the same. clear restores output zero and keeps the gains.", "quantifier": "every reachable state, every stream, every position of the non-finite sample, both widths", "why_tests_cant": "needs all states, all later samples and all times", "anchors": ["src/analysis/leaky_integrator.rs: process, clear", "src/analysis/peak_detector.rs: process, clear", "src/analysis/rms_detector.rs: process, clear"]}
{"id": "C69", "title": "Stable filters turn sinusoids into sinusoids", "statement": "In exact arithmetic, from every state, a stable OnePole, TwoPole, Biquad1 or Biquad2 and every OneZero or TwoZero maps a sinusoid of any frequency, amplitude and phase to an output that converges to a sinusoid of the same frequency, scaled by |H| and shifted by arg H, with H = B(z)/A(z) on the unit circle for the coefficients of the filter.", "quantifier": "all stable coefficients, all states, all frequencies, amplitudes and phases", "why_tests_cant": "convergence in the limit over infinite streams, for all frequencies", "anchors": ["src/filter/*.rs: process"]}
{"id": "C70", "title": "rbj filters are the bilinear transforms of their analog prototypes", "statement": "For valid parameters (as in C38) every rbj filter has, at every frequency other than Nyquist, the gain and phase of the analog transfer function of the Audio EQ Cookbook at s = i tan(w/2)/tan(w0/2): 1/(s^2+s/Q+1) for LowPass, and the corresponding ones for the other eight types.", "quantifier": "all valid parameters, all frequencies, amplitudes and phases", "why_tests_cant": "identity of functions over continuous parameters, limit over infinite streams", "anchors": ["src/filter/rbj/*.rs: set_coefficients"]}
{"id": "C71", "title": "Gain range of the rbj filters", "statement": "For valid parameters, at every frequency: BandPass2 and BandStop never amplify, BandPass1 amplifies at most by q, AllPass keeps the amplitude, Peak, LowShelf and HighShelf have a gain between 1 and 10^(dB/20), LowPass and HighPass amplify at most by 1 if q <= 1/sqrt 2 and by 2q^2/sqrt(4q^2-1) otherwise, which is attained; at the corner frequency the shelves have half of their gain in dB.", "quantifier": "all valid parameters, all frequencies including Nyquist", "why_tests_cant": "an extremum over all frequencies and parameters", "anchors": ["src/filter/rbj/*.rs: set_coefficients"]}
{"id": "C72", "title": "Unstable coefficients are really unstable", "statement": "In exact arithmetic the conditions of C35 are necessary: a OnePole or TwoPole with b0 /= 0, and a biquad none of whose unstable poles is cancelled by its numerator, is bounded-input bounded-output (and decays to zero on silence) exactly if |a2|<1 and |a1|<1+a2. (With a cancelled unstable pole a new biquad can be bounded.)", "quantifier": "all coefficients, all states", "why_tests_cant": "non-existence of a bound over all streams", "anchors": ["src/filter/one_pole.rs: process", "src/filter/two_pole.rs: process", "src/filter/biquad.rs: process"]}
{"id": "C73", "title": "Stable filters in floating point stay close to exact arithmetic", "statement": "In IEEE f32/f64 (any format, any math library), a filter whose poles p, q lie inside the unit circle, fed finite samples of magnitude at most X, only returns finite samples, and they differ from those of the same filter in exact arithmetic by at most 112 Q^2 (2^-precision X + smallest positive number), forever. Q = (1 + sum of coefficient magnitudes) / ((1-|p|)(1-|q|)); the format needs 32 Q <= 2^precision and range for 592 Q^2 X. This holds for the six basic filters and the nine rbj filters.", "quantifier": "all finite coefficients with stable poles, all finite starting memories up to X, all streams of any length, all formats and math libraries", "why_tests_cant": "accumulated rounding errors over unbounded streams", "anchors": ["src/filter/*.rs: process", "src/filter/rbj/*.rs: process"]}
{"id": "C74", "title": "Analysis types in floating point stay close to exact arithmetic", "statement": "In IEEE f32/f64, for samples of magnitude at most X and gains at most g < 1, LeakyIntegrator and PeakEnvDetector differ from exact arithmetic by at most 6 (2^-precision X + smallest positive number) / (1-g), forever, even where rounding makes the detector switch between attack and release at other samples; RmsEnvDetector by at most 4 sqrt((2^-precision X^2 + smallest positive number)/(1-g)) + 2^-precision X + smallest positive number.", "quantifier": "all gains below 1, all starting states up to X, all streams of any length, all formats and math libraries", "why_tests_cant": "accumulated rounding errors over unbounded streams", "anchors": ["src/analysis/leaky_integrator.rs: process", "src/analysis/peak_detector.rs: process", "src/analysis/rms_detector.rs: process"]}
{"id": "C75", "title": "Complete functional description of Delay", "statement": "Every sequence of calls (process, set_delay, set_max_delay, clear, tap_in, add_to, and the observers next_out, tap_out, get_delay, get_max_delay, last_out) on Delay::new(d,m) returns exactly what a short mathematical description returns, including growth, out-of-range taps and whether it panics. The description keeps the list of stored samples (newest first), the requested delay, the effective delay and the position of the seam at which growth inserts zeros.", "quantifier": "every element type, build profile, d, m, and every finite sequence of calls with arbitrary usize arguments", "why_tests_cant": "all interleavings of all calls, unbounded length, including the effects of repeated growth", "anchors": ["src/delay/mod.rs: all of Delay"]}
{"id": "C76", "title": "Every maximum delay: allocation, panic, or an unusable line", "statement": "new and set_max_delay of Delay and LinearDelay succeed for every maximum that Vec can allocate and panic for every larger one, with one exception: usize::MAX in a release build overflows to an empty line. Then Delay returns a line that reports maximum usize::MAX although every process, tap_out and tap_in on it panics (after set_max_delay the stored samples are lost); LinearDelay::new loops forever if the delay is positive, and after LinearDelay::set_max_delay a set_delay above the old maximum loops forever.", "quantifier": "all usize maxima, all delays including NaN and infinities, all reachable states, both build profiles, all IEEE formats", "why_tests_cant": "depends on wrapping arithmetic of one build profile and on non-termination", "anchors": ["src/delay/mod.rs: Delay::new, set_max_delay; LinearDelay::new, set_delay, set_max_delay"]}
{"id": "C77", "title": "Complete functional description of LinearDelay", "statement": "Every sequence of calls (process, set_delay, set_max_delay, clear, next_out, tap_in, tap_out, add_to) on LinearDelay::new(d,m) returns exactly what a short mathematical description returns, including growth, out-of-range taps, the way next_out fixes the following output, and whether it panics; afterwards all getters agree too. In exact arithmetic the description reads at the clipped delay itself; in IEEE arithmetic, on lines of at most 2^24 slots, it agrees bit for bit for a read position that stays on the line and, for delays not just above an integer, is within 2^-22 slots per slot of the requested distance with weights in [0,1].", "quantifier": "all d (NaN and infinities included), m, both build profiles, every finite sequence of calls with arbitrary arguments, exact and IEEE arithmetic", "why_tests_cant": "all interleavings of all calls, unbounded length, including repeated growth and pending next_out values", "anchors": ["src/delay/mod.rs: all of LinearDelay"]}
{"id": "C78", "title": "Accuracy of LinearDelay with f32 delay times", "statement": "On a line of fewer than 2^24 slots, new and set_delay with a finite delay whose clipped value has fractional part 0 or above slots/2^24 give outputs within 2 X slots/2^22 + 6 (2^-precision X + smallest positive number) of exact linear interpolation at the clipped delay, for all samples of magnitude at most X. (Just above an integer the error is unbounded in this sense: C25.)", "quantifier": "all such lines, delays and stored samples, all streams of any length, every reachable state without pending next_out, f32, f64 and wider formats", "why_tests_cant": "worst-case rounding over all delays, write positions and streams", "anchors": ["src/delay/mod.rs: LinearDelay::set_delay, LinearDelay::next_out, process"]}
{"id": "C79", "title": "LowPass with a very low cutoff is silent", "statement": "In every floating point format, LowPass returns zeros only, whatever it is fed, if the computed cosine of its angle is 1 (HighPass: if it is -1). In f32 this is the case for every cutoff up to sample_rate/26000 (1.84 Hz at 48 kHz), although the same filter in exact arithmetic passes constants unchanged.", "quantifier": "all sample rates from 1, cutoffs in the range, q in [2^-100, 2^100], all streams of finite samples, both build profiles, every library whose f32 cos and sin are accurate for angles up to 2^-12", "why_tests_cant": "all parameters in a range and unbounded streams; tests with usual cutoffs do not notice", "anchors": ["src/filter/rbj/lowpass.rs: set_coefficients", "src/filter/biquad.rs: Biquad2::process"]}
{"id": "C80", "title": "An f32 high-pass filter that diverges", "statement": "HighPass and BandStop set to 48000, 1 Hz and q = 0.70710677 in f32 are unstable: after the single sample -1583/2048 followed by silence the output is finite at first, and from some point on infinite or NaN forever. In exact arithmetic the same filters are stable.", "quantifier": "every previous state, both build profiles, every library whose f32 cos and sin are accurate for angles up to 2^-12, the infinite silent continuation", "why_tests_cant": "the divergence takes more than a hundred thousand samples and its persistence is about all later samples", "anchors": ["src/filter/rbj/highpass.rs: set_coefficients", "src/filter/rbj/bandstop.rs: set_coefficients", "src/filter/biquad.rs: Biquad2::process"]}
{"id": "C81", "title": "Silence leaves a denormal residue", "statement": "In floating point, OnePole, LeakyIntegrator and the two detectors with feedback gain g of magnitude below 1, once fed with zeros only, have outputs whose magnitude never grows and is eventually a constant c of at most tiny/(2(1-g)) (tiny the smallest positive number), which is at most the smallest normal number; RmsEnvDetector returns the rounded square root of such a level. c is zero exactly if g is at most 1/2 or the state was zero already; so a usual decay never gets to zero, although it does tend to zero in exact arithmetic (C47, C51, C54).", "quantifier": "all formats, all finite gains below 1 and finite states, the infinite silent continuation, zeros of both signs, both build profiles", "why_tests_cant": "eventual behaviour on an infinite stream for all gains; tests compare decays with a tolerance", "anchors": ["src/filter/one_pole.rs: process", "src/analysis/leaky_integrator.rs: process", "src/analysis/peak_detector.rs: process", "src/analysis/rms_detector.rs: process"]}
{"id": "C82", "title": "Energy of the rbj filters' output", "statement": "In exact arithmetic and for any input, at every moment the energy (sum of squares) of the samples returned so far by an rbj filter is at most G^2 times that of the samples fed so far, with G the largest gain for sinusoids (C71): the resonance peak for LowPass and HighPass, q for BandPass1, 1 for BandPass2, BandStop and AllPass, the larger of 1 and the gain for Peak and the shelves. For streams of finite energy the whole response of AllPass has exactly the energy of the input, that of Peak and the shelves at least the square of the smaller of 1 and the gain, and BandPass2 and BandStop divide the energy of the input between them.", "quantifier": "all valid parameters and gains, all previous states (setters reset), all input streams, all lengths", "why_tests_cant": "a supremum over all signals of unbounded length", "anchors": ["src/filter/rbj/*.rs: set_coefficients", "src/filter/biquad.rs: Biquad2::process"]}
{"id": "C83", "title": "The rbj filters in floating point approximate the exact ones", "statement": "Let cos and sin of the library have an absolute error of at most k units u = 2^-precision for angles in [-4, 4]. For valid parameters whose pole margin m is at least 8 times e = (5k+86) u (1 + 1/(2q)), the coefficients stored by set_coefficients of LowPass, HighPass, BandPass1, BandPass2, BandStop and AllPass are finite and within e of those the same code computes in exact arithmetic; and fed the same samples of magnitude at most X (no overflow), the outputs are finite and within (36288 (u X + tiny) + 34 e X)/m^2 of the exact ones, forever. In f32 all frequencies from 1/100 to 49/100 of the sample rate with q from 1/2 to 2 keep the outputs finite for samples up to 2^60; in f64 frequencies from 1/16 to 7/16 of the sample rate with q from 1/2 to 1 give outputs within 10^-7 for samples in [-1, 1]. (C79, C80 show that very low frequencies in f32 are outside any such guarantee.)", "quantifier": "all formats with enough exponent range, all libraries of the stated accuracy, all parameters with the margin, all previous states, all input streams within the range, all times", "why_tests_cant": "a bound for infinitely many parameters and streams of any length; tests compare a few samples with a tolerance", "anchors": ["src/filter/rbj/*.rs: set_coefficients", "src/filter/biquad.rs: Biquad2::process"]}
{"id": "C84", "title": "Peak and the shelves in floating point approximate the exact ones", "statement": "Let cos, sin have an absolute error of at most k units u = 2^-precision for angles in [-4, 4] and powers of ten (exponents in [-4, 4]) a relative error of at most k u. For a gain A = 10^(db/40) in [1/G, G] and parameters whose pole margin m is at least 8 times e = 660 (k+1) u G^4 (1 + R), where R is 1/(2q) for Peak and sqrt((A+1/A)(1/slope - 1) + 2) for the shelves, the coefficients stored by set_coefficients of Peak, LowShelf and HighShelf are finite and within e of those the same code computes in exact arithmetic; and fed the same samples of magnitude at most X (no overflow) the outputs are finite and within (36288 G^4 (u X + tiny) + 34 G^2 e X)/m^2 of the exact ones, forever. In f32, frequencies from 1/8 to 3/8 of the sample rate with gains up to 6 dB, q from 1 to 2 and slopes from 1/2 to 1 keep the outputs finite for samples up to 2^60; in f64, frequencies from 1/16 to 7/16 with gains up to 12 dB give outputs within 10^-3 (Peak) and 10^-4 (shelves) for samples in [-1, 1].", "quantifier": "all formats with enough exponent range, all libraries of the stated accuracy, all parameters with the margin, all previous states, all input streams within the range, all times", "why_tests_cant": "a bound for infinitely many parameters and streams of any length", "anchors": ["src/filter/rbj/peak.rs, lowshelf.rs, highshelf.rs: set_coefficients", "src/filter/biquad.rs: Biquad2::process"]}
{"id": "C85", "title": "Polarity: opposite input gives opposite output, in floating point", "statement": "After clear, with any coefficients whatever (non-finite ones included) and for any stream of samples (infinities and NaN included), the stream of opposite samples (negated; a NaN is opposite to a NaN, zeros are opposite whatever their sign bits) gets exactly the opposite output from the six basic filters, LeakyIntegrator, the nine rbj filters and Delay, and from LinearDelay when next_out was not called since the last sample. When it was, clear does not forget the announced sample: it comes out at the next sample whatever comes in.", "quantifier": "all formats and libraries, all coefficients, all delay line states, all input streams, all times, both build profiles", "why_tests_cant": "an exact symmetry over all streams and all coefficients, including the non-finite ones", "anchors": ["src/filter/*.rs: process", "src/delay/mod.rs: process", "src/delay/linear_delay.rs: process, next_out, clear", "src/analysis/leaky_integrator.rs: process"]}
{"id": "C86", "title": "Shape of the gain curves of the rbj filters", "statement": "In exact arithmetic, for valid parameters, the gain over the angles [0, pi] is: for LowPass strictly falling and for HighPass strictly rising if q <= 1/sqrt 2, and otherwise with a single maximum, at the angle p with tan^2(p/2) = (1 - 1/(2q^2)) tan^2(w0/2) for LowPass (below w0) and tan^2(w0/2) = (1 - 1/(2q^2)) tan^2(p/2) for HighPass (above w0); for BandPass1, BandPass2 and Peak with positive gain, a single maximum at w0; for BandStop and Peak with negative gain, a single minimum at w0; for LowShelf with positive gain or HighShelf with negative gain strictly falling, and for the opposite signs strictly rising. At q = 1/sqrt 2 the gains of LowPass and HighPass are those of a Butterworth filter. The band filters have half-power angles w1 < w0 < w2 with tan(w1/2) tan(w2/2) = tan^2(w0/2) and tan(w2/2) - tan(w1/2) = tan(w0/2)/q.", "quantifier": "all valid parameters, all previous states, all frequencies from 0 to Nyquist", "why_tests_cant": "monotonicity over a continuum of frequencies, for every parameter value", "anchors": ["src/filter/rbj/*.rs: set_coefficients, process"]}
{"id": "C87", "title": "Linear processors are convolutions and can be swapped", "statement": "In exact arithmetic, the output of every cleared basic filter, LeakyIntegrator, rbj filter after set_coefficients (any parameters), new or cleared Delay and LinearDelay (without a pending next_out) is, for every input stream, the convolution of the input with its response to an impulse. Two such processors in a row give the same output in either order.", "quantifier": "all coefficients, parameters and delays, all input streams, all pairs of processors, both build profiles", "why_tests_cant": "all streams, all coefficients, all pairs", "anchors": ["src/filter/*.rs, src/filter/rbj/*.rs: process", "src/analysis/leaky_integrator.rs: process", "src/delay/mod.rs, src/delay/linear_delay.rs: process"]}
{"id": "C88", "title": "Windows rise to their middle; sums and sums of squares", "statement": "In exact arithmetic, of two positions in a window of at least 2 points the one closer to the middle has the strictly larger value, for all six shapes. The items sum to (n-1)/2 for Hann and 0.54 n - 0.46 for Hamming (n >= 3), 0.42 (n-1) for Blackman (n >= 4), 0.35875 n - 0.35869 for Blackman-Harris (n >= 5), n/2 (even n) or (n^2+1)/(2n) (odd n) for Triangular, n(n-2)/(2(n-1)) (even n) or (n-1)/2 (odd n) for Bartlett. The squares sum to 0.375 (n-1) for Hann and 0.3974 n - 0.391 for Hamming (n >= 4), 0.3046 (n-1) for Blackman (n >= 6).", "quantifier": "all window sizes, all positions", "why_tests_cant": "closed forms for every size", "anchors": ["src/window/*.rs: generate_window, next"]}
{"id": "C89", "title": "How detectors and integrator depend on level and past", "statement": "In exact arithmetic: feeding a cleared PeakEnvDetector or RmsEnvDetector c times the signal gives |c| times the output, a cleared LeakyIntegrator gives c times the output. Two detectors with the same gains in [0, g] but different pasts, fed the same signal, have outputs (squares of outputs for RMS) that differ by at most g^(n+1) times the initial difference at sample n; for the integrator it is exactly alpha^(n+1) times. In IEEE arithmetic: with equal gains in [0, 1] and equal bounded samples, the detector or integrator that starts higher is never lower at any later sample, whatever the rounding. But monotonicity in the samples, which C51 proves in exact arithmetic, fails in every format with at least 3 bits: there is a history of a LeakyIntegrator, and a state of a PeakEnvDetector with gains in [0, 1], for which a larger sample gives a strictly smaller output.", "quantifier": "all signals, scalings, gains, initial states; all IEEE formats", "why_tests_cant": "unbounded signals; rounding makes order preservation in the state and its failure in the sample look alike in samples", "anchors": ["src/analysis/peak_detector.rs: process", "src/analysis/rms_detector.rs: process", "src/analysis/leaky_integrator.rs: process"]}
{"id": "C90", "title": "It does not matter when a signal starts, also in floating point", "statement": "Put k samples of +0 in front of any input stream (which may contain infinities and NaNs). In IEEE arithmetic a cleared OnePole, OneZero, TwoPole, TwoZero, Biquad1, Biquad2, rbj filter, LeakyIntegrator, PeakEnvDetector or RmsEnvDetector with finite coefficients then produces k zeros followed by exactly the output it would have produced without them, up to the sign of zeros and the payload of NaNs. A cleared Delay in any reachable state does so bit for bit for every sample type; a cleared LinearDelay without pending next_out gives the later outputs bit for bit, after the interpolation of two zeros, which is a zero if the weights are finite. Signs of zeros can differ (an inverting OnePole answers silence with -0), and with an infinite coefficient the claim is false.", "quantifier": "all streams, all k, all finite coefficients, all IEEE formats; for the delay lines all reachable states and all sample types", "why_tests_cant": "unbounded streams; rounding errors after the shift must agree exactly, not approximately", "anchors": ["src/filter/*.rs: process, clear", "src/analysis/*.rs: process, clear", "src/delay/mod.rs: process, clear", "src/delay/linear_delay.rs: process, next_out, clear"]}
{"id": "C91", "title": "Filters that undo each other", "statement": "In exact arithmetic, whatever a fresh OneZero(b0,b1) with b0 not zero makes of a stream, a fresh OnePole(1/b0,b1/b0) turns back into that stream, sample by sample, and the other way round; the same for TwoZero and TwoPole with b2, and for biquads of either form with numerator and denominator exchanged and divided by b0. If b0 is zero, no processor of any type and in any state undoes the filter.", "quantifier": "all streams, all coefficients with b0 not zero; for the converse all processor types and states", "why_tests_cant": "unbounded streams, all coefficients, and for the converse all possible processors", "anchors": ["src/filter/one_pole.rs: process", "src/filter/one_zero.rs: process", "src/filter/two_pole.rs: process", "src/filter/two_zero.rs: process", "src/filter/biquad.rs: process"]}
{"id": "C92", "title": "Delay lines in feedback loops", "statement": "Consider the loop: read next_out, combine it with the input sample by any function f, process the result u. Around a new Delay (or after set_delay in any reachable state) the loop runs forever and, in any arithmetic and bit for bit, u[n] = f(x[n], u[n-e]) with e the clipped delay; with delay 0 the recursion instead reaches back over all max_delay+1 slots. Around a new LinearDelay with clipped delay d at least 1 (exact arithmetic) the recursion goes through the interpolated past at d; in IEEE arithmetic with delay at least 2 on at most 2^24 slots the announced stream is bit for bit the response of the line to u. In exact arithmetic f = x + g v makes a comb filter: impulse response g^k at multiples of the delay, outputs within B/(1-|g|) for |g| < 1; and v - g u is an all-pass: the energy it still owes after N samples is 1-g^2 times the energy stored in the line, and inputs of finite energy keep their energy.", "quantifier": "all f, all input streams, all delays and line lengths, all reachable states for Delay and for the IEEE LinearDelay, all g", "why_tests_cant": "unbounded feedback, all combining functions and all streams", "anchors": ["src/delay/mod.rs: next_out, process, set_delay, new", "src/delay/linear_delay.rs: next_out, process"]}
{"id": "C93", "title": "Phase responses of the rbj filters", "statement": "In exact arithmetic, for parameters in range there is one angle psi(w), continuous and strictly increasing on [0,pi], with psi = 0 at DC, pi/2 at the centre frequency and pi at the Nyquist frequency, that describes the phases of six filters: LowPass lags by psi, HighPass leads by pi - psi, both BandPasses by pi/2 - psi, BandStop lags by psi up to the centre and leads by pi - psi above it, AllPass lags by 2 psi (gain 1). The gains are non-negative, and positive between the ends (BandStop: except at the centre). Peak shifts by a continuous angle smaller than pi/2 that vanishes at DC, centre and Nyquist; a boost leads below the centre and lags above, a cut the other way round.", "quantifier": "all valid sr, f, q, all dB gains, all frequencies in [0,pi], all amplitudes and phases of the sinusoid", "why_tests_cant": "a continuum of parameters and frequencies; limits of unbounded streams", "anchors": ["src/filter/rbj/lowpass.rs, highpass.rs, bandpass.rs, bandstop.rs, allpass.rs, peak.rs: set_coefficients, process"]}
{"id": "C94", "title": "Closed forms of impulse responses", "statement": "In exact arithmetic the answer to a unit impulse is known in closed form. OnePole: b0 (-a1)^n. OneZero, TwoZero: the coefficients, then zeros. TwoPole: b0 (p^(n+1) - q^(n+1))/(p - q) for two different real poles, b0 (n+1) p^n for a double pole, b0 r^n sin((n+1) theta)/sin theta for a complex pair, and every a1, a2 is one of these. Biquads: b0, b1, b2 times the answer of TwoPole(1, a1, a2) now, one and two samples ago. For parameters in range LowPass, HighPass, both BandPasses, BandStop and AllPass with q > 1/2 ring: after the first sample the answer is K r^n cos(theta n + phi), K nonzero, with alpha = sin w0/(2q), r^2 = (1 - alpha)/(1 + alpha) < 1 and cos theta sqrt(1 - alpha^2) = cos w0, so they do not ring at w0 exactly. With q < 1/2 it is a sum of two real exponentials, with q = 1/2 (K + L n) p^n with p = cos w0/(1 + sin w0), except at a quarter of the sample rate, where it ends after three samples.", "quantifier": "all coefficients; all valid sr, f, q; all states before the rbj set_coefficients (which clears); all n", "why_tests_cant": "unbounded time and a continuum of coefficients", "anchors": ["src/filter/{one_pole,one_zero,two_pole,two_zero,biquad}.rs: process", "src/filter/rbj/{lowpass,highpass,bandpass,bandstop,allpass}.rs: set_coefficients, process"]}
{"id": "C95", "title": "Filters in series and in parallel: Butterworth filters and crossovers", "statement": "In exact arithmetic: (a) a stable filter answers an input that dies away with an output that dies away. (b) In a chain of linear processors with this property gains multiply and phases add, for every input that settles to a sinusoid. (c) N LowPass (HighPass) filters in series with q_k = 1/(2 sin((2k+1) pi/(4N))), k = 0..N-1, form a Butterworth filter of order 2N: the gain at every frequency but Nyquist is 1/sqrt(1 + W^(4N)) (W^(2N)/sqrt(1 + W^(4N))) with W = tan(w/2)/tan(w0/2). (d) Two LowPass filters in series plus two HighPass filters in series, all with q = 1/sqrt 2, give sample by sample the output of AllPass with the same parameters. (e) LowPass minus HighPass with q = 1/2 gives sample by sample the output of a first-order all-pass filter with the pole cos w0/(1 + sin w0).", "quantifier": "all chains, all N >= 1, all sr and 0 < f < sr/2, all frequencies, amplitudes and phases, all inputs (d, e), all states before set_coefficients", "why_tests_cant": "limits of unbounded streams, a continuum of parameters, unbounded numbers of stages", "anchors": ["src/filter/*.rs, src/filter/rbj/*.rs: process", "src/filter/rbj/*.rs: set_coefficients"]}
{"id": "C96", "title": "Turning the input up by a power of two is exact in floating point", "statement": "In IEEE arithmetic: after clear, if no product of a coefficient and a sample (for the detectors: of a gain and a difference, or of a sample with itself) falls into the subnormal range, multiplying the input by 2^k multiplies the output of every filter, of LeakyIntegrator, of PeakEnvDetector and of RmsEnvDetector by exactly 2^k, wherever the output does not overflow. No extra rounding error appears, no matter how long the stream is. Without the condition on products this is false in every format: a OnePole that halves its input maps the smallest positive number to 0 and twice that number to the smallest positive number.", "quantifier": "all formats (for RmsEnvDetector: those with emin + 2p <= 2, such as f32 and f64), all maths libraries, all coefficients (non-finite ones included), all k, all streams", "why_tests_cant": "unbounded streams and all coefficient bit patterns", "anchors": ["src/filter/*.rs, src/filter/rbj/*.rs: process, clear", "src/analysis/*.rs: process, clear"]}
{"id": "C97", "title": "Windows in floating point are accurate whatever the size", "statement": "In IEEE arithmetic, for every window size from 2 to usize::MAX (including sizes the float type cannot represent), every item of a Triangular or Bartlett iterator is finite and within 8*2^-p of the textbook shape, where p is the precision. If the platform's cos has an absolute error of at most k*2^-p on [-20, 20], every item of a Hann, Hamming, Blackman or Blackman-Harris iterator is finite and within (k+50)*2^-p. With a cos accurate to k = 2 that is 3.1e-6 in f32 and 5.8e-15 in f64. apply_window on samples below half the overflow threshold gives finite outputs, each within (k+52)*2^-p relative to the sample (9.2*2^-p for Triangular and Bartlett), plus the smallest positive number, of the sample times the textbook shape. The error does not grow with the size or the index.", "quantifier": "all formats with 10 to 53 bits of precision and the range of a usize, all maths libraries with an accurate cos, all sizes, all indices, all samples", "why_tests_cant": "sizes up to 2^64 and every index; a reference in exact arithmetic is needed", "anchors": ["src/window/triangular.rs: generate_window", "src/window/bartlett.rs: generate_window", "src/window/hann.rs: generate_window", "src/window/hamming.rs: generate_window", "src/window/blackman.rs: generate_window", "src/window/blackman_harris.rs: generate_window", "src/window/mod.rs: apply_window"]}
{"id": "C98", "title": "Decibel conversions in floating point are accurate, floor included", "statement": "In IEEE arithmetic, let the platform's log10 (above 5e-7) and powers of ten (exponents in [-7, 7]) have relative errors of at most k*2^-p, with (k+30)*2^-p at most 1/2000. Then to_db of every finite amplitude without a sign bit returns a finite level within (k+3)*2^-p*max(120, |level|) dB of the ideal level, which is 20*log10(x) above 1e-6 and -120 at or below it. Near full scale the error is relative to the level itself. to_sample of every finite level up to 130 dB has a relative error of at most (k+16)*2^-p. to_sample(to_db(x)) returns x with a relative error of at most (16k+59)*2^-p for x in [1.01e-6, 1e6]. to_db(to_sample(d)) returns d within (130k+507)*2^-p dB for d in (-120, 120]. to_db(apply_gain(x, to_sample(d))) is the level of x plus d, or -120 if that is lower, within (130k+525)*2^-p dB. With k = 2 in f32: 3.6e-5 dB, 1.1e-6, 5.5e-6 and 4.6e-5 dB for the first four.", "quantifier": "all formats with 10 to 53 bits of precision and an ordinary range, all accurate maths libraries, both build modes, all finite amplitudes and levels in the stated ranges", "why_tests_cant": "every float of the format, including those on either side of the rounded constant 1e-6, against exact real arithmetic", "anchors": ["src/util/mod.rs: to_db", "src/util/mod.rs: to_sample", "src/util/mod.rs: apply_gain"]}
{"id": "C99", "title": "Attack and release times in floating point, and lengths beyond the precision", "statement": "In IEEE arithmetic, if the platform's exp has a relative error of at most k*2^-p for arguments up to zero (up to underflow) and exp(-inf) = 0, then set_attack and set_release of both detectors turn every positive finite length n into a finite gain within (k+1)*2^-p of exp(-1/n). For n of at least one sample with (1.2k+1.8)*2^-p*n at most 1/8, the gain is exp(-1/t) for a time constant t with |1/t - 1/n| <= (1.2k+1.8)*2^-p, so |t - n| <= 8/7*(1.2k+1.8)*2^-p*n^2: the relative error grows with the length, to 1.4 percent for one second at 48 kHz in f32 with k = 2. If exp is correctly rounded, every length of 2^(p+1) samples or more (2^25 in f32) gives a gain of exactly 1, and lengths from 1 to 2^p samples a gain below 1. With such an attack length a detector at rest never leaves zero: it reports silence for every finite input (for RMS: whose square does not overflow), forever.", "quantifier": "all formats with 10 to 53 bits of precision and an ordinary range, all accurate maths libraries, all positive finite lengths, both detectors, both setters, all input streams, both build modes", "why_tests_cant": "every length; the stuck detector is a claim about unbounded streams of arbitrary samples", "anchors": ["src/analysis/peak_detector.rs: set_attack, set_release, process", "src/analysis/rms_detector.rs: set_attack, set_release, process"]}
{"id": "C100", "title": "Changing coefficients while the signal runs", "statement": "Let the coefficients be set to c(n) before sample n, for every n. In exact arithmetic OnePole, OneZero, TwoPole, TwoZero and Biquad1 then solve y(n) = b0(n)x(n) + b1(n)x(n-1) + b2(n)x(n-2) - a1(n)y(n-1) - a2(n)y(n-2): every sample meets the coefficients current at output. Biquad2 solves y(n) = b0(n)x(n) + b1(n-1)x(n-1) - a1(n-1)y(n-1) + b2(n-2)x(n-2) - a2(n-2)y(n-2): every sample meets the coefficients current at input. So the two biquads, equal for fixed coefficients, differ once a coefficient changes. If |a1(n)| <= A1 and |a2(n)| <= A2 with A1 + A2 < 1 the output is bounded by (B0+B1+B2)X/(1-A1-A2) however the coefficients move. That every c(n) is stable is not enough: alternating between the stable pairs (1, 1/2) and (-1, 1/2), the impulse response of TwoPole and of both biquads is at least (3/2)^floor(n/2). In any arithmetic, setting the values a basic filter, integrator or detector already has is not heard. The nine rbj filters clear their memory when set, so when set before every sample, even to unchanged values, the output depends on the current sample and parameters only; a low-pass filter so driven multiplies by a number of at most 1/2 for cutoffs up to a quarter of the sample rate, and does not filter.", "quantifier": "all coefficient sequences, all input streams, all filters, both build modes; setting unchanged values and the loss of memory in any arithmetic and from any state", "why_tests_cant": "arbitrary sequences of coefficients; divergence and boundedness are claims about unbounded streams", "anchors": ["src/filter/biquad.rs: set_coefficients, process", "src/filter/one_pole.rs", "src/filter/one_zero.rs", "src/filter/two_pole.rs", "src/filter/two_zero.rs", "src/filter/rbj/*.rs: set_coefficients", "src/analysis/*.rs: setters"]}
{"id": "C101", "title": "Peak and RMS detectors compared", "statement": "With equal attack and release gains a PeakEnvDetector is, in any arithmetic and bit for bit, a LeakyIntegrator fed with the magnitudes, and an RmsEnvDetector the square root of a LeakyIntegrator fed with the squares. In exact arithmetic an RMS detector never reads less than a peak detector with the same gains in [0,1] (for new detectors: the same lengths) that starts no higher, whatever the signal: despite its name the peak detector has the smaller reading. In floating point this fails: a new RMS detector reads 0 for the smallest positive number. Shorter attack and longer release never lower the reading of either detector: in exact arithmetic for the lengths, in IEEE arithmetic for the gains in [0,1], rounding included.", "quantifier": "all signals, all gains and start states as described, both detectors, both build modes; the IEEE part for all formats, all maths libraries and bounded samples", "why_tests_cant": "unbounded streams of arbitrary samples and two free parameters; the order must survive every rounding", "anchors": ["src/analysis/peak_detector.rs: process, set_attack, set_release", "src/analysis/rms_detector.rs: process, set_attack, set_release", "src/analysis/leaky_integrator.rs: process", "src/analysis/mod.rs: notes on envelope detection"]}
{"id": "C102", "title": "Quality of LinearDelay's interpolation, fixed and moving delays", "statement": "In exact arithmetic, once a new LinearDelay is filled: straight lines and constants come out exactly delayed, whole or fractional delay. Samples of a function with second derivative at most M come out as the function at the delayed time with an error of at most M r(1-r)/2 <= M/8, r the fractional part of the delay, and parabolas attain that. A sinusoid of w radians per sample comes out as a sinusoid with gain squared 1 - 2r(1-r)(1-cos w) and within w^2/8 of its amplitude of the ideally delayed one; samples of alternating sign are scaled by 1-2r, so half-sample delays remove them. With set_delay called before every sample, the output is the input interpolated at each sample's own (clipped) distance whatever the earlier distances, so the M/8 bound holds for moving delays, and a delay growing by v per sample shifts the pitch of a sinusoid by the factor 1-v.", "quantifier": "all delays, maximum delays that can be allocated, signals, curvature bounds, amplitudes, frequencies and phases, all sequences of delay times, both build modes", "why_tests_cant": "all functions of bounded curvature, all frequencies and all delay trajectories; the pointer arithmetic of set_delay must be right at every write position", "anchors": ["src/delay/linear_delay.rs: new, set_delay, process, next_out"]}
{"id": "C103", "title": "Q factor and bandwidth: the two conversion formulas of the rbj module", "statement": "In exact arithmetic and for valid parameters there are two angles w1 < w0 < w2 that bound, all at once, the half-power band of BandPass1 and BandPass2 (relative to the center), the half-power notch of BandStop, and the band in which Peak has at least (boost) or at most (cut) half of its decibels; they are unique. The module's analog formula 1/Q = 2 sinh(ln(2)/2 BW) holds exactly when BW is measured in octaves of tan(w/2), the prototype's frequency. The module's digital formula 1/Q = 2 sinh(ln(2)/2 BW w0/sin(w0)), with BW in octaves of the actual frequencies, is not exact: at a quarter of the sample rate and q = 1/2 the band is from sr/8 to 3 sr/8 and the formula gives a 1/Q that is too small. It is correct in the limit of narrow bands: q times the 1/Q it gives tends to 1 as q grows.", "quantifier": "all sample rates, frequencies below half of it, q > 0 and gains; both build modes; earlier states of the filter are arbitrary", "why_tests_cant": "a statement about all frequencies and all Q, and about a limit; that a formula is an approximation and not an identity cannot be told from rounding noise by samples", "anchors": ["src/filter/rbj/mod.rs: comment lines 8-17", "src/filter/rbj/bandpass.rs: set_coefficients", "src/filter/rbj/bandstop.rs: set_coefficients", "src/filter/rbj/peak.rs: set_coefficients"]}
{"id": "C104", "title": "rbj parameters out of range are accepted and give aliases, gains, unstable filters or NaN", "statement": "set_coefficients of the nine rbj filters checks nothing. In exact arithmetic: frequencies that differ by a multiple of the sample rate give the same filter, and a negative frequency is a negative q (with the opposite polarity for BandPass1); at frequency 0 and at half of the sample rate every filter is a plain gain (0, 1 or the dB gain, the values are given per filter); with a frequency between half of the sample rate and the sample rate, or with a negative q below half of it, LowPass, HighPass, BandPass1, BandPass2, BandStop, AllPass, Peak (gain not 0 dB) and both shelves (gain not 0 dB, slope positive, not 1/2, and with slope*(A-1)^2 < A^2+1) are unstable: a bounded input gives an unbounded output and an output does not die out after the input, unless a0 is exactly zero. Shelves with a slope above 1 are stable as long as slope*(A-1)^2 < A^2+1. In IEEE arithmetic: q = 0 (or so small that alpha overflows) makes LowPass, HighPass and BandStop give NaN from the third output on, after two zero outputs of the low pass where sin(w0) is not zero, and the other q filters from the first; a NaN q, a slope of 0 or NaN, a slope in [-1, 0), a slope of at least 2 with 10^(db/40) at least 8 or at most 1/8, a gain that overflows or underflows, a sample rate of 0 or NaN and an infinite or NaN frequency make all outputs NaN (for Peak and an overflowing gain: not finite).", "quantifier": "all parameters in the given ranges, all samples, all libraries (sin of a non-finite angle NaN where the angle is not finite), any binary format; both build modes; earlier states of the filter are arbitrary", "why_tests_cant": "the unstable and NaN regions are continua of parameters, and instability is a statement about unbounded time; tests only use parameters in range", "anchors": ["src/filter/rbj/lowpass.rs: set_coefficients", "src/filter/rbj/highpass.rs: set_coefficients", "src/filter/rbj/bandpass.rs: set_coefficients", "src/filter/rbj/bandstop.rs: set_coefficients", "src/filter/rbj/allpass.rs: set_coefficients", "src/filter/rbj/peak.rs: set_coefficients", "src/filter/rbj/lowshelf.rs: set_coefficients", "src/filter/rbj/highshelf.rs: set_coefficients", "src/filter/biquad.rs: Biquad2"]}
{"id": "C105", "title": "Step responses: which filters overshoot", "statement": "In exact arithmetic, fed with ones after set_coefficients: the output of LowPass, HighPass, both BandPasses, BandStop and AllPass converges (to 1, 0, 0, 0, 1, 1) but goes above and below its limit again and again, for ever, if q > 1/2, and for frequencies from a quarter of the sample rate on already if 2q > sin(w0). A LowPass with sin(w0)/2 <= q <= 1/2 up to a quarter of the sample rate rises to 1 without ever falling or overshooting. Peak rings if q*10^(db/40) > 1/2 (gain not 0 dB), the shelves if (A+1/A)(1/slope-1) < 2 with A = 10^(db/40), so always with slope 1. A new OnePole rises for -1 < a1 <= 0 and rings for 0 < a1 < 1; a new TwoPole rings with complex poles and rises with poles in [0,1).", "quantifier": "all parameters in the stated ranges; both build modes; earlier states of the rbj filters are arbitrary", "why_tests_cant": "never overshooting and crossing infinitely often are statements about unbounded time and continua of parameters; the later crossings are far below any test tolerance", "anchors": ["src/filter/rbj/lowpass.rs: set_coefficients", "src/filter/rbj/highpass.rs: set_coefficients", "src/filter/rbj/bandpass.rs: set_coefficients", "src/filter/rbj/bandstop.rs: set_coefficients", "src/filter/rbj/allpass.rs: set_coefficients", "src/filter/rbj/peak.rs: set_coefficients", "src/filter/rbj/lowshelf.rs: set_coefficients", "src/filter/rbj/highshelf.rs: set_coefficients", "src/filter/one_pole.rs", "src/filter/two_pole.rs"]}
{"id": "C106", "title": "Noise gain of every filter", "statement": "In exact arithmetic the squares of the impulse response of a filter add up to E, and for uncorrelated input samples of mean square P (white noise) the mean square of every output sample is at most E*P and tends to E*P. With c = cos(w0), a = sin(w0)/(2q): LowPass (1-c)(1+c+2a)/(4a(1+a)), HighPass (1+c)(1-c+2a)/(4a(1+a)), BandPass2 a/(1+a), BandPass1 q^2 times that, BandStop 1/(1+a), AllPass 1, Peak (1+A^3 a)/(1+a/A) with A = 10^(db/40), closed forms for both shelves. Cleared OneZero and TwoZero: sum of the squared coefficients; OnePole b0^2/(1-a1^2), TwoPole, both biquads: closed forms if the poles are inside the unit circle; a OnePole with |a1| >= 1 has none. LeakyIntegrator (1-alpha)/(1+alpha). A new Delay 1, a new LinearDelay 1-2r(1-r) with r the fractional part of its delay.", "quantifier": "all coefficients with poles inside the unit circle, all valid rbj parameters, all white noise processes on any measure space; both build modes", "why_tests_cant": "an infinite sum and an expectation over all noise sequences; a test sees one finite sequence", "anchors": ["src/filter/rbj/lowpass.rs: set_coefficients", "src/filter/rbj/highpass.rs: set_coefficients", "src/filter/rbj/bandpass.rs: set_coefficients", "src/filter/rbj/bandstop.rs: set_coefficients", "src/filter/rbj/allpass.rs: set_coefficients", "src/filter/rbj/peak.rs: set_coefficients", "src/filter/rbj/lowshelf.rs: set_coefficients", "src/filter/rbj/highshelf.rs: set_coefficients", "src/filter/one_pole.rs", "src/filter/one_zero.rs", "src/filter/two_pole.rs", "src/filter/two_zero.rs", "src/filter/biquad.rs", "src/delay/linear_delay.rs", "src/delay/mod.rs"]}
{"id": "C107", "title": "Headroom: the largest sample an input between -1 and 1 can produce", "statement": "In exact arithmetic the least upper bound of the output magnitudes over all inputs between -1 and 1 is the sum of the magnitudes of the impulse response; stable filters have one. It is |b0|+|b1| for a cleared OneZero, |b0|+|b1|+|b2| for TwoZero, |b0|/(1-|a1|) for OnePole with |a1| < 1 (none for |a1| >= 1), |b0|/((1-|p|)(1-|r|)) for TwoPole with real poles of equal sign, 1 for LeakyIntegrator with alpha in [0,1) and for new delay lines. LowPass up to a quarter of the sample rate and HighPass from there on have peak gain exactly 1 if sin(w0)/2 <= q <= 1/2, and such a LowPass stays in every interval around zero its input stays in. For q > 1/2 (and sin(w0)/2 < q on the other side of a quarter of the sample rate) LowPass, HighPass, BandStop (LowPass's condition) and AllPass (LowPass's condition) all turn some input between -1 and 1 into a sample beyond 1. So do Peak with q*10^(db/40) > 1/2 and HighShelf with slope 1, even when they only cut.", "quantifier": "all inputs, coefficients and parameters in the stated ranges; both build modes; earlier states of the rbj filters are arbitrary", "why_tests_cant": "a supremum over all input signals; the worst input depends on the filter and on the output index", "anchors": ["src/filter/rbj/lowpass.rs: set_coefficients", "src/filter/rbj/highpass.rs: set_coefficients", "src/filter/rbj/bandstop.rs: set_coefficients", "src/filter/rbj/allpass.rs: set_coefficients", "src/filter/rbj/peak.rs: set_coefficients", "src/filter/rbj/highshelf.rs: set_coefficients", "src/filter/one_pole.rs", "src/filter/one_zero.rs", "src/filter/two_pole.rs", "src/filter/two_zero.rs", "src/analysis/leaky_integrator.rs", "src/delay/mod.rs", "src/delay/linear_delay.rs"]}
{"id": "C108", "title": "Comb and all-pass loops in floating point stay close to exact arithmetic, for ever", "statement": "In IEEE arithmetic of any format, a feedback loop u = x + g*v around a new Delay of effective length k (v the announced output, g finite with |g| <= 1 - 16u) fed with numbers of magnitude at most X (8X/(1-|g|) below overflow) exists, stays finite, and at every one of infinitely many samples is within 8uX/(1-|g|)^2 + 6*tiny/(1-|g|) of the real solution of z(n) = x(n) + g z(n-k). The Schroeder all-pass output v - g*u is within twice that of z(n-k) - g z(n). Around a new LinearDelay with at most 2^24 - 1 slots, a requested delay of at least 2 samples that is not just above an integer, and |g| <= 1 - 16(m+1)/2^22 - 80u, the loop stays within (4(m+1)/2^22 + 20u) X/(1-|g|)^2 + 20*tiny/(1-|g|) of the real comb with linear interpolation at exactly the requested delay.", "quantifier": "all formats (LinearDelay: precision at least 24 bits), all libms, all inputs bounded by X, all delays, lengths and gains in the stated range, all sample indices, both build modes", "why_tests_cant": "a uniform error bound over infinitely many rounds of rounding feedback; a test compares finitely many samples against another rounded computation", "anchors": ["src/delay/mod.rs: new", "src/delay/mod.rs: process", "src/delay/linear_delay.rs: new", "src/delay/linear_delay.rs: set_delay", "src/delay/linear_delay.rs: next_out", "src/delay/linear_delay.rs: process"]}
{"id": "C109", "title": "A LinearDelay with a moving delay in floating point: correct up to clicks at known samples", "statement": "In IEEE arithmetic, set_delay before every sample of a new LinearDelay with m+1 < 2^24 slots: for every sequence of delays, NaN and infinities included, exactly one output sequence exists and no call panics. At every sample whose delay is finite (clipped to d in [0,m]) and is a whole number, or has a fractional part above (m+1)/2^24, or has an integer part other than n mod (m+1), the output is finite and within 2X(m+1)/2^22 + 6(uX + tiny) of linear interpolation of the input at d, whatever the delays at other samples are; on samples of a function with second derivative at most M the output is the function at the delayed time up to M/8 and the same rounding terms. The exception is real: if d exceeds w = n mod (m+1) by at most (m+1)/2^26, the output is a + (m+1)(b - a) up to rounding, with a the input w samples ago and b its neighbour. So setting one and the same delay just above a whole number k before every sample gives a click in every (m+1)-th output, of (m+1) times the difference of two neighbouring input samples.", "quantifier": "all formats of precision at least 24, all libms, all delay sequences, all inputs bounded by X, all lengths below 2^24, all sample indices; both build modes", "why_tests_cant": "the clicks hit one sample in m+1 and only delays just above an integer, so a test with a few delays does not meet them; absence elsewhere is a statement about all delay sequences", "anchors": ["src/delay/linear_delay.rs: new", "src/delay/linear_delay.rs: set_delay", "src/delay/linear_delay.rs: process"]}
{"id": "C110", "title": "What the meters read on periodic signals and sinusoids", "statement": "In exact arithmetic, with attack gain a and release gain r in [0,1), on a signal of period N: the readings of a PeakEnvDetector converge to readings of period N that do not depend on the past. Their mean is at least the mean magnitude of the signal if a <= r and at most that if r <= a (so equal for a = r), and different from it if a and r differ and the magnitude is not constant. The same holds for RmsEnvDetector with squared readings and squared samples. On a sinusoid of amplitude A and frequency w an RmsEnvDetector with equal gains g reads the square root of A^2/2 plus an explicit ripple at frequency 2w of relative size at most (1-g)/sqrt(1-2g cos 2w + g^2) plus a multiple of g^n. A PeakEnvDetector whose attack is not faster than its release does not read the peak: on a sinusoid with k periods in N samples (2k not a multiple of N) the mean of its settled readings is at most |A|/sqrt 2. A new PeakEnvDetector with only set_release(length) called reads at most |A| and, from sample N-1 on, at least |A| cos(w/2) exp(-(N-1)/length), for any N >= pi/w.", "quantifier": "all gains, periods, periodic signals, pasts, amplitudes, frequencies and phases in the stated ranges, all sample indices; both build modes", "why_tests_cant": "limits over infinite time and all periodic signals; the bias of unequal attack and release is a strict inequality for every signal", "anchors": ["src/analysis/peak_detector.rs: process", "src/analysis/peak_detector.rs: set_release", "src/analysis/rms_detector.rs: process"]}
{"id": "C111", "title": "Spectra of the windows: no leakage over n-1 points, leakage over n", "statement": "In exact arithmetic, a Hann, Hamming, Blackman or Blackman-Harris window of N+1 points transformed over N points (discrete Fourier transform) is zero except in the bins up to 1, 1, 2 and 3 away from bin zero, with values N/2, -N/4; 0.54N, -0.23N; 0.42N, -0.25N, 0.04N; 0.35875N, -0.244145N, 0.07064N, -0.00584N. apply_window with any shape on N+1 samples of A cos(2 pi j i/N + phi) gives the window's spectrum moved to bins j and -j, with factors A/2 e^(+-i phi); so with these four windows all bins further away are exactly zero. Over all n points (the length of the window itself) the Hann window leaks: bin k holds (1-u)^2 (1+z)/(4(1-zu)(u-z)) with z = exp(-2 pi i k/n), u = exp(2 pi i/(n-1)), which is not zero unless n divides 2k.", "quantifier": "all window sizes below the pointer range, all bins, amplitudes, phases, integer frequencies; both build modes", "why_tests_cant": "exact zeros for all sizes, bins and sinusoids; a test computes one transform up to rounding", "anchors": ["src/window/hann.rs: generate_window", "src/window/hamming.rs: generate_window", "src/window/blackman.rs: generate_window", "src/window/blackman_harris.rs: generate_window", "src/window/mod.rs: apply_window"]}
{"id": "C112", "title": "Chains of processors in floating point: errors and gains compose", "statement": "Any list of processors, of any types, connected in series and run in floating point stays close to the same list in exact arithmetic: if every stage, at the level it receives, follows its exact twin within E_i, and the exact stage turns input differences D into output differences of at most G_i D, then all outputs of the chain are finite and off by at most the E_i, each multiplied by the gains of the later stages; if no stage amplifies, the errors just add up. The gains: the peak gain of C107 for everything that convolves; 4/m for the six rbj filters (m the pole margin of C83); 1 for LeakyIntegrator, PeakEnvDetector and RmsEnvDetector, although detectors are nonlinear and the two runs may take different branches; 1 for both delay lines, and Delay adds no error. Two consequences: the reading of a peak meter behind a filter is off by at most the filter's error plus the meter's; and the fourth-order crossover of C95 in f64 (two LowPass, two HighPass, q the double nearest to 1/sqrt 2, frequency between 1/16 and 7/16 of the sample rate, samples in [-1,1]) adds up, in f64, to within 0.00001 of the exact AllPass, for ever.", "quantifier": "all lists of stages, all formats, all streams; for the crossover all finite f64 sample rates from 1 to 2^100 and frequencies in the stated range, all inputs in [-1,1], libraries whose sin and cos are within 2 units; both build modes", "why_tests_cant": "rounding errors feed through later stages of unbounded number, on unboundedly long streams", "anchors": ["src/traits.rs: Processor::process", "src/filter/rbj/lowpass.rs: set_coefficients", "src/filter/rbj/highpass.rs: set_coefficients", "src/analysis/peak_detector.rs: process", "src/analysis/rms_detector.rs: process", "src/analysis/leaky_integrator.rs: process", "src/delay/mod.rs: process", "src/delay/linear_delay.rs: process"]}
{"id": "C113", "title": "What a caught panic leaves behind", "statement": "A program that catches panics can go on using the delay lines. Delay: every panicking call other than process leaves the object exactly as it was, in any state; from a new line any sequence of calls, with panics caught, shows call by call the abstract line of C75 from which the panicking calls have been left out (tap arguments out of range, maxima that cannot be allocated). LinearDelay: the same, in exact arithmetic, and in floating point up to 2^24 slots. The exceptions are half-done calls: on a LinearDelay whose read position is out of range (lines of more than 2^24 slots, C24) every process panics after having stored its sample and moved the write position, so the taps show samples for which nothing was returned, while get_delay and last_out stay; set_delay(0) makes such a line usable again. A Delay reaches such a state only in a release build through set_max_delay(usize::MAX). process_block: on an empty slice nothing has changed; otherwise the samples before the panicking one are replaced by their outputs, it and those after it are untouched. The statement-by-statement transcription behind this agrees with the model of all other properties.", "quantifier": "all states, all sequences of calls with any usize arguments (release: except the maximum usize::MAX), all delays and samples, both pointer widths, both build modes", "why_tests_cant": "unbounded sequences of calls mixed with caught panics; lines of more than 2^24 slots; the tests never catch a panic", "anchors": ["src/delay/mod.rs: set_max_delay, set_delay, process, tap_in, add_to", "src/delay/linear_delay.rs: set_max_delay, set_delay, next_out, process, tap_in, add_to", "src/traits.rs: process_block"]}
{"id": "C114", "title": "High-pass filters are low-pass filters seen in the mirror", "statement": "Changing the sign of every second sample (the mirror image, which turns the angle w into pi - w) relates the filters: in exact arithmetic, with the frequency sample_rate/2 - f in place of f, HighPass does to mirrored streams exactly what LowPass does to the streams themselves, HighShelf what LowShelf does, and BandPass1, BandPass2, BandStop, AllPass and Peak what they do themselves; so the gain of one at w is that of the other at pi - w. This holds for all parameters, valid or not. In floating point, changing the signs of b1 and a1 gives the mirror image of OnePole, OneZero, TwoPole, TwoZero, Biquad1 and Biquad2 without any rounding difference, from the cleared state, for all coefficients and samples, infinities and NaN included. A Delay by an even number of samples keeps mirrored streams mirrored; an odd one also turns them upside down.", "quantifier": "all parameters with sample_rate not 0, all previous states, all streams, all formats and libraries", "why_tests_cant": "It relates every output of two different filters on all streams; the sign slips it excludes (a b1 or a1 with the wrong sign, a shelf with the roles of two terms exchanged) show only at particular frequencies.", "anchors": ["src/filter/rbj/lowpass.rs:25-52", "src/filter/rbj/highpass.rs:25-52", "src/filter/rbj/lowshelf.rs", "src/filter/rbj/highshelf.rs", "src/filter/rbj/peak.rs", "src/filter/biquad.rs", "src/filter/two_pole.rs", "src/delay/mod.rs"]}
{"id": "C115", "title": "Only the ratio of frequency and sample rate matters to the rbj filters", "statement": "In exact arithmetic, multiplying the sample rate and the frequency by the same non-zero factor leaves every rbj filter unchanged. In floating point, multiplying both by 2^k (for example going from 44.1 kHz to 88.2 kHz and doubling the frequency) gives the same coefficients bit for bit, whatever the maths library, provided the frequency is a normal number and the new one at most 2^(emax-3), so that 2 pi f does not overflow.", "quantifier": "all nine rbj types and previous states, all other parameters (NaN included), all formats with emax >= 3, all libraries, all k >= 0, all finite sample rates other than 0", "why_tests_cant": "Equality of coefficients for every frequency, sample rate and k; a change of the order of the operations (2 pi / sr * f) or an absolute constant in the angle would break it only for some of them.", "anchors": ["src/filter/rbj/lowpass.rs:25-52", "src/filter/rbj/highpass.rs:25-52", "src/filter/rbj/bandpass.rs:28-55", "src/filter/rbj/bandstop.rs", "src/filter/rbj/allpass.rs", "src/filter/rbj/peak.rs", "src/filter/rbj/lowshelf.rs", "src/filter/rbj/highshelf.rs"]}
{"id": "C116", "title": "Several taps make a finite impulse response", "statement": "Reading any list of taps k <= max_delay after every sample and summing them with weights gives sum c_k x[n-k], bit for bit in list order, on a new Delay (never panicking, whatever its delay) and on a new LinearDelay (exactly when process itself does not panic). Adding c_k x[n] into taps k of a new Delay of delay d after processing v[n] gives, in exact arithmetic, v[n-d] plus sum over k < d of c_k x[n-(d-k)]; taps at or beyond d are never heard. With v silent, adding into taps k is the transposed form of reading taps d-k: both programs give the same output.", "quantifier": "all lists of weights and taps (repetitions included), all delays and maxima that can be allocated, all input streams, all n; reading: all arithmetics", "why_tests_cant": "Arbitrary many taps at arbitrary places interacting over unbounded time, repeated taps, and the wrap of the write pointer at every phase.", "anchors": ["src/delay/mod.rs: tap_out", "src/delay/mod.rs: add_to", "src/delay/mod.rs: process", "src/delay/linear_delay.rs: tap_out"]}
{"id": "C117", "title": "The small filters are biquads in floating point too, but not every form", "statement": "In IEEE arithmetic, up to the sign of zero and up to and including the first sample at which input or output is not finite: OnePole, OneZero, TwoPole and TwoZero return what Biquad1 returns with the missing coefficients zero, for all coefficients; OnePole and OneZero (finite feedback or feedforward coefficient) also return what Biquad2 returns. TwoPole and TwoZero do not: there are three finite samples after which they answer 0 and Biquad2 with the same coefficients answers 1.", "quantifier": "all formats (the refutation: p + 1 < emax, as in f32 and f64), all coefficients, all streams, all sample positions", "why_tests_cant": "Bit-level agreement for all coefficients and streams of any length; the extra terms are zeros whose sign propagates through later samples.", "anchors": ["src/filter/one_pole.rs:54-58", "src/filter/one_zero.rs:56-60", "src/filter/two_pole.rs:59-64", "src/filter/two_zero.rs:61-66", "src/filter/biquad.rs:86-95", "src/filter/biquad.rs:173-178"]}
{"id": "C118", "title": "The window iterators' size hints break the promise of ExactSizeIterator", "statement": "At every moment the size_hint of a window iterator is (0, None): sound as bounds but never exact, although the type implements ExactSizeIterator. So len of the std adapters that rely on the hint panics in every state: zip with a non-empty slice in either order, take(k) for k >= 1, skip, peekable; only an empty slice and take(0) give 0. The adapters that forward len return the full size (C56). With an exact hint all of these adapters would return the number of their items.", "quantifier": "all window types, sizes, states of the iteration, slice lengths and limits", "why_tests_cant": "A trait contract over all states and adapters; the crate's tests call next only.", "anchors": ["src/window/hann.rs:36-55", "src/window/bartlett.rs:36-55", "src/window/blackman.rs:39-58", "src/window/blackman_harris.rs:41-60", "src/window/hamming.rs:37-56", "src/window/triangular.rs:38-57"]}
{"id": "C119", "title": "The identities between rbj filters in floating point", "statement": "C43 and C44 hold exactly only in exact arithmetic. In floating point, where C83 applies with error E: LowPass + HighPass differs from BandStop, and BandStop - BandPass2 from AllPass, by at most 3E, BandStop + BandPass2 from the input by at most 2E, BandPass1 from q BandPass2 by at most (1+q)E, for ever. Where C84 applies, a Peak, LowShelf or HighShelf followed by the one with the negated gain gives the input back up to the error of the second at the level it receives plus the error of the first times 5G^2/m (Peak) or 7G^2/m (shelves), m the pole margin of the second. In f64 with samples in [-1,1] and sample rates from 1 to 2^100: the first four hold within 4e-7, sums computed in f64, for frequencies from 1/16 to 7/16 of the sample rate and q from 1/2 to 1; boost and cut up to 6 dB at 1/8 to 3/8 of the sample rate cancel within 1/100 (Peak, q from 1 to 2) and 1/2000 (shelves, slopes from 1/2 to 1). In f32 at 48000, 1 Hz and q = 0.70710677 they fail entirely: after one sample of -1583/2048 and then silence BandStop + BandPass2 and LowPass + HighPass are never finite again.", "quantifier": "all formats and libraries of the stated accuracy, all parameters with the margin, all previous states, all input streams within the range, all times, both build modes", "why_tests_cant": "Infinite streams and continuous parameters; a bound on rounding errors for all of them.", "anchors": ["src/filter/rbj/lowpass.rs:25-52", "src/filter/rbj/highpass.rs:25-52", "src/filter/rbj/bandpass.rs:28-55", "src/filter/rbj/bandpass.rs:93-120", "src/filter/rbj/bandstop.rs:27-54", "src/filter/rbj/allpass.rs:25-52", "src/filter/rbj/peak.rs:26-57", "src/filter/rbj/lowshelf.rs:26-62", "src/filter/rbj/highshelf.rs:26-62"]}
{"id": "C120", "title": "Group delays of the filters and delay lines", "statement": "In exact arithmetic, with frequencies w in radians per sample. Gain (where positive), phase modulo a turn and group delay of a processor are unique. A stable filter has the group delay (centre of its feedforward taps) - (centre of its feedback taps) wherever its gain is not zero, in any state; equal or opposite taps of OneZero and TwoZero delay by 1/2 and 1 everywhere; LeakyIntegrator by a(cos w - a)/(1 - 2 a cos w + a^2), which is a/(1-a) for slow signals and negative where cos w < a. LowPass, HighPass, BandPass1, BandPass2 and BandStop with the same parameters have the same group delay t(w) = alpha(1 - c cos w)/((cos w - c)^2 + (alpha sin w)^2), always positive, 2q/sin w0 at the centre, cot(w0/2)/(2q) at 0, tan(w0/2)/(2q) at the Nyquist frequency, with the integral pi from 0 to pi whatever the parameters; AllPass has 2t. Peak at its centre has (A - 1/A) 2q/sin w0: a cut is ahead of its input. The shelves have 0 at their own frequency. Delay delays every frequency by its delay; LinearDelay with fraction r by D + r(1-r)(2r-1)(1-cos w)/(1-2r(1-r)(1-cos w)), so exactly D for slow signals. On beats AllPass delays the loudness curve by an amount that tends to the group delay for slow beats.", "quantifier": "all valid parameters, all stable coefficients and all states, all frequencies where the gain is not zero, all amplitudes and phases, both build modes", "why_tests_cant": "Derivatives and limits over continuous frequencies; steady states of infinite streams.", "anchors": ["src/filter/biquad.rs: process", "src/filter/{one_pole,one_zero,two_pole,two_zero}.rs: process", "src/filter/rbj/*.rs: set_coefficients", "src/analysis/leaky_integrator.rs: process", "src/delay/mod.rs: process", "src/delay/linear_delay.rs: set_delay, process"]}
{"id": "C121", "title": "Overlap-add of signals", "statement": "Cut a signal into frames of n samples, one every hop samples, pass each frame through apply_window (once, or before and after processing) and add the frames back from zero, oldest first. This never panics, whatever the samples, and its result is determined. In exact arithmetic the output is the signal times the overlap-added window (or its squares). With n = R m + 1 and hop m, from time R m on: Hann gives R/2 for every R >= 2, Hamming 0.54 R (0.08 more where frames meet) for R >= 2, Blackman 0.42 R for R >= 3, Blackman-Harris 0.35875 R (0.00006 more where frames meet) for R >= 4, Bartlett R/2 for even R; Triangular with n = R m, R even, gives R/2. The squares give 0.375 R (Hann, R >= 3), 0.3974 R + 0.0064 where frames meet (Hamming, R >= 3), 0.3046 R (Blackman, R >= 5), 0.25796335495 R + 3.6e-9 where frames meet (Blackman-Harris, R >= 7). At 50% Blackman ripples as 0.84 + 0.16 cos 2v, and the Hann squares as (1 + cos^2 v)/2, v = pi (t mod m)/m. With an even size 2 m and hop m, Hann and Hamming do not sum to a constant, contrary to the module comment: they stay below 1 and 1.08 by up to sin(pi/(4m-2)) and 0.92 times that. In floating point, with a cosine accurate to k units, at most F overlapping frames and a bounded signal, the output is finite and within F((k + 52 + 2F) u |x| + 3 tiny) of the exact one with the window applied once, within F((17/8 (k + 52) + 2F) u |x| + 5 tiny) with the window applied twice; half-overlapped Hann frames of any odd size give back a signal in [-1, 1] within 1.08e-5 in f32 and 2.01e-14 in f64.", "quantifier": "all window kinds, sizes, hops, signals and times as stated, both build modes; floats: all formats of ordinary size, binary32 and binary64", "why_tests_cant": "All sizes, hops and signals of unbounded length; sums of cosines over all residues.", "anchors": ["src/window/mod.rs: module comment on 50% overlap, apply_window", "src/window/{bartlett,blackman,blackman_harris,hamming,hann,triangular}.rs: next"]}
{"id": "C122", "title": "The documentation against the code", "statement": "Documented claims about the processors that no other property settles, in exact arithmetic except where stated. TwoPole follows its documented equation y[n] = b0 x[n] - a1 y[n-1] - a2 x[n-2] (with an x at the end) for all inputs only if a2 = 0. A LeakyIntegrator with gain a in [0,1) is the OnePole filter with b0 = 1 - a and a1 = 1 - b0 = a, as documented, only if a = 0 (the sign of a1 is wrong, C48). In floating point a new LeakyIntegrator returns a finite stream unaltered (up to the sign of zeros) exactly if no difference of successive samples overflows. New detectors leave a stream unaltered exactly if it has no negative sample, and they do work when only one of set_attack and set_release was called: with the release alone y[n] = max(|x|, |x| + e^(-1/len)(y[n-1] - |x|)), with the attack alone the same with min, and likewise for the squares in the RMS detector. BandPass1 has constant skirts: for every q its gain starts at 0 like tan(w/2)/tan(w0/2), ends at Nyquist like tan(w0/2)/tan(w/2), and is q at the peak; BandPass2 has the peak gain 1 and the skirts divided by q. With q = 0.7071 the gain of LowPass falls and that of HighPass rises over all frequencies and is q at the cutoff, so q adds no resonance, while every q >= 0.7072 amplifies some frequency; but also with q = 0.7071 the step response crosses its target again and again.", "quantifier": "all coefficients, gains, lengths, valid rbj parameters, input streams and frequencies", "why_tests_cant": "Statements about all inputs and coefficients; limits and whole frequency ranges.", "anchors": ["src/filter/two_pole.rs: doc comment, process", "src/analysis/leaky_integrator.rs: doc comment, process", "src/analysis/peak_detector.rs: new, set_attack, set_release, process", "src/analysis/rms_detector.rs: new, set_attack, set_release, process", "src/filter/rbj/mod.rs: doc comment", "src/filter/rbj/bandpass.rs: doc comments, set_coefficients"]}
{"id": "C123", "title": "Periodic signals and offsets through the filters", "statement": "In exact arithmetic, a stable filter fed a signal that repeats every N samples (or approaches such a signal, whatever came before) settles into a signal that repeats every N samples. Every harmonic (DFT bin) of it is the input's, changed in amplitude and phase exactly as the filter changes a sinusoid of that frequency. Hence for the rbj filters with valid parameters the mean over a period is kept (LowPass, BandStop, AllPass, Peak, HighShelf), removed (HighPass, both BandPasses) or multiplied by the gain (LowShelf), and the energy of a period is kept by AllPass, at most multiplied by the square of the resonance (LowPass, HighPass), of q (BandPass1), never raised (BandPass2, BandStop), and changed by a factor between 1 and the gain squared (Peak and shelves). Adding a constant offset (or anything approaching one) to an arbitrary, even unbounded, signal ends up adding the same multiple of that constant to the output; for the basic filters the multiple is the sum of the b coefficients over one plus the sum of the a coefficients. In IEEE arithmetic a filter that stays within E of its exact counterpart (C73, C83) ends up within any distance above E of that periodic signal, and within any distance above 2 E of the shifted output.", "quantifier": "all periods, all periodic signals, all starting states of the six basic stable filters, all valid parameters of the nine rbj filters; floats: all formats and math libraries", "why_tests_cant": "Limits of infinite streams, for every period and every wave form.", "anchors": ["src/filter/{one_pole,one_zero,two_pole,two_zero,biquad}.rs: process", "src/filter/rbj/*.rs: set_coefficients, process"]}
{"id": "C124", "title": "Limit cycles in floating point", "statement": "In IEEE arithmetic the response of every filter and analysis type to a periodic signal ends in an exact cycle, whatever the state, the coefficients (stable or not) and the samples (NaN and infinities included). If the signal repeats every N samples, the output repeats exactly every j N samples from sample M N on, and M + j is at most the number of floats (4278190084 in f32) for OnePole, LeakyIntegrator and both detectors, its square for TwoPole, Biquad2 and the nine rbj filters, its square plus 2 for Biquad1. Without feedback the output repeats with the input: OneZero after 1 sample, TwoZero after 2, a new Delay after min(d, m), a new LinearDelay after m, in every arithmetic. Anything built from such parts whose reachable states lie in a finite set ends in a cycle too. If the filter stays within E of its exact counterpart (C73, C83), the cycle lies within E of the periodic signal that the exact filter settles into, and on silence within E of zero. The cycle on silence need not be zero: in every format a OnePole with a1 = -3/4 that holds the smallest positive number gives it back forever, though it decays in exact arithmetic.", "quantifier": "all states, coefficients, periods and periodic signals, all formats and math libraries, both build modes", "why_tests_cant": "Cycles may start only after more samples than could ever be processed; all states and signals.", "anchors": ["src/filter/{one_pole,one_zero,two_pole,two_zero,biquad}.rs: process", "src/filter/rbj/*.rs: process", "src/analysis/{leaky_integrator,peak_detector,rms_detector}.rs: process", "src/delay/{mod,linear_delay}.rs: new, process"]}
{"id": "C125", "title": "A filter in the feedback path: damped loops and plucked strings", "statement": "In every round read next_out of a delay line, send it through a filter, add the input and process the sum. For a new Delay and any filter that never panics, in any arithmetic and with any way of adding, the loop runs forever and its streams are exactly those with v the processed samples e rounds ago, w the filter's response to v and u[n] = c(x[n], w[n]); e is the clipped delay, or the number of slots if that is 0. The same in exact arithmetic with a new LinearDelay of delay at least 1 and the interpolated past. Plucked string: with u = x + w and an averaging OneZero (b0, b1 > 0, b0 + b1 = 1) in exact arithmetic, once the input is over no sample leaves the range of the samples in the loop, u converges to the constant (sum of the input) / (d + b1), and each round the energy in the loop falls by exactly b0 b1 (u[n-d] - u[n-d-1])^2; so the string does not fall silent unless the input sums to 0. A LinearDelay gives the same limit for every real length d. Any filter with peak gain G, fed back with factor g, |g| G < 1: |u| <= B / (1 - |g| G) for inputs bounded by B, with either line. Floating point: such a loop with a Delay stays finite and within (4 u V + 3 tiny + |g| E) / (1 - |g| G) of the exact loop forever, E being the filter's own error; the string with both coefficients 1/2 never exceeds a level B such that B and B/2 are representable, and never becomes infinite or NaN; and for every periodic input the loop ends in an exact cycle.", "quantifier": "all inputs, delays, line sizes, filters (of any type that meets the stated gain or error bound), all formats, both build modes and targets", "why_tests_cant": "Convergence and boundedness concern infinitely many rounds, all inputs and all filters.", "anchors": ["src/delay/mod.rs: new, next_out, process", "src/delay/linear_delay.rs: new, next_out, process", "src/filter/one_zero.rs: process"]}
{"id": "C126", "title": "The mean and the level of the cycles that floating-point processors end in", "statement": "By C124 the floating-point response to a signal of period N ends in an exact cycle. Take the mean and the root mean square (level) of one such cycle. If the processor stays within E of its exact twin and the twin multiplies the mean of periodic signals by g, the mean of the cycle is g times that of the input within E; if the twin multiplies the energy of a period by something from lo^2 to hi^2, the level of the cycle is from lo to hi times that of the input, within E. In exact arithmetic the factor g is b0/(1+a1), b0+b1, b0/(1+a1+a2), b0+b1+b2 and (b0+b1+b2)/(1+a1+a2) for the stable basic filters and 1 for LeakyIntegrator. In f64, with sin and cos accurate to within 2 units of 2^-53 in absolute error, frequencies from 1/16 to 7/16 of the sample rate, q from 1/2 to 1 and samples in [-1, 1], the cycles of LowPass, BandStop and AllPass have the mean of the input within 1e-7, those of HighPass and the band-passes a mean within 1e-7 of zero; the level of AllPass is that of the input within 1e-7, those of the others at most that times their peak gain plus 1e-7. LeakyIntegrator keeps the mean within 6 (u X + tiny) / (1 - alpha). PeakEnvDetector: the mean of the readings is at least that of |x| if the attack gain is at most the release gain, and at most if it is at least, within 6 (u X + tiny) / (1 - g), g bounding both gains; RmsEnvDetector the same with levels and its own error bound, so with equal gains its readings have the level of the signal.", "quantifier": "all periodic inputs of magnitude at most X, all periods, coefficients and states that meet the bounds, all formats (cookbook filters: binary64), both build modes", "why_tests_cant": "The cycle may be reached only after up to 2^128 periods, and the claim is for every periodic input.", "anchors": ["src/filter/one_pole.rs: process", "src/filter/biquad.rs: process", "src/filter/rbj/mod.rs: process", "src/analysis/leaky_integrator.rs: process", "src/analysis/peak_detector.rs: process", "src/analysis/rms_detector.rs: process"]}
{"id": "C127", "title": "Spectra of Bartlett, Triangular and Hann at every frequency, and how fast they leak", "statement": "In exact arithmetic, at 2c radians per sample and counted from the middle of the window: Bartlett with a + d + 1 points (a = d or a = d + 1) has the spectrum 2/(a+d) sin(ac) sin(dc) / sin^2 c; Triangular with n points 2/n cos c sin^2(nc/2) / sin^2 c for even n and (1 - cos c cos(nc)) / (n sin^2 c) for odd n; Hann with N + 1 points sin(Nc) cos c sin^2 d / (2 sin c (sin^2 d - sin^2 c)), d = pi/N (each stated without division, so for every c). Hence the straight windows leak at most 2/(n sin^2 c), n the number of points (Bartlett: of steps), and Hann at most sin^2 d / (2 |sin c| |sin^2 c - sin^2 d|); where sin c is not 0 (and for Hann sin^2 c not sin^2 d) they vanish exactly where the numerators do, so Triangular with an odd number of points nowhere. With an odd number of points both straight windows have a real spectrum that is nowhere negative; Bartlett with 2m + 2 points is negative for pi/(m+1) < c < pi/m. apply_window with any shape on A cos(w i + phi), w any frequency, gives the window's spectrum moved to w and -w with factors A/2 e^(+-i phi), so what is left at a frequency is at most |A|/2 times the sum of the leakages over the two distances.", "quantifier": "all window sizes below the pointer range, all frequencies, amplitudes and phases; both build modes and targets", "why_tests_cant": "The claim is for every size and every real frequency; a test evaluates a few bins of a few windows.", "anchors": ["src/window/bartlett.rs", "src/window/triangular.rs", "src/window/hann.rs", "src/window/mod.rs: apply_window"]}
{"id": "C128", "title": "A filter in the feedback path of a fractional delay line, in floating point", "statement": "In IEEE arithmetic, read next_out of a LinearDelay of at most 2^24 slots and delay at least 2, send it through a filter, add the input and process the sum, round after round. From every reachable state of the line, for every filter that never panics and every way of adding, the loop runs forever and its streams are exactly, bit for bit, those in which the line answers u with v, the filter answers v with w and u[n] = c(x[n], w[n]); process returns v again. A new line of m + 1 < 2^24 slots with delay d >= 2, clipped to m, that is a whole number or clear of the rounding of positions (C78), a filter with peak gain G and own error E and a factor |g| < 1 with |g| G < 1: for inputs up to X and as long as nothing comes near overflow every sample in the loop is finite and within (4 u V + 3 tiny + |g| (E + G lam)) / (1 - |g| G) of the exact loop forever, lam = 2 W (m+1) / 2^22 + 6 (u W + tiny) being the error of the interpolation. For every input of period N the loop ends in an exact cycle: from round M N on it repeats every j N rounds, M + j at most m + 1 + (number of floats)^(m+1) times the number of states of the filter.", "quantifier": "all inputs, delays, line sizes, filters (of any type that meets the stated gain or error bound), all formats at least as precise as f32, both build modes and targets", "why_tests_cant": "The claims are about infinitely many rounds and every filter, input and delay.", "anchors": ["src/delay/linear_delay.rs: new, set_delay, next_out, process", "src/traits.rs: Processor"]}
{"id": "C129", "title": "Spectra of the cosine windows at every frequency", "statement": "In exact arithmetic the spectrum of a cosine window (Hann, Hamming, Blackman, Blackman-Harris) with N + 1 points and coefficients a_k, counted from the middle, at 2c radians per sample is real and equals w[0] cos(Nc) + sin(Nc) sin(2c)/2 times the sum of a_k / (sin^2 c - sin^2(k pi/N)), wherever no term divides by zero. The first sample w[0] is 0 for Hann and Blackman, 0.08 for Hamming and 0.00006 for Blackman-Harris. Consequences: at every frequency j/N of the sample rate that is not one of the cosines' the spectrum is exactly (-1)^j w[0], so Hamming and Blackman-Harris leak 0.08 and 0.00006 there at any distance while Hann and Blackman leak nothing; if w[0] and sin^2 c times the sum are at most M, the leakage is at most M/|sin c|; Hamming leaks at most 0.08/|sin c| wherever sin^2 c >= 31/8 sin^2(pi/N); Blackman leaks at most sin^2 d |(0.18 + 0.32 sin^2 d) sin^2 c - 0.42 sin^2 2d| / (|sin c| |sin^2 c - sin^2 d| |sin^2 c - sin^2 2d|), d = pi/N.", "quantifier": "all window sizes below the pointer range, all frequencies at which no denominator vanishes; both build modes and targets", "why_tests_cant": "The claim is for every size and every real frequency; a test evaluates a few bins of a few windows.", "anchors": ["src/window/hann.rs: generate_window", "src/window/hamming.rs: generate_window", "src/window/blackman.rs: generate_window", "src/window/blackman_harris.rs: generate_window"]}
{"id": "C130", "title": "Side lobe levels of the windows", "statement": "In exact arithmetic, relative to the value at frequency 0 (the sum of the window), the spectrum of every window with at least 64 steps (points for Triangular) is, at every frequency outside the main lobe and its repetitions at multiples of the sample rate: at most 1/30 for Hann and 1/100 for Hamming, outside two bins (a bin is 2 pi / N radians per sample, N the number of steps); at most 1/500 for Blackman, outside three bins; at most 1/10000 for Blackman-Harris, outside four bins; at most 1/16 for Bartlett and Triangular outside two bins. Consequently a sinusoid of any amplitude A, frequency and phase that goes through apply_window leaves, at every frequency outside the main lobes around it and its mirror image, at most that fraction of |A| times the sum of the window.", "quantifier": "all window sizes from 64 steps up to the pointer range, all real frequencies outside the main lobe; all amplitudes, phases and frequencies of the sinusoid; both build modes and targets", "why_tests_cant": "The level is a supremum over a continuum of frequencies, claimed for every size; a test samples some frequencies of some windows.", "anchors": ["src/window/hann.rs: generate_window", "src/window/hamming.rs: generate_window", "src/window/blackman.rs: generate_window", "src/window/blackman_harris.rs: generate_window", "src/window/bartlett.rs: generate_window", "src/window/triangular.rs: generate_window", "src/window/mod.rs: apply_window"]}
{"id": "C131", "title": "Frequency responses of feedback loops", "statement": "In exact arithmetic, a delay line (a new Delay of length d >= 1, or a new LinearDelay of any real length d >= 1) in a loop with a filter that convolves, has peak gain G and response K at the frequency w, fed back with a factor g such that |g| G < 1, and driven by a sinusoid of that frequency and any amplitude and phase: the sample in the loop converges to the sinusoid multiplied by H = 1/(1 - g K P), what the line returns to P H times, P being e^(-iwd), or its linear interpolation between the neighbouring whole numbers. So |H| is between 1/(1 + |g| G) and 1/(1 - |g| G) at every frequency. Comb u = x + g v: |H| = 1/sqrt(1 - 2 g cos(wd) + g^2), and v - g u keeps the amplitude of sinusoids of every frequency. Plucked string with the averaging filter (1/2, 1/2): |H| = 1/sqrt(1 - 2 c cos(w(d + 1/2)) + c^2) with c = g cos(w/2), never more than 1/(1 - |c|), and exactly that at the multiples of 1/(d + 1/2) of the sample rate where c >= 0: the string is tuned half a sample lower than its delay.", "quantifier": "all delays within the line, all frequencies, amplitudes, phases, all convolving filters and factors with |g| G < 1; both build modes and targets", "why_tests_cant": "The claim is a limit for every loop and every real frequency; a test runs a few loops for a finite time.", "anchors": ["src/delay/mod.rs: next_out, process", "src/delay/linear_delay.rs: next_out, process", "src/filter/one_zero.rs: process"]}
{"id": "C132", "title": "Spectra and side lobes of the windows in floating point", "statement": "In every IEEE format with a cosine accurate to k units of 2^-precision, u = 2^-precision: at every frequency the spectrum of a window of n points as computed is within n (k + 50) u of the spectrum of the window in exact arithmetic; so with at least 65 points its side lobes, relative to its own sum, stay below the levels of C130 plus 7 (k + 50) u. In f32 with a cosine accurate to one unit in the last place that adds less than 2.2e-5, so that Blackman-Harris stays below 1/8100 (78 dB down). A sinusoid of amplitude A sampled up to an error of eta per sample that goes through apply_window, overflow excluded, gives finite samples, and at every frequency outside the main lobes around it and its mirror image a spectrum of at most level times |A| times the sum of the exact window, plus n ((k + 52) u (|A| + eta) + tiny + eta).", "quantifier": "all formats, all accurate libraries, all six windows, all sizes (side lobes: from 65 points) up to the pointer range, all real frequencies; all sinusoids within the range and all their finite approximations; both build modes and targets", "why_tests_cant": "The claim is a supremum over a continuum of frequencies for every size, format and platform library.", "anchors": ["src/window/hann.rs: generate_window", "src/window/hamming.rs: generate_window", "src/window/blackman.rs: generate_window", "src/window/blackman_harris.rs: generate_window", "src/window/bartlett.rs: generate_window", "src/window/triangular.rs: generate_window", "src/window/mod.rs: apply_window"]}
{"id": "C133", "title": "Peak gains of the rbj filters, uniformly in the frequency", "statement": "In exact arithmetic, at every frequency between zero and half the sample rate, an rbj filter with q >= 1/2, whatever its earlier settings and samples, has a peak gain (the least upper bound of the output magnitudes over all inputs between -1 and 1), and it lies between q and 12 q + 9 for LowPass and HighPass (12 q for LowPass up to a quarter of the sample rate and for HighPass from there on), between q and 8 q for BandPass1, between 1 and 8 for BandPass2, 1 and 9 for BandStop, 1 and 17 for AllPass. For Peak with gain factor F = 10^(db/20) and q 10^(db/40) >= 1/2 it lies between max(1, F) and 1 + 8 |F - 1|; for the shelves with slopes that are not too flat (always so with slope 1) between max(1, F) and 22 (1 + F). So however low the frequency, the poles approaching the unit circle cost no headroom. The gain of any convolving filter at any frequency is at most its peak gain.", "quantifier": "all sample rates, frequencies below half of them, q >= 1/2, gains and slopes in range; all inputs; both build modes; earlier states of the filters are arbitrary", "why_tests_cant": "A supremum over all inputs, uniform over a continuum of filters whose impulse responses become arbitrarily long.", "anchors": ["src/filter/rbj/lowpass.rs: set_coefficients", "src/filter/rbj/highpass.rs: set_coefficients", "src/filter/rbj/bandpass.rs: set_coefficients", "src/filter/rbj/bandstop.rs: set_coefficients", "src/filter/rbj/allpass.rs: set_coefficients", "src/filter/rbj/peak.rs: set_coefficients", "src/filter/rbj/lowshelf.rs: set_coefficients", "src/filter/rbj/highshelf.rs: set_coefficients"]}
{"id": "C134", "title": "The rbj filters at low frequencies in floating point", "statement": "As C83 and C84, with errors that grow with 1/sin(w0)^2 instead of 1/sin(w0)^4 as the frequency approaches zero or half the sample rate, w0 being the angle of the frequency. With a library whose sin, cos and powf are accurate to k rounding units and q >= 1/2 (q 10^(db/40) >= 1/2 for Peak, slopes not too flat for the shelves), an rbj filter in IEEE arithmetic, fed finite samples of magnitude at most X, never panics and stays within K c (2 G + 3) (u X + tiny) of the same code in exact arithmetic, forever and in both build modes: u is the rounding unit, K bounds the sum of the magnitudes of the impulse response of the poles (3 q (1+alpha)^2 / sin(w0)^2), c the error of one step in rounding units (50 k + 1004 without a gain) and G the peak gain of C133. In f64, k = 2, at frequencies at least r sr away from zero and sr/2: within 5e-12/r^2 X for the six filters without gain, r >= 1e-6, q in [1/2, 1]; within 6e-9/r^2 X for Peak, q in [1, 2] and 3e-8/r^2 X for the shelves, slopes in [3/5, 1], gains up to 12 dB, r >= 1/50000. So 20 Hz at 48 kHz is covered, which C83 and C84 do not reach in f64.", "quantifier": "all IEEE formats with room; all parameters in range; all sequences of finite samples up to X; libraries assumed only accurate to k rounding units; both build modes; the earlier states of the filters are arbitrary", "why_tests_cant": "Bounds on accumulated rounding over unboundedly long inputs, for a continuum of parameters, with poles close to the unit circle.", "anchors": ["src/filter/biquad.rs: Biquad2::process", "src/filter/rbj/lowpass.rs: set_coefficients", "src/filter/rbj/highpass.rs: set_coefficients", "src/filter/rbj/bandpass.rs: set_coefficients", "src/filter/rbj/bandstop.rs: set_coefficients", "src/filter/rbj/allpass.rs: set_coefficients", "src/filter/rbj/peak.rs: set_coefficients", "src/filter/rbj/lowshelf.rs: set_coefficients", "src/filter/rbj/highshelf.rs: set_coefficients"]}
{"id": "C135", "title": "Which feedback loops around the rbj filters are stable", "statement": "In exact arithmetic, a delay line (a new Delay or LinearDelay of any length d >= 1) in a loop u = x + g w, w being what a filter makes of the line's output. (1) If the filter never multiplies the energy of its input by more than M^2 and |g| M < 1, the energy in the loop is at every moment at most 1/(1 - |g| M)^2 times that of the input so far; the filter need not be linear. (2) If moreover the filter convolves with an exponentially decaying impulse response, the loop is stable: it stays within a fixed multiple of the bound of the input, and after the end of the input it dies away exponentially, at a rate that does not depend on the input; and in every stable loop g K P is not 1 at any frequency and sinusoids settle to 1/(1 - g K P) times (C131). (3) So the rbj filters are stable in every such loop when |g| times their largest gain for sinusoids (C71) is below one: LowPass and HighPass resonance(q), BandPass1 q, BandPass2, BandStop and AllPass 1, Peak and shelves max(1, gain); the peak gain for bounded inputs (C133), which C125 and C131 needed, is larger. (4) Conversely no loop of any length is stable around LowPass, BandStop, AllPass, Peak or HighShelf with g >= 1, or around LowShelf with g times its gain >= 1; with a Delay of d samples none around HighPass, BandStop, AllPass with (-1)^d g >= 1, HighShelf with (-1)^d g times its gain >= 1; and with a delay of whole periods of the centre frequency not BandPass1 with g = 1/q, BandPass2 with g = 1, Peak with g one over its gain, AllPass with g = -1.", "quantifier": "all delays within the line, all valid settings, all factors, all inputs; both build modes and targets", "why_tests_cant": "Stability is a claim about all inputs and all time, and the limits of g are exact; a test runs a few loops for a finite time and cannot tell a slow decay from none.", "anchors": ["src/delay/mod.rs: next_out, process", "src/delay/linear_delay.rs: next_out, process", "src/filter/rbj: set_coefficients, process"]}
{"id": "C136", "title": "Comparing, copying and printing windows", "statement": "The code derived for Window (Clone, Copy, Debug, Eq, PartialEq): two windows are == exactly when apply_window does the same with them to every slice, in exact arithmetic (four ones tell all seven apart); == is reflexive, symmetric and transitive, != is its opposite; a clone is == to the original and does the same to every slice in any float arithmetic; two windows print the same name exactly when they are ==.", "quantifier": "all windows, all slices, both build modes and targets", "why_tests_cant": "That == agrees with behaviour quantifies over all slices; a test compares some slices.", "anchors": ["src/window/mod.rs:25 derive", "src/window/mod.rs: apply_window"]}
{"id": "C137", "title": "Feedback delay networks of Delays", "statement": "N new Delays of any lengths between 1 and their maxima; in every round all announce their next samples (next_out), any function of the round, the inputs and the announced samples makes the samples they then process. (1) For any sample type the network runs forever, and the streams are exactly those in which line i announces and returns what it processed d_i rounds ago: next_out of one line is not affected by the others, and reading all of them before processing loses nothing. (2) In exact arithmetic, when the samples are inputs plus a mix of the announced ones: if the mixer keeps the sum of squares, the energy in the lines never changes after the input has ended; if it keeps at most g^2 of it, at most g^2 is left after every D rounds, D being the longest line; and with g < 1 the energy processed up to any moment is at most 1/(1-g)^2 times that of the inputs so far. Orthogonal matrices and the Householder mixer keep the sum of squares. The mixer may change over time and need not be linear. (3) In floating point, line i being fed its input plus g times what line sigma(i) announces, for any sigma (two lines exchanged: a ping-pong echo) and |g| <= 1 - 2^(4-p), the network stays finite and within 8 u X/(1-|g|)^2 + 6 tiny/(1-|g|) of the exact network, forever.", "quantifier": "all numbers of lines, lengths, mixers, inputs, times; all sample types for (1); all IEEE formats for (3); both build modes and targets", "why_tests_cant": "Losslessness and decay are claims about all time for all mixers; a test of a reverb runs a few seconds with one matrix, and rounding hides small leaks.", "anchors": ["src/delay/mod.rs: new, next_out, process"]}
{"id": "C138", "title": "Feedback delay networks with matrices in floating point, and with bounded inputs", "statement": "N new Delays of lengths d_i between 1 and D, S = sqrt(N D)/(1 - g). (1) In exact arithmetic, a mixer (linear or not, changing over time or not) that multiplies root energies by at most g < 1 keeps every sample of the network within S times the bound of the inputs. (2) In IEEE arithmetic, any mixing whose result is off by at most e in one round keeps the network finite and within e S of the exact network, forever, provided the exact mixing brings any two states closer by the factor g in root energy. (3) In particular feedback through matrices (for instance g times orthogonal ones, and changing over time), each row added up from the left onto the input, stays within 4 (N+1)^2 u (2 X + 6 N tiny) S^2 + 3 N tiny S of the network with the same matrices in exact arithmetic.", "quantifier": "all numbers of lines, lengths, mixers contracting by g < 1, inputs bounded by X, times; all IEEE formats with 8 (N+1)^2 u S <= 1 and no overflow at the bound; both build modes and targets", "why_tests_cant": "Rounding errors circulate forever in a network with no loss but g; a test over seconds cannot exclude a slow build-up, and there are as many networks as matrices.", "anchors": ["src/delay/mod.rs: new, next_out, process"]}
{"id": "C139", "title": "When the filters are exact in floating point", "statement": "(1) Samples that are multiples of 2^qx, feedforward coefficients that are multiples of 2^qb and whole feedback coefficients: as long as the solution z of the difference equation in exact arithmetic stays within Y and the format holds the multiples of 2^(qb+qx) up to (|b0|+|b1|+|b2|) X + (|a1|+|a2|) Y, all six filters return exactly z, also the one that is about to exceed Y. (2) So OnePole(1,-1) adds samples up without any error while the sums fit, OneZero(1,-1) takes differences without any error, the one after the other returns the very input forever although the filter is not stable, and a Delay with OnePole(1,-1) is a moving sum over d samples with no drift, forever, given room for (d+2) X. (3) TwoPole(1,a,1) with a = -1, 0, 1 turns an impulse into a signal that repeats exactly every 12 samples, forever. (4) Without a common grid sums stop growing: after a 1, OnePole(1,-1) returns 1 forever whatever samples from 0 to u/2 follow.", "quantifier": "all formats, exponents qb and qx, coefficients, inputs on the grid, rounds, delays; both build modes and targets", "why_tests_cant": "Absence of drift is about infinitely many rounds, and exactness about all inputs; a moving sum over float samples that are not on a grid drifts so slowly that tests of any realistic length pass.", "anchors": ["src/filter/one_pole.rs: process", "src/filter/one_zero.rs: process", "src/filter/two_pole.rs: process", "src/filter/two_zero.rs: process", "src/filter/biquad.rs: process", "src/delay/mod.rs: process"]}
{"id": "C140", "title": "Tails: how long the filters remember and ring", "statement": "In exact arithmetic. Run a filter twice with inputs that differ before sample N and are the same from N on (silence, for instance). If its poles are a complex pair, the outputs from N on differ by A r^n cos(theta n + phi) with theta strictly between 0 and pi and r = sqrt((1-beta)/(1+beta)). beta is sin(w0)/(2q) for LowPass, HighPass, both BandPasses, BandStop and AllPass with q > 1/2; sin(w0)/(2 q 10^(db/40)) for Peak with q 10^(db/40) > 1/2, so that a boost makes the tail longer; for the shelves with (A + 1/A)(1/S - 1) < 2, A = 10^(db/40), it is sqrt(A) sin(w0) sqrt((A + 1/A)(1/S - 1) + 2) divided by A + 1 + (A - 1) cos w0 (low) or A + 1 - (A - 1) cos w0 (high); for TwoPole and both biquads in any two states it is given by a2 = (1-beta)/(1+beta). The tail falls to one part in D after at most ln(D)/beta samples and not before (1-beta^2) ln(D)/beta samples, where the level is what two successive samples show. With q < 1/2 the six filters have tails K p^n + L q^n, p and q given.", "quantifier": "all parameters in the ranges named, all inputs, all N, n, D >= 1; both build modes", "why_tests_cant": "Tails have no end, and the claim compares any two pasts. Tests can look at the tail of an impulse with a few parameters.", "anchors": ["src/filter/rbj/*.rs: set_coefficients", "src/filter/biquad.rs: process", "src/filter/two_pole.rs: process"]}
{"id": "C141", "title": "One infinity or NaN: how far it reaches", "statement": "In IEEE arithmetic of any format, infinities and NaN included. OnePole, TwoPole, Biquad1 and Biquad2, in any state and with set_coefficients called with anything before every sample: once an input or an output is not finite, no later output is finite, and once one is NaN all later ones are NaN; new coefficients do not repair it. The same for the nine rbj filters while their coefficients stay. OneZero and TwoZero, likewise with any coefficients: a non-finite sample spoils its own and the next one (two) outputs, also with zero coefficients, and no other output depends on it. A LinearDelay set to a whole delay k (at most 2^24 slots) is not a Delay for such samples: an output is finite exactly when the sample k steps back and its neighbour k-1 steps back (delay 0: the oldest sample on the line) are finite, and is then == the sample k steps back. In a feedback loop (x + g v, or any combination that keeps non-finite samples) around a Delay a non-finite sample returns every loop length for ever and nothing else depends on it; around a LinearDelay with delay at least 2 it takes over the loop: no sample later than (max_delay-1)(max_delay-2) samples after it is finite.", "quantifier": "all states (delay lines: all reachable ones), all coefficients also changing, all streams, all positions of the bad sample, all formats and libraries", "why_tests_cant": "The claims are about all later outputs and all coefficient sequences; tests can show that a few outputs after one NaN are NaN.", "anchors": ["src/filter/one_pole.rs: process", "src/filter/two_pole.rs: process", "src/filter/one_zero.rs: process", "src/filter/two_zero.rs: process", "src/filter/biquad.rs: process", "src/delay/linear_delay.rs: next_out, process", "src/delay/mod.rs: next_out, process"]}
{"id": "C142", "title": "Rounded filters, combs and decibels keep order", "statement": "In IEEE arithmetic of any format, rounding and overflow included, and wherever the values compared are finite. For OnePole, OneZero, TwoPole, TwoZero, Biquad1 and Biquad2 whose feedforward coefficients are not negative and whose feedback coefficients are not positive: (a) a larger input and larger memories never give a smaller output, (b) after clear, an input that is at most z in magnitude at every sample gives outputs at most those of z in magnitude, and does not overflow where z's do not, so among inputs in [-c, c] the constant c is the worst, (c) after clear, a constant input from 0 up makes the output rise without ever falling until either it overflows for good or it stops changing at all after finitely many samples: there are no limit cycles and no overshoot. The same three for the loop x + g v (g not negative) around a new Delay, with (b) for the samples in the loop. (a) and (b) for a LinearDelay after set_delay with a finite delay whose clipped value is not just above an integer, fewer than 2^24 slots ((b) if no stored sample is negative). With a library whose log10 and powers of ten keep order, to_db and to_sample never map a larger finite sample or level to a smaller one, floors included.", "quantifier": "all formats, coefficients of those signs, states, input pairs, streams of any length; every reachable LinearDelay without pending next_out; all new delay lines and gains not negative; all finite samples and levels", "why_tests_cant": "Monotonicity under rounding at every sample of every pair of streams, and eventual constancy of the response, are statements about all streams and all time.", "anchors": ["src/filter/one_pole.rs: process", "src/filter/one_zero.rs: process", "src/filter/two_pole.rs: process", "src/filter/two_zero.rs: process", "src/filter/biquad.rs: process", "src/delay/mod.rs: next_out, process", "src/delay/linear_delay.rs: set_delay, process", "src/util/mod.rs: to_db, to_sample"]}
{"id": "C143", "title": "Different settings are different processors", "statement": "In exact arithmetic the first samples of the answer to a unit impulse tell the settings. OnePole and OneZero (two samples), TwoPole and TwoZero (three samples), b0 not 0 for OnePole and TwoPole, and Biquad1/Biquad2 (five samples, numerator and denominator without common factor) after clear: equal samples mean equal coefficients; with a common factor they do not, as the factor can be cancelled. LowPass, HighPass, BandPass1, BandPass2, BandStop and AllPass with valid parameters: five equal samples mean equal f/sample rate and equal q. Peak, LowShelf, HighShelf: five equal samples mean equal gain and, unless that is 0 dB, equal f/sample rate and equal q or slope; a LowShelf of slope 1/2 is in fact a first-order filter, with the given three coefficients. Two biquads with equal coefficients have the same future exactly if two samples of silence give the same outputs, for Biquad2 exactly if z1 and z2 are equal. The gain of a LeakyIntegrator follows from one sample, attack and release lengths of the detectors from two after clear, the delay of a new Delay or LinearDelay from the samples up to the delay (plus one).", "quantifier": "all coefficients and previous states, all valid rbj parameters, all positive lengths, all delays and allocatable maxima, both builds", "why_tests_cant": "Injectivity compares every pair of parameter settings in a continuum; a pair that wrongly coincides would have to be guessed.", "anchors": ["src/filter/one_pole.rs", "src/filter/one_zero.rs", "src/filter/two_pole.rs", "src/filter/two_zero.rs", "src/filter/biquad.rs", "src/filter/rbj/*.rs: set_coefficients", "src/analysis/leaky_integrator.rs", "src/analysis/peak_detector.rs", "src/analysis/rms_detector.rs", "src/delay/mod.rs", "src/delay/linear_delay.rs"]}
{"id": "C144", "title": "One code, two sample types", "statement": "The crate is generic in the sample type; this relates its uses at two types. Delay never looks at a sample: if a relation between two sample types holds between the zeros and between the samples fed to two new lines of the same delay and maximum, then any sequence of calls gives related samples, equal numbers and the same panic (with add_to the relation must respect sums); so converting samples before or after a line is the same. Two floating-point formats: any processor that stays within E and E' of the same exact one in the two formats agrees with itself within E + E' on equal inputs up to X. So LeakyIntegrator and PeakEnvDetector with equal gains and states agree within 6(uX + tiny)/(1 - g) for each format, the six rbj filters without gain set to the same values agree within the sum of their rounding bounds, and the windows of f32 and of f64 agree within 3.2e-6.", "quantifier": "all pairs of sample types, all relations, all sequences of calls; all formats, all inputs up to X, all window lengths from 2", "why_tests_cant": "Parametricity quantifies over types, relations and call sequences; the agreement of formats over all signals without bound on their length.", "anchors": ["src/delay/mod.rs", "src/analysis/leaky_integrator.rs", "src/analysis/peak_detector.rs", "src/filter/rbj/*.rs: set_coefficients", "src/window/*.rs"]}
{"id": "C145", "title": "Reading levels off the spectrum of a windowed signal", "statement": "A spectrum analyser that multiplies a block of samples by one of the windows of `src/window` reads the following. (1) The main lobe: with at least four points the spectrum of every window, counted from its middle, is real, even, nowhere larger than its sum, and strictly falling from frequency 0 over one whole bin (one turn in n-1 samples). (2) With at least 65 points, within half a bin of frequency 0 at least 81 % (Triangular, Bartlett), 84.8 % (Hann), 81.5 % (Hamming), 88 % (Blackman), 90.8 % (BlackmanHarris) of the sum of the window is left. (3) So a sinusoid of amplitude A, read within half a bin of its frequency and outside the main lobe of its mirror image, reads between (that level - the side lobe level) |A| and (1 + the side lobe level) |A|. (4) White noise of power P reads, at every frequency, P times the sum of the squares of the window; and that is (5) a noise bandwidth of 1.333 to 1.334 bins for Triangular and Bartlett, exactly 1.5 for Hann, 1.356 to 1.363 for Hamming, exactly 0.3046/0.1764 for Blackman, 2.004 to 2.0044 for BlackmanHarris.", "quantifier": "every window, every number of points from 4 (main lobe) or 65 (levels) on, every frequency, every sinusoid, every probability space and white noise on it", "why_tests_cant": "a test evaluates the spectrum of some window sizes at some frequencies; the bounds hold for the continuum of frequencies and all sizes, and an expected value is not a thing a test can compute", "anchors": ["src/window/hann.rs: generate_window", "src/window/hamming.rs: generate_window", "src/window/blackman.rs: generate_window", "src/window/blackman_harris.rs: generate_window", "src/window/bartlett.rs: generate_window", "src/window/triangular.rs: generate_window", "src/window/mod.rs: apply_window"]}
{"id": "C146", "title": "At high sample rates the rbj filters are the analog filters", "statement": "The rbj filters copy analog filters of the Audio EQ Cookbook. (1) The digital filter tuned to f answers to F exactly as the analog filter answers to r F, where r is between cos(pi f/sr) and 1/cos(pi F/sr), above 1 for every F above f and below 1 for every F below f: for tunings and frequencies up to a tenth of the sample rate r is off from 1 by at most 5.2 %. (2) As the sample rate grows without bound, with f, Q (or slope) and gain fixed, the gain and phase of each of the nine filters at every fixed frequency F tend to those of the analog transfer function at s = i F/f.", "quantifier": "all tunings f > 0, all Q > 0, all slopes in (0, 1], all gains in dB, all frequencies, all nine filters, all previous states of the filter; all sample rates above 2f and 2F for the factor", "why_tests_cant": "a limit over sample rates, and a bound over a continuum of tunings and frequencies", "anchors": ["src/filter/rbj/*.rs: set_coefficients", "src/filter/rbj/*.rs: process"]}
{"id": "C147", "title": "Debug builds and release builds", "statement": "Whatever a debug build (overflow checks, debug_assert!) returns, the release build returns too, bit for bit: new, every sequence of calls on Delay and LinearDelay from any state with any arguments, windows, to_db, apply_gain, and process_block of any processor that has this property. Where they differ, the debug build panics. Where they differ, completely: filters and analysers never; windows never; to_db exactly for arguments with the sign bit set, -0 included; apply_gain exactly for ratios that are infinite, NaN or have the sign bit set; Delay and LinearDelay made by new and used through any sequence of calls (any taps, sizes that cannot be allocated, any f32 delay, lines of any size) never, except for usize::MAX as the maximum in new or set_max_delay.", "quantifier": "all states, all sequences of calls, all arguments, 32- and 64-bit targets; any sample type (f32 delay times and any IEEE sample format for the lines of LinearDelay)", "why_tests_cant": "a comparison of two builds over all call sequences; overflow needs arguments near the end of usize", "anchors": ["src/delay/mod.rs:45-158", "src/delay/linear_delay.rs:46-195", "src/util/mod.rs:10-43", "src/window/*.rs", "src/traits.rs:39-44"]}
{"id": "C148", "title": "Noise as a measuring signal", "statement": "In exact arithmetic: feed any of the linear processors (cleared basic filters, LeakyIntegrator, rbj filters, new delay lines) with white noise of power P. The mean product of an input sample and the output k samples later is exactly P times the k-th sample of the impulse response, stable or not, and the output is uncorrelated with input still to come; a new Delay gives one peak at its (clamped) delay, a new LinearDelay two neighbouring peaks 1-r and r. For stable filters the mean products of output samples k apart tend to P*R[k], and R[0] + 2 sum R[k] cos(wk) is the square of the gain at the angle w (Wiener-Khinchin). For the basic filters R is given (OneZero, TwoZero, OnePole) or is exactly the solution of the Yule-Walker equations (TwoPole and the biquads, poles inside the unit circle); the first three correlations at the output of a TwoPole with b0 != 0 determine a1 and a2 by the formulas of linear prediction. An AllPass with valid parameters turns white noise into noise that ends up white.", "quantifier": "for all probability spaces (measures), white noises of any power, coefficients (stable where stated), rbj parameters in the valid range, delay sizes, lags and frequencies", "why_tests_cant": "Correlations are expectations over all noises and limits over time; a test averages finitely many samples of one pseudo-random run and can only estimate them.", "anchors": ["src/filter/*.rs, src/filter/rbj/*.rs: process", "src/analysis/leaky_integrator.rs: process", "src/delay/mod.rs, src/delay/linear_delay.rs: process"]}
{"id": "C149", "title": "What the meters read on noise", "statement": "In exact arithmetic, for random input whose samples all have the same mean magnitude M (peak detector) or mean square P (RMS detector, gains in [0,1], envelope not negative) and a detector with equal attack and release gain g >= 0: the mean of the n-th peak reading is exactly M + g^(n+1) (start - M), and the mean of the square of the n-th RMS reading P + g^(n+1) (start^2 - P). If the deviations of the magnitudes (squares) from their mean are uncorrelated with variance V, the variance of the readings (of their squares) about M (P) is exactly V (1-g)/(1+g) (1 - g^(2n+2)) + g^(2n+2) (start - mean)^2, which for g < 1 settles at V (1-g)/(1+g), and a reading is off by d or more with probability at most this over d^2. With unequal gains the meter is biased: if attack gain <= g <= release gain the mean is at least the one with both gains g, if release gain <= g <= attack gain at most that. Behind a linear filter with noise gain E, the mean square reading of an RMS detector with equal gains g < 1 tends to E times the power of the white noise in front of the filter.", "quantifier": "for all probability spaces, random signals of steady level, gains and start states as stated, all sample indices, filters that are convolutions with a finite noise gain, builds", "why_tests_cant": "Means and probabilities over all noises at every sample index; a test sees one pseudo-random run and can only estimate them, within exactly the fluctuation this property quantifies.", "anchors": ["src/analysis/peak_detector.rs: process, last_out", "src/analysis/rms_detector.rs: process, last_out", "src/filter/*.rs, src/filter/rbj/*.rs: process"]}
{"id": "C150", "title": "Reading levels off the spectrum of a windowed signal, in floating point", "statement": "C145 in IEEE arithmetic. With a cosine accurate to k units of 2^-precision (u = 2^-precision) and samples within eta of a signal of magnitude at most B, B + eta below half the largest power of two: apply_window with any shape gives finite samples, and at every frequency the spectrum of its n >= 2 results is within n e, e = (k + 52) u (B + eta) + tiny + eta, of that of the exactly windowed signal. Hence with n >= 65 points a sinusoid of amplitude A, read within half a bin of its frequency and outside the main lobe of its mirror image, reads (twice the spectrum over the sum of the exact window) between (half-bin level - side lobe level) |A| - 6 e and (1 + side lobe level) |A| + 6 e; in f32 with a cosine accurate to one unit in the last place, samples of a sinusoid of amplitude 1 within 2^-24 read between 0.9078 and 1.0002 through Blackman-Harris. Relative to the sum of the window as computed, within half a bin at least the level of C145 minus 7 (k + 50) u and at most 1 + 7 (k + 50) u is left. Bounded white noise of power P has, at every frequency, a spectrum whose root mean square is within n e of the root of P times the sum of the squares of the exact window.", "quantifier": "all formats with room, all libraries with an accurate cosine, all windows, sizes from 2 (levels: 65) points up to the pointer range, frequencies, sinusoids and their finite approximations, probability spaces and bounded white noises on them with any measurable approximation by floats; both build modes and targets", "why_tests_cant": "All sizes, frequencies, phases and rounding errors at once, and expectations over all noises; a test reads a few sinusoids with one math library.", "anchors": ["src/window/mod.rs: apply_window", "src/window/*.rs: iterators"]}
{"id": "C151", "title": "Phases of the shelves", "statement": "Let A = 10^(db/40), w0 the corner and K = (A^2 + 1)(1/S - 1) + 2A. There is a continuous angle eta on [0, pi], zero at both ends and below a half-turn in magnitude, such that at every frequency w a LowShelf moves sinusoids ahead by eta(w) and the HighShelf with the same parameters by -eta(w), with positive gains whose product is the factor 10^(db/20). Where they boost (db > 0) the LowShelf delays and the HighShelf advances sinusoids of every frequency strictly between 0 and pi; where they cut it is the other way around. At the corner eta is -2 arctan((A - 1)/sqrt K). The shift stays below a right angle at all frequencies exactly when (A^2 + 1)(2 - 1/S) < 4A: always for slopes up to 1/2, and for slope 1 exactly when |db| < 40 log10(2 + sqrt 3) = 22.88 dB. If (A^2 + 1)(1/S - 2) <= 4A, in particular from slope 1/2 on, and db is not zero, the shift is strictly largest at the corner.", "quantifier": "all sample rates, corners below half the sample rate, slopes in (0, 1], gains, previous states of the filters, frequencies, amplitudes and phases", "why_tests_cant": "All frequencies, gains and slopes at once, and limits of infinitely long outputs.", "anchors": ["src/filter/rbj/lowshelf.rs, highshelf.rs: set_coefficients, process"]}
{"id": "C152", "title": "Noise through filters and meters in floating point", "statement": "Let a processor in IEEE arithmetic stay within E of its exact twin on samples up to X (C73, C74, C83, C84), and let the input be random floating-point samples up to X that form white noise of power P. Then all outputs are finite, and with the noise gain G of the twin (C106) the root mean square of every output sample is at most sqrt(G P) + E and in the end within E of sqrt(G P). The mean product of an input sample and the output k samples later is within E sqrt(P) of P h[k], h the impulse response, and the correlation of output and later input at most E sqrt(P). The mean products of output samples k apart are in the end within E (2 sqrt(G P) + E) of P R[k] (C148). For the six rbj filters without gain E is the bound of C83 and G the closed form of C106; in f64, from 1/16 to 7/16 of the sample rate, q from 1/2 to 1, noise in [-1, 1], E = 10^-7. Detectors with equal attack and release gain g < 1 in floating point: the mean of the n-th peak reading is within 6 (u X + tiny)/(1-g) of M + g^(n+1) (start - M), M the mean magnitude, and the root mean square of the n-th RMS reading within 4 sqrt((u X^2 + tiny)/(1-g)) + u X + tiny of the root of P + g^(n+1) (e - P), e the stored mean square at the start.", "quantifier": "all formats, math libraries (accurate sine and cosine for the rbj filters), processors close to an exact twin, probability spaces, random streams of floats that are white (meters: of steady level), all sample indices and lags, both build modes", "why_tests_cant": "Expectations over all random inputs and limits of infinitely long outputs, with every rounding error; a test averages a few realisations.", "anchors": ["src/filter/*.rs, src/filter/rbj/*.rs: process", "src/analysis/peak_detector.rs, rms_detector.rs: process"]}
{"id": "C153", "title": "What the meters read on sinusoids and periodic signals in floating point", "statement": "In IEEE arithmetic, with u = 2^-precision, tiny the smallest positive number, ripple(g, w) = (1-g)/sqrt(1 - 2g cos 2w + g^2): an RmsEnvDetector with equal gains g < 1 and stored mean square e in [0, X^2], fed with samples of a sinusoid of amplitude A != 0 and angle w, each off by at most eta, |A| + eta <= X, gives finite readings, the n-th within (1+u) (sqrt 2/|A|) (A^2/2 ripple(g,w) + g^(n+1) (e + A^2) + 2 X eta + 9 (u X^2 + tiny)/(1-g)) + u |A| + tiny of |A|/sqrt 2. With a filter in front that stays within E of an exact filter of peak gain at most K and gain G at w, the readings are in the end as close to |G A|/sqrt 2, with G A for A, Y >= K X + E for X and K eta + E for eta: the detector measures the frequency response. In f32 with A = 1 and g <= 1 - 1/4801 a cleared detector is within 0.71 ripple + 1.42 g^(n+1) + 0.004 of 1/sqrt 2; in f64 a sinusoid of amplitude 1/2 at the frequency of a LowPass (1/16 to 7/16 of the sample rate, q from 1/2 to 1), g <= 1 - 1/48001, in the end reads within 0.36 ripple + 10^-4 of q/(2 sqrt 2). A cleared PeakEnvDetector with attack gain 0 and release gain r reads at most |A| + eta + 6 (u X + tiny)/(1-r) and, from sample N-1 on, at least |A| cos(w/2) r^(N-1) minus the same error, N >= pi/w. On samples of period N detectors with gains at most g < 1 read in the end, up to the errors of C74, numbers of period N whose mean (mean square) is at least that of the magnitudes if attack gain <= release gain and at most that if release gain <= attack gain.", "quantifier": "all formats and math libraries, all gains, starts, amplitudes, frequencies, phases, periods and sample errors in the stated ranges, all filters close to an exact twin with a response at w, all sample indices; both build modes", "why_tests_cant": "A continuum of frequencies, phases, gains and sample errors, every rounding pattern, and limits of infinitely long runs.", "anchors": ["src/analysis/rms_detector.rs: process, src/analysis/peak_detector.rs: process", "src/filter/*.rs, src/filter/rbj/*.rs: process"]}
{"id": "C154", "title": "A level meter in decibels, and the gains it shows", "statement": "In IEEE arithmetic with log10 and powers of ten accurate to k rounding units (as in C98): to_db of a reading within a relative error e < 1 of R is finite and within 8.75 e/(1-e) + 120 (k+3) u dB of 20 log10 R, if (1-e) R is above 10^-6 and (1+e) R at most 10^6. apply_gain with to_sample(d), -120 < d <= 130, turns samples of a sinusoid of amplitude A, each off by at most eta, |A| + eta <= X, into samples of one of amplitude F A, F = 10^(d/20), each off by at most F (eta + (k+18) u X) + tiny, without panicking in either build. In f64 with k = 2, a meter made of a cleared RmsEnvDetector with equal gains g <= 1 - 1/48001 and to_db, where ripple(g, w) (see C153) is at most 1/20: on samples of a sinusoid of amplitude A between 10^-4 and 16, relative error 2^-45, it shows 20 log10|A| - 10 log10 2 (3.01 dB below the amplitude) within 10 ripple + 20 g^(n+1) + 10^-6 dB, for every n with g^(n+1) at most 1/100. A fader set to v dB, -60 <= v <= 24, between a full-scale sinusoid and the meter moves the display by v, with the same errors. A Peak (q from 1 to 2) at its frequency, a distance r sr, r >= 1/40, from 0 and half the sample rate, moves it in the end by its gain db, |db| <= 12, within 10 ripple + 1.1e-4/r^2 + 10^-3 dB; a LowShelf or HighShelf (slope from 3/5 to 1, r >= 1/16) at its corner by db/2, within 10 ripple + 5.7e-4/r^2 + 10^-3 dB. The ripple is at most (1-g)/(2 sqrt g |sin w|).", "quantifier": "all sinusoids, phases, sample errors, gains, faders, filter parameters and previous filter states in the stated ranges, all accurate maths libraries, all (or all late enough) sample indices; both build modes", "why_tests_cant": "A continuum of parameters, every rounding pattern, every library within the accuracy, and limits of infinitely long runs.", "anchors": ["src/util/mod.rs: to_db, to_sample, apply_gain", "src/analysis/rms_detector.rs: process, clear", "src/filter/rbj/peak.rs, lowshelf.rs, highshelf.rs: set_coefficients, process"]}
{"id": "C155", "title": "Frequency responses of finite impulse responses built from taps; echoes and flangers", "statement": "Reading taps of a new Delay (any type of sample) or of a new LinearDelay (exact arithmetic, any delay) after every sample, as in C116, computes the finite impulse response of the taps and nothing else. In exact arithmetic: with H = sum c e^(-i w k) over the taps (c, k), a sinusoid of angle w comes out multiplied by |H| and shifted by arg H exactly, with no transient, from the first sample that has reached all taps; |H| is at most the sum of the |c|. If the taps read the same from both ends of M samples, every sinusoid is delayed by M/2 and multiplied by a real number of magnitude |H|. The average of N samples has |H| N |sin(w/2)| = |sin(N w/2)|, and gives the mean of anything of period N exactly. An echo has |H|^2 = 1 + 2 g cos(w d) + g^2. x + g line.process(x) with a LinearDelay makes 1 + g P of a sinusoid from sample floor(d)+1, P being what interpolation makes of it; with g = 1 a whole delay k cancels w k = pi exactly, but delay k + 1/2 leaves 1 - cos(w/2) of w (k + 1/2) = pi. With no delay tapped twice, the least upper bound of the output for inputs between -1 and 1 is the sum of the |c|, and white noise of power P comes out with power P times the sum of the c^2, exactly. In IEEE arithmetic: with N <= 2^p / 4 finite weights of total magnitude S, and samples up to X with 5 (S X + N tiny) <= 2^emax, outputs are finite and within 4 N (u S X + tiny) of the exact sum forever; samples of a sinusoid of amplitude A, each off by at most eta, come out within S eta + 4 N (u S (A + eta) + tiny) of the sinusoid changed by H; an echo of weight one cancels samples that are exactly opposite to those d before exactly.", "quantifier": "all tap lists within the capacity, weights, frequencies, amplitudes, phases, streams, formats and math libraries; all late enough sample indices; both build modes", "why_tests_cant": "A continuum of frequencies and weights, least upper bounds over all inputs, expectations over noise and errors over every rounding pattern.", "anchors": ["src/delay/mod.rs: new, process, tap_out", "src/delay/linear_delay.rs: new, process, tap_out"]}
{"id": "C156", "title": "Limiters and levellers built on the detectors", "statement": "A limiter calls process of a detector for the reading e and turns the sample x into x / e * t if e > t, t being its threshold. In IEEE arithmetic, on a PeakEnvDetector with attack gain 0 (as new) and release gain in [0,1), from any envelope, for samples up to X, 2X <= 2^emax: all outputs are finite and never above t, not even by a rounding error, and equal the input bit for bit until something exceeds t. If the gain t / e is worked out first this fails: in f64 there are t < x with (t / x) * x > t. A leveller, x / e * t always, also stays below t where the sample is not zero, but gives NaN for leading silence. In exact arithmetic, for cleared detectors: with attack gain a in [0,1) the least upper bound of the output over all inputs is t / (1-a); with immediate attack, release gain r in (0,1), and the sample taken from a Delay of d samples, it is t / r^d. In IEEE arithmetic that limiter gives at most (t + D)/r^d for samples up to X, D = 6 (2^-p X + 2^emin)/(1-r), up to the rounding of its two operations (ordinary formats, r^-d not too large for them). A leveller does not see a factor c of its input, except for its sign. On a sinusoid of any amplitude, a leveller on an RmsEnvDetector with equal gains g gives the sinusoid of amplitude sqrt(2) t, within sqrt(2) t (ripple(g,w) + 2 g^(n+1)), if that bracket is at most 1/2 (ripple as in C153).", "quantifier": "all streams, thresholds, gains and envelopes in the stated ranges, all formats and math libraries, all amplitudes, frequencies and phases; both build modes", "why_tests_cant": "Suprema over all inputs, every rounding pattern, and a continuum of amplitudes and frequencies.", "anchors": ["src/analysis/peak_detector.rs: new, process, clear", "src/analysis/rms_detector.rs: process, clear", "src/delay/mod.rs: new, process"]}
{"id": "C157", "title": "Reverberators of comb and all-pass loops", "statement": "Schroeder's reverberator: any number of comb loops u = x + g v around Delays side by side, outputs added, then any number of all-pass loops v - g u in series. In any arithmetic it answers every input with exactly one output, and no call panics. In exact arithmetic: the comb part answers an impulse, at sample n, with the sum of g^(n/k) over the loops whose period k divides n (k the clipped delay, all max_delay+1 slots for delay 0); with gains 10^(-3k/R) that is 10^(-3n/R) times the number of such loops, so it falls by 60 dB in R samples; for |g| < 1 its energy is the sum over pairs of loops of 1/(1 - g^(l/k) h^(l/j)), l the least common multiple of the periods; the all-pass part keeps the energy of everything of finite energy; with N combs of gain up to c and M all-passes of gain up to a, inputs up to B give outputs up to N (1+2a)^M B/(1-c). In IEEE arithmetic, gains up to 1 - 16u, the output is finite and stays within an explicit bound of the exact reverberator for ever; for four combs with |g| <= 0.9, two all-passes with |g| <= 0.75 and samples in [-1,1] that bound is 72000 u: 8e-12 in f64, 0.0043 in f32.", "quantifier": "all lists of loops, all delays, lengths and gains in the stated ranges, all input streams, all sample indices; all formats (the numbers: ordinary formats with at least 24 bits) and math libraries; both build modes", "why_tests_cant": "Infinite streams, all numbers of loops, and a worst-case rounding bound that holds for ever.", "anchors": ["src/delay/mod.rs: new, next_out, process"]}
{"id": "C158", "title": "Low-pass filters designed with a Hann or Blackman window", "statement": "The 2M+1 samples sin(W m)/(pi m) of the ideal low-pass filter with edge W, run through apply_window with a Hann or Blackman window (M >= 32), then used as tap weights of a delay line as in C116 and C155. apply_window succeeds and returns 2M+1 weights. In exact arithmetic every sinusoid is delayed by exactly M samples from sample 2M on and multiplied by a real gain r; at a distance t of at least four bins (8 pi/2M) from the edge, r is within rho(t) of 1 below the edge and within rho(t) of 0 above it, where rho is an explicit sum of logarithms; rho(t) is at most 0.171 (Hann) or 0.069 (Blackman) times sin^2(pi/2M)/sin^2(t/2), so at most 0.0114 or 0.0046. In IEEE arithmetic, with samples of the ideal response off by at most e and a cosine accurate to k ulps, samples of a sinusoid of amplitude A off by at most eta come out finite and within (2M+1) d A + S eta + 4 (2M+1)(u S (A+eta) + tiny) of the same delayed sinusoid, d = (k+52) u (1+e) + tiny + e, S = (2M+1)(1+d).", "quantifier": "all M >= 32 with 2M+1 in range of usize, all edges, frequencies, amplitudes and phases, all lines that compute finite impulse responses (among them every new Delay, and in exact arithmetic every new LinearDelay, with room for the taps), all sample indices from 2M; all ordinary formats and libraries with an accurate cosine; both build modes", "why_tests_cant": "A continuum of edges and frequencies and all lengths; a test sees the gain only on a grid of frequencies.", "anchors": ["src/window/mod.rs: apply_window", "src/window/hann.rs: generate_window", "src/window/blackman.rs: generate_window", "src/delay/mod.rs: new, process, tap_out"]}
{"id": "C159", "title": "High-pass, band-pass and other filters designed with a window; crossovers", "statement": "C158 for sums of ideal low-pass filters with any real gains and edges (edge pi passes everything): run through apply_window with a Hann or Blackman window of 2M+1 points, M >= 32, and used as tap weights. In exact arithmetic every sinusoid is delayed by exactly M samples from sample 2M on and multiplied by a real gain that, at least t >= four bins away from all edges but pi (these between 0 and pi - t), is within rho(t) times the sum of the magnitudes of the steps of the ideal gain, rho as in C158; high-pass filters have gain 0 below and 1 above the edge and one step, band-pass and band-stop filters two. With any window and any M >= 1, the outputs of a filter and of its complement (all minus the filter) add up to the input M samples ago exactly, for every input. In IEEE arithmetic the output of the filter is finite and within (2M+1) d A + S eta + 4 (2M+1)(u S (A+eta) + tiny) of the sinusoid with such a gain, d = (k+52) u (B+e) + tiny + e, S = (2M+1)(B+d), B the sum of the magnitudes of the gains.", "quantifier": "all lists of gains and edges, all M in range, all frequencies, amplitudes, phases, all lines that compute finite impulse responses (among them every new Delay, and in exact arithmetic every new LinearDelay, with room for the taps), all inputs (crossover), all sample indices from 2M (all indices for the crossover); all ordinary formats and libraries with an accurate cosine; both build modes", "why_tests_cant": "A continuum of edges, gains and frequencies, any number of bands and all lengths.", "anchors": ["src/window/mod.rs: apply_window", "src/window/hann.rs: generate_window", "src/window/blackman.rs: generate_window", "src/delay/mod.rs: new, process, tap_out"]}
{"id": "C160", "title": "Compressors built on the detectors and the decibel conversions", "statement": "A client reads a level with `e = det.process(x)` and `l = to_db(e)` and gives `apply_gain(x, to_sample((t - l) * c))` if l > t, else x (t the threshold in dB, c = 1 - 1/ratio; theta = 10^(t/20)). In exact arithmetic with t >= -120, on a cleared detector: it runs on every input. On a peak detector with attack gain a the output never exceeds the static curve of that sample (a below theta, theta^c a^(1-c) above) divided by (1-a)^c, whatever came before, so with immediate attack the static curve itself; a first sample that is loud enough reaches the bound. Where the reading is not above theta nothing is changed. With either detector, while the readings are above theta and no more than 120 dB are taken away, turning the input up by k turns the output up by |k|^(1-c): one decibel for each `ratio` decibels. On a sinusoid of amplitude A > 2 theta, an RMS detector with equal gains g gives the sinusoid times (sqrt 2 theta/|A|)^c, within c times the ripple plus 2 g^(n+1). In IEEE arithmetic with |t| <= 100, readings up to one million and at most 119 dB taken away, the output is finite and is the sample times the ideal gain within (16k+114) 2^-p relative (k the accuracy of log10 and powers of ten) plus underflow, near the threshold too; on a peak detector with immediate attack no output is above the static curve by more than that.", "quantifier": "all thresholds and ratios in range, all attack and release gains in [0,1), all inputs, all factors, all sinusoids above twice the threshold, all sample indices; all ordinary formats and libraries with accurate log10 and powers of ten; both build modes", "why_tests_cant": "The bound holds for every past and every sample, and the ratio for every input and every factor.", "anchors": ["src/analysis/peak_detector.rs: process", "src/analysis/rms_detector.rs: process", "src/util/mod.rs: to_db, to_sample, apply_gain"]}
{"id": "C161", "title": "Noise gates built on the detectors: they open at once, hold, close in time and do not chatter", "statement": "A client mutes a sample (gives 0.0) whenever `e = det.process(x)` is below a threshold t. In IEEE arithmetic on a peak detector with gains in [0,1), inputs within X and 2X not overflowing: a closed gate stays closed as long as no sample reaches the threshold; after samples of at most B only, it is closed as soon as B + r^k (X - B) + 6 (2^-p X + 2^emin)/(1 - r) is below the threshold, r the release gain, and from then on; with immediate attack every sample that reaches the threshold passes bit for bit. In exact arithmetic on a new PeakEnvDetector with only set_release(len) called: a sample p times as loud as the threshold keeps the gate open for at least len ln p samples whatever follows, and after samples of at most B < t only, it is shut after len ln((X - B)/(t - B)) samples at the latest. On a cleared RmsEnvDetector with equal gains g a sinusoid of amplitude A passes unchanged if t^2 <= A^2/2 (1 - ripple - 2 g^(n+1)) and is muted if t^2 > A^2/2 (1 + ripple + 2 g^(n+1)).", "quantifier": "all thresholds, release lengths and gains in range, all inputs, all sample indices, all sinusoids; all formats, both build modes", "why_tests_cant": "Every input and every past, all release lengths; the absence of chatter is a statement on all continuations.", "anchors": ["src/analysis/peak_detector.rs: new, set_release, process", "src/analysis/rms_detector.rs: process, clear"]}
{"id": "C162", "title": "Phasers: N all-pass filters mixed with the input have exactly N notches", "statement": "A client sends a signal through N >= 1 AllPass filters in series (each with its own valid frequency and quality factor) and adds g times the result to the signal. In exact arithmetic the response at w is 1 + g e^(-2iP(w)) for one angle P that is continuous and strictly increasing from 0 at DC to N pi at Nyquist; the squared gain is (1-g)^2 + 4 g cos^2 P. With g = 1 there are exactly N frequencies in [0, Nyquist] whose sinusoids die out, with g = -1 exactly N + 1, with any |g| other than 1 none. If all filters share one frequency, whatever their quality factors, this frequency is a notch of the sum exactly for odd N and of the difference exactly for even N. In f64, with cos and sin accurate to 2 units, up to twelve filters with frequencies from 1/16 to 7/16 of the sample rate, quality factors from 1/2 to 1 and samples in [-1,1], the sum formed in f64 stays finite and within (N+1) 18^N / 25000000 of the exact one for ever, so a sinusoid at a notch ends up below that.", "quantifier": "all lists of filters, all sample rates, frequencies and quality factors in range, all weights, all states before set_coefficients, all inputs that settle to a sinusoid of any amplitude and phase; both build modes", "why_tests_cant": "The number of notches is a statement on a continuum of frequencies and on all chains of filters.", "anchors": ["src/filter/rbj/allpass.rs: set_coefficients, process", "src/filter/biquad.rs: process"]}
{"id": "C163", "title": "Equalizers: Peak and shelving filters in series add up in decibels, commute and are undone by the opposite gains", "statement": "An equalizer is any list of Peak, LowShelf and HighShelf filters in series, each after set_coefficients with settings in range. In exact arithmetic: it answers every stream with exactly one stream; gains in dB add up at every frequency, for every input that settles to a sinusoid; the gain in dB lies at every frequency between the sum of the negative gains and the sum of the positive gains of the bands; a level that settles at c comes out as c times the gains of the low shelves alone, an alternating one as c times those of the high shelves alone, both with the polarity kept; any order of the bands gives the same samples; and the bands with the opposite gains, in any order, turn the output back into the input, sample by sample.", "quantifier": "all lists of bands, all sample rates and settings in range, all gains, all states before set_coefficients, all frequencies, all streams; both build modes", "why_tests_cant": "All chains of any length, all streams, a continuum of frequencies; equalities hold sample by sample for ever.", "anchors": ["src/filter/rbj/peak.rs: set_coefficients, process", "src/filter/rbj/lowshelf.rs, highshelf.rs: set_coefficients, process"]}
{"id": "C164", "title": "Bands at 0 dB are transparent in floating point: samples come out with the values they had", "statement": "In IEEE arithmetic of any format, with a pow that gives 1 for an exponent of plus or minus zero (as IEEE 754 and C require): Peak, LowShelf and HighShelf, after set_coefficients with a gain of 0 dB (of either sign), pass on every stream unchanged for ever, except that zeros may change their sign: no rounding error is added at all. This holds for any sample rate, frequency and quality factor or slope, in range or not, and with any sine and cosine, as long as the five stored coefficients are finite and the samples and their products with the two feedback coefficients are. A whole equalizer of such bands does the same. With accurate trigonometric functions and settings that the format resolves, the coefficients are finite and samples up to a quarter of the largest power of two are passed on; in f32, samples up to 2^100.", "quantifier": "all formats, all mathematical libraries with x^0 = 1, all settings giving finite coefficients, all states before set_coefficients, all lists of bands, all streams within the stated range; both build modes", "why_tests_cant": "All streams for ever, all settings and all libraries; a test can sample a few, and cannot show that no rounding ever happens.", "anchors": ["src/filter/rbj/peak.rs: set_coefficients, process", "src/filter/rbj/lowshelf.rs, highshelf.rs: set_coefficients, process", "src/filter/biquad.rs: Biquad2::process"]}
