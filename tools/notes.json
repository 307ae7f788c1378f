{
 "C05": {
  "note": "The documented claim is refuted for OneZero and TwoZero (C05_oneZero_false, C05_twoZero_false) and proved for every other type."
 },
 "C12": {
  "note": "Exactly for delay >= 1; refuted at delay 0."
 },
 "C16": {
  "note": "Rejection refuted; the exact behaviour for every out-of-range argument is proved."
 },
 "C18": {
  "note": "Holds when get_delay <= processed samples <= old maximum; refuted on fresh lines and after wrapping; exact effect proved for the first growth after any history."
 },
 "C21": {
  "note": "NaN stays NaN and makes every output NaN; proved."
 },
 "C24": {
  "note": "Proved whenever the number of slots is an f32 value (in particular up to 2^24); refuted for 2^24+3 slots."
 },
 "C25": {
  "note": "Proved in exact arithmetic; refuted in f32."
 },
 "C27": {
  "note": "Exact arithmetic for delay >= 1; IEEE for delay >= 2 (bit for bit) and for delay 1 (finite samples, up to the sign of zero); refuted below 1 and in f32 just above 1."
 },
 "C28": {
  "note": "Any arithmetic as a two-run property (growth included), plus the closed form in exact arithmetic; refuted with a pending next_out."
 },
 "C29": {
  "note": "IEEE, every format and math library; after an infinity or NaN the recursive types return NaN forever (proved), the feedforward ones for one or two samples."
 },
 "C31": {
  "note": "Exact arithmetic; refuted for coefficient changes mid-stream."
 },
 "C46": {
  "note": "IEEE, every format; the overflow condition is shown necessary (C46_overflow_not_finite, C46_overflow_nan)."
 },
 "C50": {
  "note": "IEEE. The gains stored by the setters come from the platform's exp, so the history theorems assume that exp maps arguments with the sign bit set into [0,1] (ExpUnit, satisfied by a correctly rounded exp); the step theorem needs only gains in [0,1]. Odd bounds are refuted."
 },
 "C53": {
  "note": "Documented claim refuted; exact behaviour proved, including where RMS fails to return even the magnitude."
 },
 "C54": {
  "note": "Documented claim refuted (C54_not_reached); exact law proved for both detectors and both directions."
 },
 "C68": {
  "note": "The detector theorems assume ExpUnit as in C50."
 },
 "C56": {
  "note": "Refuted; the exact value of len at all times is proved, and that it is right only before the first next."
 },
 "C58": {
  "note": "All six in exact arithmetic; Triangular and Bartlett bit for bit in IEEE arithmetic up to 2^24 (f32) / 2^53 (f64) points."
 },
 "C59": {
  "note": "Exact arithmetic for all six; also in IEEE arithmetic for Triangular and Bartlett, and for Hann and Hamming if cos stays in [-1,1]. In f32 and f64 the first Blackman value is slightly negative (proved, assuming cos 0 = 1)."
 },
 "C60": {
  "note": "Exact arithmetic; Bartlett ends and Bartlett/Triangular centres also in IEEE arithmetic."
 },
 "C61": {
  "note": "Proved with exact sizes and hops, also as overlap-add at every time; refuted for Hamming (1.08) and for Bartlett of even size."
 },
 "C62": {
  "note": "Refuted for five windows (Bartlett unconditionally, the others if cos of NaN is NaN); Triangular and Rectangular keep the sample."
 },
 "C64": {
  "note": "IEEE; formats with 7 to 53 bits, in particular f32 and f64."
 },
 "C70": {
  "note": "Nyquist itself (cos(w/2)=0) is covered by C39 and C71."
 },
 "C72": {
  "note": "The condition on cancelled poles is shown to be needed (C72_cancelled_pole)."
 },
 "C73": {
  "note": "Error bounds are explicit but not tight. The coefficients are those stored in the filter; errors made when an rbj filter computes them from its parameters are not included."
 },
 "C74": {
  "note": "Gains of exactly 1 (possible when exp rounds up for very long times) are excluded."
 },
 "C75": {
  "note": "Assumes maxima that Vec can allocate (other arguments: C76) and a sample size of at least 4 bytes."
 },
 "C19": {
  "note": "Histories with growth are covered by C75."
 },
 "C76": {
  "note": "Heap exhaustion below Vec's capacity limit is not modelled."
 },
 "C77": {
  "note": "In IEEE arithmetic for lines of at most 2^24 slots; longer lines can panic (C24)."
 },
 "C78": {
  "note": "The constants are explicit but not tight."
 },
 "C79": {
  "note": "The f32 part assumes SmallAngle (accurate cos and sin of small angles), met by correctly rounding libraries."
 },
 "C80": {
  "note": "One parameter set and one stream, as a counterexample to stability; the run is evaluated by the kernel. Assumes SmallAngle."
 },
 "C81": {
  "note": "Gains are the stored ones; how they come from times is C54."
 },
 "C82": {
  "note": "Exact arithmetic; starting from rest, which every setter establishes."
 },
 "C83": {
  "note": "Peak and the shelves are in C84. The constants are explicit but not tight. AccurateTrig is met by correctly rounding libraries (k = 2)."
 },
 "C84": {
  "note": "The constants are explicit but not tight. AccurateTrig and AccuratePow are met by correctly rounding libraries (k = 2)."
 },
 "C85": {
  "note": "Inverts also says that the opposite stream causes no panic when the original one caused none. The detectors are even instead: C52."
 },
 "C86": {
  "note": "Rises and Falls assert that a gain exists at every angle of the interval; C86_gain_unique says it is the only one."
 },
 "C87": {
  "note": "Cascade: the output stream of one processor is the input stream of the next."
 },
 "C88": {
  "note": "The lower bounds on n are needed: an example shows the two-point Hamming window."
 },
 "C89": {
  "note": "The detector counterexample fixes the gain field directly, since which gains set_release can produce depends on the platform's exp; the integrator one is reached through the public interface."
 },
 "C90": {
  "note": "Finite coefficients are needed (C90_needs_finite). C90_sign_of_zero shows why zeros are compared without their sign."
 },
 "C91": {
  "note": "Exact arithmetic only: with rounding the inverse is not exact. Nothing is said about stability of the inverse."
 },
 "C92": {
  "note": "The loop is user code around the two methods, written down as a relation; the crate itself contains no such loop. LinearDelay with delays between 1 and 2 in IEEE arithmetic is left out, as in C27."
 },
 "C93": {
  "note": "Shelving filters are left out here (their gains are C40-C42, C86)."
 },
 "C94": {
  "note": "At q = 1/2 the centre at exactly a quarter of the sample rate (both poles at 0, a finite answer) is excluded. rbj set_coefficients clears the past (modelled so), so the claim holds for every previous state."
 },
 "C95": {
  "note": "Chains are lists of arbitrary processors (Spec/Series.lean); the crate has no chain type, the theorem is about calling process of each in turn on whole streams."
 },
 "C96": {
  "note": "Overflow anywhere makes the affected outputs non-finite, so the conclusion only speaks about finite outputs. The converse direction, turning down, is the same statement read from the louder to the quieter stream."
 },
 "C97": {
  "note": "AccurateCos is an assumption about the platform; it is met by a correctly rounded cosine (Libm.roundedCos_accurate). Size 1 is C62, where the value is NaN."
 },
 "C98": {
  "note": "AccurateDb is an assumption about the platform; it is met by correctly rounded log10 and powf (Libm.roundedDb_accurate). An amplitude between the rounded constant and 1e-6 takes the logarithm branch and still is within the bound of -120."
 },
 "C99": {
  "note": "AccurateExp and RoundedExp are assumptions about the platform, met by a correctly rounded exp (Libm.roundedExp_accurate, Libm.roundedExp_rounded)."
 },
 "C100": {
  "note": "The clearing setter is what the code does (C37); C100_rbj_setting_not_free shows it is audible."
 },
 "C101": {
  "note": "The notes in src/analysis/mod.rs say that an envelope detector is not just a leaky integrator; with equal gains it is one."
 },
 "C102": {
  "note": ""
 },
 "C103": {
  "note": "The digital formula of the comment is an approximation; what the code does is what the analog formula says on the tan(w/2) scale."
 },
 "C104": {
  "note": "No parameter is rejected by the code."
 },
 "C105": {
  "note": ""
 },
 "C106": {
  "note": ""
 },
 "C107": {
  "note": ""
 },
 "C108": {
  "note": ""
 },
 "C109": {
  "note": ""
 },
 "C110": {
  "note": ""
 },
 "C111": {
  "note": ""
 },
 "C112": {
  "note": ""
 },
 "C113": {
  "note": ""
 },
 "C114": {
  "note": "Exact arithmetic for the rbj types because their coefficients need cos(pi - w) = -cos w, which no float library guarantees; the basic filters and Delay are exact in floating point."
 },
 "C115": {
  "note": "Equality of the whole objects, not only of outputs. Other common factors change the rounding of the angle in floating point; C83 and C84 bound the effect."
 },
 "C116": {
  "note": "The client programs (gather, scatter) are in Spec/MultiTap.lean and call only trait methods."
 },
 "C117": {
  "note": "Floating-point companion of C34 and C31. The order of the additions in Biquad1 and the small filters is part of what is proved."
 },
 "C118": {
  "note": "A finding. The code of the adapters is std's, not the crate's; iteration itself does not use the hint, so C55 and C57 are unaffected."
 },
 "C119": {
  "note": "The constants for boost and cut are far from sharp: the gain bounds behind them are the crude ones from the pole margin."
 },
 "C120": {
  "note": "Exact arithmetic. The meaning of group delay for envelopes is shown for AllPass only, whose gain does not vary."
 },
 "C121": {
  "note": "The overlap-add loop itself is not part of the crate: it is written in Spec/Overlap.lean and runs the model of apply_window."
 },
 "C122": {
  "note": "DESIGN.md section 3 has the table of all documented claims."
 },
 "C123": {
  "note": "Period energies use the gain ranges of C71, means the end gains of C39."
 },
 "C124": {
  "note": "NaN payloads are not modelled (section 2): a platform that propagates payloads has more states, so the count of states there is larger, not infinite."
 },
 "C125": {
  "note": "The rounds of the loop are code of the caller, stated in Spec/Pluck.lean; the crate contains no loop of its own."
 },
 "C126": {
  "note": "The cookbook filters are taken in binary64 in the range of C83_f64; the general theorems C126_mean and C126_level take any error bound."
 },
 "C127": {
  "note": "Complements C111 (bins of the transform over N points) for frequencies between the bins."
 },
 "C128": {
  "note": "Completes C125 for LinearDelay in floating point."
 },
 "C129": {
  "note": "Complements C111 (bins of the transform over N points) and C127 (the other windows)."
 },
 "C130": {
  "note": "The levels are rounded to simple fractions: the actual ones are a little lower (Hann -31.5 dB against -29.5 proved, Hamming -42 against -40, Blackman -58 against -54, Blackman-Harris -92 against -80, straight -26.5 against -24)."
 },
 "C131": {
  "note": "Uses C92 and C125 for the equation of the loop, C87 and C107 for the filter; C69 and C70 supply the responses K."
 },
 "C132": {
  "note": "Uses C97, C57, C88 and C130; the bounds of C97 for the cosine windows are used for all six."
 },
 "C133": {
  "note": "The shelves are combinations of low, band and high pass at another centre. The constants are not sharp. Uses C107; lower bounds from C39 and C40."
 },
 "C134": {
  "note": "Uses the coefficient errors of C83 and C84 and the peak gains of C133. Constants are not sharp."
 },
 "C135": {
  "note": "Uses C125 for the equation of the loop, C82 for the energy gains, C39 and C40 for the limits."
 },
 "C136": {
  "note": "Model/Derive.lean gives what the derive macros generate for an enum without fields."
 },
 "C137": {
  "note": "Uses C92 for one line and C108 for one rounded round. Networks with matrices that are only routings are treated in floating point; general matrices only in exact arithmetic."
 },
 "C138": {
  "note": "Uses C137 for the equations. The network and its mixer are the user's; next_out and process are the crate's."
 },
 "C139": {
  "note": "Uses C30 for the equations and C07 for the delay line. Coefficients of feedback that are not whole numbers make the grid finer each round; then only error bounds hold (C73)."
 },
 "C140": {
  "note": "Extends C94 from impulses to all inputs. In floating point the tail ends in the residues of C81 and C124."
 },
 "C141": {
  "note": "Extends C29 (new filters only) and C68 (analysis types). clear repairs the filters (C06), set_coefficients the rbj filters (C37)."
 },
 "C142": {
  "note": "The detectors' order is C89."
 },
 "C143": {
  "note": "The converse for the rbj filters, that only f/sample rate matters, is C115."
 },
 "C144": {
  "note": "The lines must be new with the same delay and maximum, and growing must be possible for both types (allocation limits differ by sample size)."
 },
 "C145": {
  "note": "Levels in exact arithmetic; C132 shows how far floating point windows are from these."
 },
 "C146": {
  "note": "The response is the steady-state response to sinusoids (SinusoidGain), as in C70."
 },
 "C147": {
  "note": "C147_delays, C147_blocks, C147_util say what is never lost; C147_filters, C147_windows, C147_delay_same, C147_linearDelay_same, C147_delay_max, C147_linearDelay_max say where the builds agree."
 },
 "C148": {
  "note": "Noise as a measuring signal: cross-correlation gives the impulse response, output correlations give the power spectrum (Wiener\u2013Khinchin) and solve the Yule\u2013Walker equations; linear prediction recovers TwoPole coefficients; AllPass keeps noise white."
 },
 "C149": {
  "note": "Mean reading, variance of the readings, probability of being off, and bias with unequal gains for both detectors on noise; RMS detector behind a filter reads the noise gain."
 },
 "C150": {
  "note": "Floating-point version of C145: spectra of windowed signals, readings of sinusoids within half a bin, half-bin loss relative to the computed sum, root mean square of noise spectra."
 },
 "C151": {
  "note": "Exact arithmetic, through the difference equation of the shelves (C32) and sinusoids through stable sections. Extends C93 to the shelves."
 },
 "C152": {
  "note": "Floating-point version of C106, C148 and C149."
 },
 "C153": {
  "note": "Floating-point version of C110. For equal gains the RMS error is smaller than that of C74 (linear in u instead of a square root)."
 },
 "C154": {
  "note": "Ties the three parts of the crate (filters, meters, decibels) together in floating point."
 },
 "C155": {
  "note": "The counterpart of C131 without feedback."
 },
 "C156": {
  "note": "Client programs; only process of the detectors and the delay line is called."
 },
 "C157": {
  "note": "Client program; only Delay::new, next_out and process are called."
 },
 "C158": {
  "note": "Client program; only apply_window, the window iterators and the tapped lines are called."
 },
 "C159": {
  "note": "Client program; only apply_window, the window iterators and the tapped lines are called."
 },
 "C160": {
  "note": "Client program; only the detectors and the decibel conversions are called. No make-up gain, no knee."
 },
 "C161": {
  "note": "Client program; only the detectors are called."
 },
 "C162": {
  "note": "Client program; only the filters are called. In exact arithmetic the sum is exact, in f64 it is formed with the rounded addition (weight 1)."
 },
 "C163": {
  "note": "Client program; only the filters are called."
 },
 "C164": {
  "note": "The hypothesis PowZero on pow is stated in Spec/FlatBands.lean. Overflow of a product of a sample with a feedback coefficient is excluded by hypothesis, not by the code."
 }
}