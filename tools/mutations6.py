"""Bugs in windows, detectors and filters that must break C119 to C136 in their own modules (batch 6). Writes /tmp/mut/muts6.json."""
import json
M = []
def m(file, within, old, new, edit, props, claim, targets=()):
    M.append({"id": "X%03d" % (len(M) + 1), "file": file, "within": within, "old": old, "new": new, "edit": edit, "props": props.split(), "claim": claim, **({"targets": list(targets)} if targets else {})})
F, R, W, A, DL, LD = ("Model/%s.lean" % x for x in ("Filters", "Rbj", "Windows", "Analysis", "Delay", "LinearDelay"))
O, D, I, G, P, C, K = (["Verif.Props." + x] for x in ("Overlap", "Docs", "IdentityFloat", "GroupDelay", "Periodic", "LimitCycle", "Pluck"))
m(W, "def hannWindow", "uSub b s.size 1", "uSub b s.size 0", "periodic instead of symmetric Hann window", "C121", "an even size does not overlap to a constant, n = R m + 1 does", O)
m(W, "def hannWindow", "two *. pi *. index_float", "pi *. index_float", "half of a period", "C121", "Hann frames sum to R/2", O)
m(W, "def hammingWindow", ".lit (54 / 100)", ".lit (53836 / 100000)", "the other Hamming coefficients", "C121", "Hamming frames sum to 0.54 R", O)
m(W, "def bartlettWindow", "(numerator /. alpha)", "(numerator /. (alpha +. one))", "Bartlett window without zero ends", "C121", "Bartlett frames of size R m + 1 sum to R/2", O)
m(W, "def triangularWindow", "let denominator := size_float /. two", "let denominator := (size_float +. one) /. two", "triangular window of the other textbook form", "C121", "Triangular frames of size R m sum to R/2", O)
m(W, "def blackmanWindow", ".sub (.lit 1) (.lit (16 / 100))", ".sub (.lit 1) (.lit (15 / 100))", "a0 from another alpha", "C121", "Blackman frames sum to 0.42 R", O)
m(W, "def blackmanWindow", "let a2 : T := ofF64 (.div (.lit (16 / 100)) (.lit 2))", "let a2 : T := ofF64 (.lit (16 / 100))", "a2 is not halved", "C121", "the ripple of Blackman frames at 50% and the sum of squares", O)
m(W, "def blackmanHarrisWindow", "-. a3 *. cos (three *. theta)", "+. a3 *. cos (three *. theta)", "sign of the last term", "C121", "Blackman-Harris frames: R >= 4, value where frames meet", O)
m(W, "def applyLoop", ".ok (gain *. x :: rest)", ".ok (gain *. gain :: rest)", "the gain replaces the sample", "C121", "the output is the signal times the overlap-added window", O)
m(W, "def applyLoop", ".ok (gain *. x :: rest)", ".ok (gain *. (gain *. x) :: rest)", "the window is applied twice", "C121", "the output is the signal times the overlap-added window", O)
m(W, "def applyWindow", "(WindowIter.new samples.length)", "(WindowIter.new (samples.length + 1))", "the window has one more sample than the slice", "C121", "Hann with n = R m + 1", O)
m(W, "def WindowIter.next", "({ s with index := i }, some window_sample)", "({ s with index := s.index }, some window_sample)", "the iterator does not advance", "C121", "every sample has its own gain", O)
m(W, "def WindowIter.new", "index := 0", "index := 1", "the iterator starts at 1", "C121", "Hann frames sum to R/2", O)
m(F, "def TwoPole.process", "y_z2 := s.y_z1", "y_z2 := sample", "the second memory stores the input", "C122", "the equation with an x at the end is false (with this bug the filter uses x[n-1] there)", D)
m(F, "def TwoPole.process", "s.a2 *. s.y_z2", "s.a2 *. s.y_z1", "both taps read the first memory", "C122", "the documented equation holds only for a2 = 0 (still true), C30", D)
m(A, "def LeakyIntegrator.process", "s.alpha *. (s.y_z1 -. value)", "s.alpha *. (value -. s.y_z1)", "sign of the feedback", "C122", "with the documented a1 the integrator is a OnePole only for the gain 0", D)
m(A, "def LeakyIntegrator.process", "value +. s.alpha *. (s.y_z1 -. value)", "(one -. s.alpha) *. value +. s.alpha *. s.y_z1", "the two products are computed apart", "C122", "new integrators alter streams whose differences overflow (not with this code)", D)
m(A, "def LeakyIntegrator.process", "value +. s.alpha *. (s.y_z1 -. value)", "(one -. s.alpha) *. value -. s.alpha *. s.y_z1", "the integrator as it is documented", "C122", "the integrator with the documented a1 is a OnePole only for the gain 0", D)
m(A, "def PeakEnvDetector.process", "let input_envelope := abs sample", "let input_envelope := sample", "the magnitude is not taken", "C122", "a new detector leaves exactly the streams without negative samples as they are", D)
m(A, "def PeakEnvDetector.process", "then s.attack_gain else s.release_gain", "then s.release_gain else s.attack_gain", "attack and release swapped", "C122", "with the attack length alone a falling level is followed at once", D)
m(A, "def PeakEnvDetector.process", "(s.envelope -. input_envelope)", "(input_envelope -. s.envelope)", "sign of the difference", "C122", "one length is enough: y = max(|x|, ...)", D)
m(A, "def PeakEnvDetector.new", "release_gain := zero", "release_gain := one", "a new detector holds its peak", "C122", "a new detector leaves streams without negative samples as they are", D)
m(A, "def RmsEnvDetector.new", "envelope := zero", "envelope := one", "a new detector starts at full level", "C122", "with one length: the recursion starts from 0", D)
m(A, "def RmsEnvDetector.process", "sqrt envelope)", "envelope)", "the mean square is returned", "C122", "the RMS detector without lengths returns the magnitude", D)
m(A, "def RmsEnvDetector.process", "then s.attack_gain else s.release_gain", "then s.attack_gain else s.attack_gain", "release is never used", "C122", "with the release length alone a falling level is followed with its time constant", D)
m(A, "def RmsEnvDetector.setRelease", "{ s with release_gain := exp", "{ s with attack_gain := exp", "set_release sets the attack", "C122", "with the release length alone", D)
m(A, "def PeakEnvDetector.setAttack", "exp (neg one /. attack_length)", "exp (neg one *. attack_length)", "product instead of quotient", "C122", "the gain is e^(-1/len)", D)
m(R, "def BandPass1.setCoefficients", "let b0 := q *. alpha", "let b0 := alpha", "b0 of the other band-pass filter", "C122", "constant skirts", D)
m(R, "def BandPass1.setCoefficients", "sin w0 /. (two *. q)", "sin w0 /. q", "alpha is not halved", "C122", "the peak gain is q and the skirts are constant", D)
m(R, "def BandPass2.setCoefficients", "let alpha := sin w0 /. (two *. q)", "let alpha := sin w0 *. q /. two", "bandwidth proportional to q", "C122", "skirts divided by q", D)
m(R, "def LowPass.setCoefficients", "sin w0 /. (two *. q)", "sin w0 /. q", "alpha is not halved", "C122", "with q = 0.7071 the gain at the cutoff is q, and larger q amplify", D)
m(R, "def HighPass.setCoefficients", "let alpha := sin w0 /. (two *. q)", "let alpha := sin w0 /. (two *. q *. q)", "q squared", "C122", "with q = 0.7071 the gain at the cutoff is q", D)
m(R, "def BandStop.setCoefficients", "let b2 := one", "let b2 := neg one", "sign of b2", "C119", "BandStop + BandPass2 is the input up to 2E", I)
m(R, "def AllPass.setCoefficients", "let b0 := one -. alpha", "let b0 := one +. alpha", "b0 is a0", "C119", "BandStop - BandPass2 is AllPass up to 3E", I)
m(R, "def Peak.setCoefficients", "let a0 := one +. alpha /. a", "let a0 := one +. alpha", "the cut side ignores the gain", "C119", "boost and cut cancel", I)
m(R, "def LowPass.setCoefficients", "let a2 := one -. alpha", "let a2 := alpha -. one", "sign of a2", "C120", "group delay of LowPass at the ends and the cutoff", G)
m(R, "def AllPass.setCoefficients", "let a1 := b1", "let a1 := neg b1", "sign of a1", "C120", "group delay of AllPass", G)
m(F, "def OneZero.process", "s.b0 *. sample +. s.b1 *. s.x_z1", "s.b0 *. s.x_z1 +. s.b1 *. sample", "coefficients swapped", "C120", "group delay of OneZero", G)
m(R, "def HighPass.setCoefficients", "let b1 := neg one -. cos_w0", "let b1 := neg one +. cos_w0", "sign inside b1", "C123", "an offset is removed by HighPass", P)
m(R, "def BandStop.setCoefficients", "let b2 := one", "let b2 := neg one", "sign of b2", "C123", "BandStop keeps an offset", P)
m(R, "def LowShelf.setCoefficients", "let a := powf ten (db_gain /. forty)", "let a := powf ten (db_gain /. forty) *. two", "the gain is doubled", "C123", "a low shelf multiplies an offset by its gain", P)
m(F, "def Biquad2.process", "let z2 := s.b2 *. sample -. s.a2 *. output", "let z2 := s.b2 *. sample", "no second feedback", "C123", "the average of the periodic response, the energy of a period", P)
m(F, "def OneZero.process", "x_z1 := sample }", "x_z1 := output }", "the memory stores the output", "C124 C125", "OneZero repeats after one sample", C)
m(F, "def TwoZero.process", "x_z2 := s.x_z1", "x_z2 := s.x_z2", "the second memory is never written", "C124", "TwoZero repeats after two samples (still true: it then holds a constant), C30", C)
m(DL, "def Delay.nextOut", "idx s.memory s.read_ptr", "idx s.memory s.write_ptr", "next_out reads at the write position", "C125", "the announced sample is the one e rounds ago", K)
m(DL, "def Delay.new", "Delay.setDelay b { memory := memory, output := zero, read_ptr := 0, write_ptr := 0, delay := 0 } delay_time", "Delay.setDelay b { memory := memory, output := zero, read_ptr := 0, write_ptr := 0, delay := 0 } max_delay", "the delay is always the maximum", "C124 C125", "a Delay repeats after min(d, m); the string has length d + b1", K)
m(LD, "def LinearDelay.nextOut", "m0 *. s.om_alpha", "m0 *. s.alpha", "both weights are alpha", "C125", "the fractional string settles at the sum over d + b1", K)
m(F, "def OnePole.process", "s.b0 *. sample -. s.a1 *. s.y_z1", "s.b0 *. sample +. s.a1 *. s.y_z1", "sign of the feedback", "C124", "the smallest number is given back for a1 = -3/4", C)
m(F, "def OneZero.process", "s.b0 *. sample +. s.b1 *. s.x_z1", "s.b0 *. sample -. s.b1 *. s.x_z1", "difference instead of sum", "C125", "the string settles at the sum of the input over its length", K)
m(F, "def OneZero.clear", "{ s with x_z1 := zero }", "{ s with output := zero }", "clear leaves the memory", "C125", "the string starts at rest", K)
N, S = ["Verif.Props.CycleLevel"], ["Verif.Props.Leakage"]
m(A, "def LeakyIntegrator.process", "s.alpha *. (s.y_z1 -. value)", "s.alpha *. s.y_z1", "the input is not subtracted", "C126", "the integrator keeps the mean", N)
m(A, "def PeakEnvDetector.process", "then s.attack_gain else s.release_gain", "then s.release_gain else s.attack_gain", "attack and release swapped", "C126", "a faster attack reads at least the mean of |x|", N)
m(A, "def PeakEnvDetector.process", "let input_envelope := abs sample", "let input_envelope := sample *. sample", "the square is taken", "C126", "the mean of the readings against that of |x|", N)
m(A, "def RmsEnvDetector.process", "sqrt envelope)", "envelope)", "the mean square is returned", "C126", "the level of the readings is that of the signal", N)
m(A, "def RmsEnvDetector.process", "let input_envelope := sample *. sample", "let input_envelope := abs sample", "the magnitude instead of the square", "C126", "the level of the readings is that of the signal", N)
m(F, "def TwoZero.process", "+. s.b1 *. s.x_z1", "-. s.b1 *. s.x_z1", "sign of b1", "C126", "the mean is multiplied by b0 + b1 + b2", N)
m(R, "def AllPass.setCoefficients", "let b0 := one -. alpha", "let b0 := one", "b0 without alpha", "C126", "AllPass keeps the level", N)
m(W, "def bartlettWindow", "let alpha := size_minus_one /. two", "let alpha := size_minus_one", "the middle is at the end", "C127", "spectrum of Bartlett", S)
m(W, "def bartlettWindow", "abs (numerator /. alpha)", "(numerator /. alpha)", "no magnitude: a ramp", "C127", "spectrum of Bartlett", S)
m(W, "def triangularWindow", "let denominator := size_float /. two", "let denominator := size_minus_one /. two", "triangular like Bartlett", "C127", "spectrum of Triangular", S)
m(W, "def hannWindow", "half *. (one -. cos", "half *. (one +. cos", "the window is turned inside out", "C127", "spectrum of Hann", S)
m(W, "def hannWindow", "uSub b s.size 1", "uSub b s.size 0", "periodic instead of symmetric Hann window", "C127", "spectrum of Hann", S)
m(W, "def applyLoop", ".ok (gain *. x :: rest)", ".ok (x :: rest)", "the gain is dropped", "C127", "the spectrum of a windowed sinusoid is that of the window, moved", S)
PF, CS, SL = (["Verif.Props." + x] for x in ("PluckFloat", "Cosines", "Sidelobes"))
m(LD, "def LinearDelay.nextOut", "m0 *. s.om_alpha", "m0 *. s.alpha", "both weights are alpha", "C128", "the fractional loop stays close to the exact one", PF)
m(F, "def OneZero.process", "s.b0 *. sample +. s.b1 *. s.x_z1", "s.b0 *. sample -. s.b1 *. s.x_z1", "difference instead of sum", "C128", "distance from the exact loop (the example's damping filter)", PF)
m(LD, "def LinearDelay.process", "do_next_out := true", "do_next_out := false", "the announced sample is never computed again", "C128", "the loop's line answers with its past input", PF)
m(W, "def hammingWindow", ".lit (54 / 100)", ".lit (53836 / 100000)", "the other Hamming coefficients", "C129 C130", "spectrum of Hamming, its first sample 0.08", CS)
m(W, "def hammingWindow", "alpha -. beta", "alpha +. beta", "sign of the cosine", "C129 C130", "spectrum of Hamming", CS)
m(W, "def blackmanWindow", "let a2 : T := ofF64 (.div (.lit (16 / 100)) (.lit 2))", "let a2 : T := ofF64 (.lit (16 / 100))", "a2 is not halved", "C129 C130", "spectrum of Blackman", CS)
m(W, "def blackmanHarrisWindow", "-. a3 *. cos (three *. theta)", "-. a3 *. cos (two *. theta)", "the last cosine has the frequency of the one before", "C129 C130", "spectrum of Blackman-Harris", CS)
m(W, "def blackmanHarrisWindow", "-. a3 *. cos (three *. theta)", "+. a3 *. cos (three *. theta)", "sign of the last term", "C130", "side lobes of Blackman-Harris below 1/10000", SL)
m(W, "def blackmanWindow", ".sub (.lit 1) (.lit (16 / 100))", ".sub (.lit 1) (.lit (15 / 100))", "a0 from another alpha", "C130", "side lobes of Blackman below 1/500", SL)
m(W, "def bartlettWindow", "abs (numerator /. alpha)", "(numerator /. alpha)", "no magnitude: a ramp", "C130", "side lobes of Bartlett below 1/16", SL)
m(W, "def applyLoop", ".ok (gain *. x :: rest)", ".ok (gain *. (gain *. x) :: rest)", "the window is applied twice", "C130", "a windowed sinusoid outside the main lobes", SL)
RS, LB, PG, AF = (["Verif.Props." + x] for x in ("Resonance", "LobesFloat", "PeakGain", "AudioFloat"))
m(DL, "def Delay.nextOut", "idx s.memory s.read_ptr", "idx s.memory s.write_ptr", "next_out reads at the write position", "C131", "the response of the line is e^(-iwd)", RS)
m(LD, "def LinearDelay.nextOut", "m0 *. s.om_alpha", "m0 *. s.alpha", "both weights are alpha", "C131", "the response of the fractional line", RS)
m(F, "def OneZero.process", "s.b0 *. sample +. s.b1 *. s.x_z1", "s.b0 *. sample -. s.b1 *. s.x_z1", "difference instead of sum", "C131", "the string resonates at the multiples of 2 pi/(d + 1/2)", RS)
m(W, "def hannWindow", "half *. (one -. cos", "half *. (one +. cos", "the window is turned inside out", "C132", "side lobes of Hann in floats", LB)
m(W, "def triangularWindow", "let denominator := size_float /. two", "let denominator := size_minus_one /. two", "triangular like Bartlett", "C132", "spectrum as computed against the exact one of the same code", LB)
m(W, "def blackmanHarrisWindow", ".lit (1168 / 100000)", ".lit (1268 / 100000)", "a digit of a3", "C132", "Blackman-Harris stays below 1/8100", LB)
m(W, "def applyLoop", ".ok (gain *. x :: rest)", ".ok (x :: rest)", "the gain is dropped", "C132", "the spectrum of a windowed sinusoid", LB)
m(R, "def LowPass.setCoefficients", "sin w0 /. (two *. q)", "sin w0 *. q /. two", "bandwidth proportional to q", "C133", "peak gain of LowPass at least q", PG)
m(R, "def HighPass.setCoefficients", "let a2 := one -. alpha", "let a2 := alpha -. one", "sign of a2", "C133", "peak gain of HighPass", PG)
m(R, "def BandPass1.setCoefficients", "let b0 := q *. alpha", "let b0 := q", "b0 without alpha", "C133", "peak gain of BandPass1 at most 8 q", PG)
m(R, "def BandPass2.setCoefficients", "let b1 := zero", "let b1 := alpha", "b1 is not zero", "C133", "peak gain of BandPass2 (at most 8)", PG)
m(R, "def BandStop.setCoefficients", "let a1 := b1", "let a1 := neg b1", "sign of a1", "C133", "peak gain of BandStop at most 9", PG)
m(R, "def AllPass.setCoefficients", "let b0 := one -. alpha", "let b0 := one", "b0 without alpha", "C133", "peak gain of AllPass", PG)
m(R, "def Peak.setCoefficients", "let a0 := one +. alpha /. a", "let a0 := one +. alpha", "the cut side ignores the gain", "C133", "peak gain of Peak", PG)
m(R, "def LowShelf.setCoefficients", "let sqrt_product := two *. sqrt a *. alpha", "let sqrt_product := two *. a *. alpha", "no square root", "C133", "peak gain of LowShelf", PG)
m(R, "def HighShelf.setCoefficients", "let b1 := neg two *. a", "let b1 := two *. a", "sign of b1", "C133", "peak gain of HighShelf", PG)
m(R, "def LowPass.setCoefficients", "let a1 := neg two *. cos_w0", "let a1 := neg two *. cos_w0 *. cos_w0", "cosine squared in a1", "C134", "LowPass at low frequencies in f64", AF)
m(F, "def Biquad2.process", "s.b1 *. sample +. s.z2 -. s.a1 *. output", "s.b1 *. sample +. (s.z2 -. s.a1 *. output)", "other order of the sums (claims still true, the error bounds are proved for the order of the code)", "C134", "none: the bound holds for both orders", AF)
m(F, "def Biquad2.process", "let z2 := s.b2 *. sample -. s.a2 *. output", "let z2 := s.b2 *. sample", "no second feedback", "C134", "the filter tracks the exact filter with the documented coefficients", AF)
m(R, "def Peak.setCoefficients", ".lit 40", ".lit 20", "the gain of the other formula", "C134", "gains up to 12 dB", AF)
m(R, "def LowShelf.setCoefficients", "sin w0 /. two *. sqrt", "sin w0 *. sqrt", "alpha is not halved", "C134", "the low shelf in f64", AF)
LG, DV, DE = ["Verif.Props.LoopGain"], ["Verif.Props.Derive"], "Model/Derive.lean"
m(DL, "def Delay.nextOut", "idx s.memory s.read_ptr", "idx s.memory s.write_ptr", "next_out reads at the write position", "C135", "the equation of the loop", LG)
m(R, "def BandPass2.setCoefficients", "let b0 := alpha", "let b0 := two *. alpha", "twice the gain", "C135", "BandPass2 is stable in loops with |g| < 1", LG)
m(R, "def BandPass1.setCoefficients", "let b0 := q *. alpha", "let b0 := alpha", "BandPass1 with unit gain", "C135", "not stable at g = 1/q in tune", LG)
m(R, "def LowPass.setCoefficients", "let a2 := one -. alpha", "let a2 := one +. alpha", "pole outside the circle", "C135", "LowPass dies away", LG)
m(R, "def HighShelf.setCoefficients", "let b1 := neg two *. a", "let b1 := two *. a", "sign of b1", "C135", "no loop is stable around HighShelf with g = 1", LG)
m(R, "def AllPass.setCoefficients", "let b1 := neg two *. cos_w0", "let b1 := two *. cos_w0", "sign of b1", "C135", "AllPass keeps energy; not stable at g = 1", LG)
m(LD, "def LinearDelay.nextOut", "m0 *. s.om_alpha", "m0 *. s.alpha", "both weights are alpha", "C135", "the fractional line does not increase energy", LG)
m(DE, "def Window.discriminant", "| .shaped .hamming => 4", "| .shaped .hamming => 3", "two variants with one number", "C136", "== tells Hann from Hamming", DV)
m(DE, "def Window.eq", "w.discriminant == v.discriminant", "decide (w.discriminant ≤ v.discriminant)", "compares with at most", "C136", "== is symmetric", DV)
m(DE, "def Window.fmt", '"Triangular"', '"Bartlett"', "a name twice", "C136", "windows that print alike are ==", DV)
m(DE, "def Window.clone", "(w : Window) : Window := w", "(_ : Window) : Window := .rectangular", "the clone is always rectangular", "C136", "a clone is == to the original", DV)
m(W, "def hammingWindow", "alpha -. beta *. cos", "half -. half *. cos", "Hamming computed as Hann", "C136", "== says whether windows do the same", DV)
NW = ["Verif.Props.Network"]
m(DL, "def Delay.nextOut", "idx s.memory s.read_ptr", "idx s.memory s.write_ptr", "next_out reads at the write position", "C137", "every line announces what it processed d rounds ago", NW)
m(DL, "def Delay.nextOut", "idx s.memory s.read_ptr", "(.ok s.output)", "next_out repeats the last output", "C137", "every line announces what it processed d rounds ago", NW)
json.dump(M, open("/tmp/mut/muts6.json", "w"), indent=1)
print(len(M))
