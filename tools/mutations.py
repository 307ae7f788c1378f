#!/usr/bin/env python3
"""The list of mutations; writes /tmp/mut/muts.json for mutate.py."""
import json
M = []
def m(file, within, old, new, claim, props, what=None, first=False):
    M.append(dict(id=f"M{len(M)+1:03d}", file=file, within=within, old=old, new=new, claim=claim, props=props.split(),
                  what=what or f"{old.strip()} -> {new.strip()}", first=first))
D, LD, F, R, A, W, U, TR = ("Model/Delay.lean", "Model/LinearDelay.lean", "Model/Filters.lean", "Model/Rbj.lean",
    "Model/Analysis.lean", "Model/Windows.lean", "Model/Util.lean", "Model/Traits.lean")
# traits
m(TR, "def blockLoop", "let (s'', ys) ← blockLoop b s' xs", "let (s'', ys) ← blockLoop b s xs", "a block equals the same samples one by one", "C01", "the state is not threaded through the loop")
m(TR, "def blockLoop", ".ok (s'', y :: ys)", ".ok (s'', x :: ys)", "the slice is overwritten with the outputs", "C01", "input left in the slice")
m(TR, "def processBlock", "ys.getLast?", "ys.head?", "process_block returns the last output", "C01", "returns the first element")
m(TR, "def processBlock", "| none => .error .panic", "| none => .ok (s', ys, Processor.lastOut s')", "process_block panics on an empty slice", "C03", "empty slice returns last_out")
# Delay
m(D, "def Delay.setDelay", "if delay > max_delay_samples then max_delay_samples else delay", "delay", "set_delay clips to the maximum delay", "C10", "no clipping")
m(D, "def Delay.setDelay", "if s.write_ptr ≥ delay_time then", "if s.write_ptr > delay_time then", "read pointer stays inside the buffer", "C07 C08 C09", "off-by-one in the wrap test")
m(D, "def Delay.setDelay", "let t ← uAdd b s.memory.length s.write_ptr", "let t ← uAdd b (s.memory.length - 1) s.write_ptr", "delay of exactly d samples after wrapping", "C07 C08", "wraps at len-1")
m(D, "def Delay.setDelay", "uSub b s.write_ptr delay_time\n    .ok { s with read_ptr := r, delay := delay_time }", "uSub b s.write_ptr delay_time\n    .ok { s with read_ptr := r, delay := delay }", "get_delay returns the clipped delay", "C10", "stores the unclipped delay in one branch")
m(D, "def Delay.new", "let n ← uAdd b max_delay 1", "let n ← uAdd b max_delay 2", "get_max_delay is the max_delay given to new", "C10", "one slot too many")
m(D, "def Delay.new", "if delay > max_delay then max_delay else delay", "delay", "equivalent program: set_delay clips again", "", "no clipping in new (set_delay clips as well, so the behaviour is the same)")
m(D, "def Delay.setMaxDelay", "if delay < s.memory.length then .ok s", "if delay + 1 < s.memory.length then .ok s", "equivalent program: resize to the same length", "", "resizes when the length already fits")
m(D, "def Delay.setMaxDelay", "if delay < s.memory.length then .ok s\n  else do", "do", "set_max_delay never shrinks", "C17", "shrinks the buffer")
m(D, "def Delay.setMaxDelay", "let memory ← vecResize s.memory n zero", "let memory ← vecResize s.memory n one", "new slots are zero", "C18", "fills new slots with one")
m(D, "def Delay.nextOut", "idx s.memory s.read_ptr", "idx s.memory s.write_ptr", "next_out is the next output", "C12", "reads at the write pointer")
m(D, "def Delay.process", "let memory ← idxSet s.memory s.write_ptr sample\n", "let memory ← idxSet s.memory s.read_ptr sample\n", "delay of exactly d samples", "C07", "writes at the read pointer")
m(D, "def Delay.process", "let output ← idx memory s.read_ptr", "let output ← idx s.memory s.read_ptr", "delay 0 passes the current sample", "C07", "reads before writing")
m(D, "def Delay.process", "let write_ptr ← uRem w memory.length", "let write_ptr := if w > memory.length then 0 else w", "process never panics", "C09", "wraps one too late")
m(D, "def Delay.process", "output := output, read_ptr := read_ptr", "read_ptr := read_ptr", "last_out is the last output", "C04", "output not stored")
m(D, "def Delay.clear", "s.memory.map (fun _ => zero), output := zero", "s.memory, output := zero", "clear forgets the stored samples", "C19", "memory kept")
m(D, "def Delay.clear", "s.memory.map (fun _ => zero), output := zero", "s.memory.map (fun _ => zero)", "clear resets last_out", "C05", "output kept")
m(D, "def Delay.clear", "s.memory.map (fun _ => zero), output := zero", "s.memory.map (fun _ => zero), output := zero, read_ptr := 0, write_ptr := 0", "clear keeps the delay", "C19", "resets both pointers")
m(D, "def tapIndex", "let tap ← iSub b t 1", "let tap ← iSub b t 0", "tap_out(0) is the sample just written", "C13", "missing -1")
m(D, "def tapIndex", "if tap < 0 then", "if tap ≤ 0 then", "taps never panic in range", "C13", "wraps at 0 as well")
m(D, "def Delay.tapIn", "idxSet s.memory tap value", "idxSet s.memory s.write_ptr value", "tap_in writes the tapped slot", "C14", "writes at the write pointer")
m(D, "def Delay.addTo", "(old +. value)", "value", "add_to adds", "C15", "overwrites instead of adding")
m(D, "def Delay.addTo", ".ok ({ s with memory := memory }, out)", ".ok ({ s with memory := memory }, old)", "add_to returns the new value", "C15", "returns the old value")
# LinearDelay
m(LD, "def clipDelay", "if lt delay_time (zero : D) then zero else delay_time", "delay_time", "negative delays become 0", "C21", "no lower clip")
m(LD, "def clipDelay", "if lt max delay then max else delay", "delay", "delay clipped to the maximum", "C21", "no upper clip")
m(LD, "def LinearDelay.setDelay", "(fun x => x +. ofUsize s.memory.length)", "(fun x => x +. ofUsize m)", "fractional delay of exactly d", "C20", "wraps at len-1")
m(LD, "def LinearDelay.setDelay", "let read_ptr := if r = s.memory.length then 0 else r", "let read_ptr := r", "read pointer stays inside", "C24", "no reset at len")
m(LD, "def LinearDelay.setDelay", "om_alpha := one -. alpha", "om_alpha := alpha", "weights sum to one", "C20 C25", "wrong complementary weight")
m(LD, "def LinearDelay.setDelay", "(read_ptr_integer -. ofUsize read_ptr)", "(ofUsize read_ptr -. read_ptr_integer)", "weights in [0,1]", "C25", "sign of alpha flipped")
m(LD, "def LinearDelay.new", "do_next_out := true", "do_next_out := false", "first output interpolates", "C20", "stale next_out at the start")
m(LD, "def LinearDelay.nextOut", "let n1 := n0 +. (m1 *. s.alpha)\n      .ok ({ s with next_out := n1, do_next_out := false }, n1)\n    else", "let n1 := n0 -. (m1 *. s.alpha)\n      .ok ({ s with next_out := n1, do_next_out := false }, n1)\n    else", "linear interpolation", "C20", "subtracts the second term")
m(LD, "def LinearDelay.nextOut", "if s.read_ptr < last then", "if s.read_ptr < s.memory.length then", "never panics", "C24", "reads past the end")
m(LD, "def LinearDelay.nextOut", "{ s with next_out := n1, do_next_out := false }, n1)\n    else", "{ s with next_out := n1 }, n1)\n    else", "next_out is cached", "C26", "flag not cleared (equivalent up to the cache)")
m(LD, "def LinearDelay.process", "do_next_out := true, read_ptr", "read_ptr", "each output is interpolated afresh", "C20", "cache never invalidated")
m(LD, "def LinearDelay.process", "let read_ptr ← uRem r s1.memory.length", "let read_ptr := r", "never panics", "C24", "read pointer not wrapped")
m(LD, "def LinearDelay.clear", "s.memory.map (fun _ => zero), output := zero", "s.memory, output := zero", "clear forgets", "C28", "memory kept")
m(LD, "def LinearDelay.setMaxDelay", "if delay < s.memory.length then .ok s\n  else do", "do", "never shrinks", "C17", "shrinks")
m(LD, "def LinearDelay.tapOut", "tapIndex b s.write_ptr tap_delay s.memory.length", "tapIndex b s.read_ptr tap_delay s.memory.length", "tap_out counts from the write pointer", "C13", "counts from the read pointer")
m(LD, "def LinearDelay.addTo", "(old +. value)", "(old -. value)", "add_to adds", "C15", "subtracts")
# filters
m(F, "def OnePole.new", "b0 := one, a1 := zero", "b0 := zero, a1 := zero", "a new filter passes input through", "C29", "b0 starts at 0")
m(F, "def OnePole.process", "s.b0 *. sample -. s.a1 *. s.y_z1", "s.b0 *. sample +. s.a1 *. s.y_z1", "difference equation", "C30", "sign of the feedback")
m(F, "def OnePole.clear", "{ s with y_z1 := zero }", "s", "clear forgets", "C05 C06", "clear does nothing")
m(F, "def OneZero.process", "x_z1 := sample", "x_z1 := output", "difference equation", "C30", "stores the output")
m(F, "def OneZero.process", "output := output, x_z1 := sample", "x_z1 := sample", "last_out", "C04", "output not stored")
m(F, "def OneZero.clear", "{ s with x_z1 := zero }", "{ s with x_z1 := zero, output := zero }", "OneZero's clear keeps the old output (the refutation part of C05)", "C05", "the fix of the bug found")
m(F, "def TwoPole.process", "y_z2 := s.y_z1, y_z1 := output", "y_z2 := output, y_z1 := output", "difference equation", "C30", "shift order")
m(F, "def TwoPole.clear", "y_z1 := zero, y_z2 := zero", "y_z1 := zero", "clear forgets", "C06", "one memory kept")
m(F, "def TwoPole.setCoefficients", "a2 := a2", "a2 := a1", "difference equation with the given coefficients", "C30 C36", "a2 set from a1")
m(F, "def TwoZero.process", "s.b2 *. s.x_z2", "s.b2 *. s.x_z1", "difference equation", "C30", "wrong memory")
m(F, "def TwoZero.process", "x_z2 := s.x_z1, x_z1 := sample", "x_z2 := sample, x_z1 := sample", "difference equation", "C30", "shift order")
m(F, "def Biquad1.process", "-. s.a1 *. s.y_z1 -. s.a2 *. s.y_z2", "-. s.a1 *. s.y_z1 +. s.a2 *. s.y_z2", "difference equation", "C30", "sign of a2")
m(F, "def Biquad1.process", "y_z2 := s.y_z1, y_z1 := output", "y_z2 := s.y_z2, y_z1 := output", "difference equation", "C30", "second output memory not shifted")
m(F, "def Biquad1.clear", "y_z1 := zero, y_z2 := zero", "y_z1 := zero", "clear forgets", "C06", "one memory kept")
m(F, "def Biquad2.process", "let z1 := s.b1 *. sample +. s.z2 -. s.a1 *. output", "let z1 := s.b1 *. sample +. s.z2 -. s.a1 *. sample", "difference equation", "C30", "feedback from the input")
m(F, "def Biquad2.process", "let z2 := s.b2 *. sample -. s.a2 *. output", "let z2 := s.b2 *. sample +. s.a2 *. output", "difference equation", "C30", "sign of a2")
m(F, "def Biquad2.clear", "z1 := zero, z2 := zero, output := zero", "z1 := zero, z2 := zero", "clear resets last_out", "C05", "output kept")
m(F, "def Biquad2.setCoefficients", "b0 := b0, b1 := b1, b2 := b2, a1 := a1, a2 := a2", "b0 := b0, b1 := b1, b2 := b2, a1 := a1, a2 := a2, z1 := FloatOps.zero", "set_coefficients only assigns the coefficients", "C36", "also clears part of the memory")
# rbj
m(R, "def rbjStore", "(a2 /. a0)).clear", "(a2 /. a0))", "set_coefficients clears the memory", "C37", "no clear")
m(R, "def rbjStore", "(b1 /. a0)", "b1", "cookbook response", "C39", "b1 not normalised")
m(R, "def LowPass.setCoefficients", "let alpha := sin w0 /. (two *. q)", "let alpha := sin w0 /. two *. q", "cookbook response", "C40", "precedence slip: (sin/2)*q")
m(R, "def LowPass.setCoefficients", "let b1 := one -. cos_w0", "let b1 := one +. cos_w0", "unity gain at DC", "C39", "sign in b1")
m(R, "def HighPass.setCoefficients", "let b1 := neg one -. cos_w0", "let b1 := one +. cos_w0", "zero at DC", "C39", "sign of b1")
m(R, "def BandPass1.setCoefficients", "let b0 := q *. alpha", "let b0 := alpha", "peak gain Q", "C40", "BPF1 becomes BPF2")
m(R, "def BandPass2.setCoefficients", "let b2 := neg alpha", "let b2 := alpha", "zero at DC", "C39", "sign of b2")
m(R, "def BandStop.setCoefficients", "let b1 := neg two *. cos_w0", "let b1 := two *. cos_w0", "notch at the centre", "C40", "sign of b1")
m(R, "def AllPass.setCoefficients", "let a0 := b2", "let a0 := b0", "all-pass", "C41", "a0 and a2 confused")
m(R, "def Peak.setCoefficients", "(.lit 40)", "(.lit 20)", "gain at the centre is db_gain", "C40", "dB constant 20 instead of 40")
m(R, "def Peak.setCoefficients", "let a0 := one +. alpha /. a\n", "let a0 := one +. alpha *. a\n", "gain at the centre is db_gain", "C40", "a0 with alpha*A")
m(R, "def LowShelf.setCoefficients", "let a1 := neg two *. (a_subt_one +. a_plus_one *. cos_w0)", "let a1 := neg two *. (a_subt_one -. a_plus_one *. cos_w0)", "gain at DC is db_gain", "C39", "sign in a1")
m(R, "def HighShelf.setCoefficients", "let b1 := neg two *. a *. (a_subt_one +. a_plus_one *. cos_w0)", "let b1 := two *. a *. (a_subt_one +. a_plus_one *. cos_w0)", "gain at Nyquist is db_gain", "C39", "sign of b1")
m(R, "def HighShelf.setCoefficients", "let alpha := sin w0 /. two *. sqrt", "let alpha := sin w0 /. one *. sqrt", "cookbook slope", "C70", "factor 2 in alpha")
# analysis
m(A, "def LeakyIntegrator.setAlpha", "lt gain one", "le gain one", "alpha stays below 1", "C45", "accepts 1")
m(A, "def LeakyIntegrator.setAlpha", "le zero gain && lt gain one", "lt gain one", "alpha is never negative", "C45", "accepts negative gains")
m(A, "def LeakyIntegrator.process", "s.alpha *. (s.y_z1 -. value)", "s.alpha *. (value -. s.y_z1)", "output between memory and input", "C46", "sign")
m(A, "def PeakEnvDetector.process", "let input_envelope := abs sample", "let input_envelope := sample", "the envelope is non-negative", "C50 C52", "no rectification")
m(A, "def PeakEnvDetector.process", "then s.attack_gain else s.release_gain", "then s.release_gain else s.attack_gain", "attack when rising", "C51", "attack and release swapped")
m(A, "def PeakEnvDetector.setAttack", "exp (neg one /. attack_length)", "exp (one /. attack_length)", "gain in [0,1]", "C49", "sign of the exponent")
m(A, "def PeakEnvDetector.setRelease", "release_gain := exp", "attack_gain := exp", "set_release sets the release gain only", "C49", "writes the attack gain")
m(A, "def PeakEnvDetector.setAttack", "lt zero attack_length && isFinite attack_length", "lt zero attack_length", "non-finite lengths are ignored", "C49", "accepts +inf")
m(A, "def PeakEnvDetector.clear", "envelope := zero", "envelope := zero, attack_gain := zero", "clear keeps the gains", "C06", "clear resets the attack gain")
m(A, "def RmsEnvDetector.process", "let input_envelope := sample *. sample", "let input_envelope := abs sample", "constant input converges to its magnitude", "C53", "mean of magnitudes")
m(A, "def RmsEnvDetector.process", "sqrt envelope)", "envelope)", "output is the root", "C04 C53", "no square root in the output")
m(A, "def RmsEnvDetector.lastOut", "sqrt s.envelope", "s.envelope", "last_out equals the last output", "C04", "no square root in last_out")
m(A, "def RmsEnvDetector.process", "if lt s.envelope input_envelope then", "if lt (sqrt s.envelope) input_envelope then", "attack when rising", "C51", "compares root with square")
# windows
m(W, "def triangularWindow", "let denominator := size_float /. two", "let denominator := size_minus_one /. two", "triangular ends are 1/n", "C60", "Triangular becomes Bartlett")
m(W, "def bartlettWindow", "let m ← uSub b s.size 1", "let m ← uSub b s.size 0", "symmetry", "C58", "n instead of n-1")
m(W, "def hannWindow", "(.lit (1 / 2))", "(.lit (1 / 4))", "centre is 1", "C60", "wrong factor")
m(W, "def hammingWindow", "(.lit (54 / 100))", "(.lit (53 / 100))", "end value 0.08", "C60", "wrong constant")
m(W, "def blackmanWindow", "cos (two *. theta)", "cos theta", "shape", "C60", "second harmonic lost")
m(W, "def blackmanHarrisWindow", "(.lit (1168 / 100000))", "(.lit (1186 / 100000))", "end value 0.00006", "C60", "digits swapped")
m(W, "def blackmanHarrisWindow", "-. a3 *. cos", "+. a3 *. cos", "shape", "C60", "sign of the last term")
m(W, "def WindowIter.next", "if s.index < s.size then do", "if s.index ≤ s.size then do", "exactly n items", "C55", "one item too many")
m(W, "def WindowIter.next", "{ s with index := i }", "s", "None after n items", "C55", "index not advanced")
m(W, "def WindowIter.len", "s.size", "s.size - s.index", "len is always the size (the refutation part of C56)", "C56", "the fix of the bug found")
m(W, "def applyLoop", "gain *. x :: rest", "gain :: rest", "samples are multiplied", "C57", "writes the window")
m(W, "def applyLoop", "let rest ← applyLoop b k it' xs", "let rest ← applyLoop b k it xs", "sample i gets gain i", "C57", "iterator not advanced")
m(W, "def applyWindow", "(WindowIter.new samples.length)", "(WindowIter.new (samples.length + 1))", "window of the slice's length", "C57", "window one too long")
# util
m(U, "def toDb", "(.lit 20)", "(.lit 10)", "inverse of to_sample", "C63", "power instead of amplitude dB")
m(U, "def toDb", "(.lit (-120))", "(.lit (-100))", "floor", "C64", "wrong floor")
m(U, "def toDb", "lt (ofF64 (.lit (1 / 1000000))) sample && isFinite sample", "lt (ofF64 (.lit (1 / 1000000))) sample", "infinite samples give -120", "C64", "no finiteness test")
m(U, "def toDb", "b.debug && isSignNegative sample", "b.debug && lt sample zero", "-0.0 panics in debug builds", "C67", "comparison instead of the sign bit")
m(U, "def toSample", "lt (ofF64 (.lit (-120))) db_value && isFinite db_value", "lt (ofF64 (.lit (-120))) db_value", "infinite values give 0", "C64", "no finiteness test")
m(U, "def applyGain", "!(isFinite ratio && !isSignNegative ratio)", "isSignNegative ratio", "non-finite ratios panic in debug builds", "C67", "no finiteness test")
m(U, "def applyGain", "sample *. ratio)", "sample +. ratio)", "gain in dB is additive", "C66", "adds instead of multiplying")
json.dump(M, open("/tmp/mut/muts.json", "w"), indent=1)
print(len(M))
