#!/usr/bin/env python3
"""A second list of mutations: edits that a test of one stream, or exact arithmetic, would not show. Writes /tmp/mut/muts2.json for mutate.py."""
import json
M = []
def m(file, within, old, new, claim, props, what=None, first=False):
    M.append(dict(id=f"N{len(M)+1:03d}", file=file, within=within, old=old, new=new, claim=claim, props=props.split(),
                  what=what or f"{old.strip()} -> {new.strip()}", first=first))
D, LD, F, R, A, W, U, TR = ("Model/Delay.lean", "Model/LinearDelay.lean", "Model/Filters.lean", "Model/Rbj.lean",
    "Model/Analysis.lean", "Model/Windows.lean", "Model/Util.lean", "Model/Traits.lean")
tiny = "ofF64 (.lit (1 / 10 ^ 20))"
# the same filter in exact arithmetic
m(F, "def OnePole.process", "s.b0 *. sample -. s.a1 *. s.y_z1", f"s.b0 *. sample -. s.a1 *. s.y_z1 +. {tiny} -. {tiny}", "opposite input gives opposite output; scaling by a power of two is exact; the residue after silence", "C81 C85 C96", "anti-denormal constant added and taken away")
m(F, "def Biquad2.process", "let output := s.b0 *. sample +. s.z1", f"let output := s.b0 *. sample +. s.z1 +. {tiny} -. {tiny}", "opposite input gives opposite output; scaling by a power of two is exact; a denormal residue", "C81 C85 C96", "anti-denormal constant added and taken away")
m(F, "def TwoPole.process", "s.b0 *. sample -. s.a1 *. s.y_z1 -. s.a2 *. s.y_z2", "s.b0 *. sample -. s.a1 *. s.y_z1 -. s.a2 *. s.y_z2 +. zero", "opposite input gives opposite output, the sign of zero included", "C85", "adds +0.0, so -0.0 becomes +0.0")
m(F, "def Biquad2.process", "let output := s.b0 *. sample +. s.z1\n  let z1 := s.b1 *. sample +. s.z2 -. s.a1 *. output\n  let z2 := s.b2 *. sample -. s.a2 *. output\n  ({ s with output := output, z1 := z1, z2 := z2 }, output)",
  "let w := sample -. s.a1 *. s.z1 -. s.a2 *. s.z2\n  let output := s.b0 *. w +. s.b1 *. s.z1 +. s.b2 *. s.z2\n  ({ s with output := output, z1 := w, z2 := s.z1 }, output)", "under moving coefficients every sample meets the coefficients current at input", "C100", "direct form II instead of its transpose: the same for fixed coefficients")
m(F, "def Biquad1.process", "+. s.b1 *. s.x_z1 +. s.b2 *. s.x_z2\n    -. s.a1 *. s.y_z1 -. s.a2 *. s.y_z2", "+. (s.b1 *. s.x_z1 +. s.b2 *. s.x_z2)\n    -. (s.a1 *. s.y_z1 +. s.a2 *. s.y_z2)", "small filters are biquads, bit for bit", "C34", "sums associated differently")
m(F, "def TwoZero.process", "s.b0 *. sample +. s.b1 *. s.x_z1 +. s.b2 *. s.x_z2", "s.b2 *. s.x_z2 +. s.b1 *. s.x_z1 +. s.b0 *. sample", "small filters are biquads, bit for bit", "C34", "sum in the opposite order")
# the same coefficients in exact arithmetic
m(R, "def LowPass.setCoefficients", "let b0 := (one -. cos_w0) /. two\n  let b1 := one -. cos_w0", "let b1 := two *. sin (w0 /. two) *. sin (w0 /. two)\n  let b0 := b1 /. two", "a low-pass filter with a very low cutoff is silent", "C79", "half-angle formula: the repair of the cancellation")
m(R, "def HighPass.setCoefficients", "let a2 := one -. alpha", "let a2 := two -. a0", "the f32 high-pass filter of C80 diverges; accuracy of the coefficients", "C80 C83", "a2 computed from a0")
m(R, "def rbjStore", "(s.setCoefficients (b0 /. a0) (b1 /. a0) (b2 /. a0) (a1 /. a0) (a2 /. a0)).clear", "(s.setCoefficients (b0 *. (one /. a0)) (b1 *. (one /. a0)) (b2 *. (one /. a0)) (a1 *. (one /. a0)) (a2 *. (one /. a0))).clear", "accuracy of the coefficients; zero-gain equalisers are transparent bit for bit", "C83 C42", "multiplies by the reciprocal")
m(R, "def Peak.setCoefficients", "let a := powf ten (db_gain /. forty)", "let a := sqrt (powf ten (db_gain /. (forty /. two)))", "accuracy of Peak in floating point", "C84", "root of the amplitude")
m(R, "def rbjStore", ".clear", "", "setting an rbj filter clears its memory; set before every sample it is memoryless", "C37 C100", "memory kept")
m(R, "def AllPass.setCoefficients", "let b0 := one -. alpha", "let b0 := one +. alpha", "phase response; energy kept; gain one", "C41 C82 C93", "sign in b0")
# analysis
m(A, "def LeakyIntegrator.process", "value +. s.alpha *. (s.y_z1 -. value)", "s.alpha *. s.y_z1 +. (one -. s.alpha) *. value", "output between input and previous output, rounding included", "C46 C74", "the other form of the average")
m(A, "def PeakEnvDetector.process", "input_envelope +. alpha *. (s.envelope -. input_envelope)", "alpha *. s.envelope +. (one -. alpha) *. input_envelope", "envelope between level and previous envelope, rounding included", "C51 C99", "the other form of the average")
m(A, "def PeakEnvDetector.setAttack", "exp (neg one /. attack_length)", "one -. one /. attack_length", "the gain belongs to the time constant", "C54 C99", "first-order approximation of the exponential")
m(A, "def RmsEnvDetector.setRelease", "exp (neg one /. release_length)", "one /. exp (one /. release_length)", "accuracy of the gain; length 0.001 gives gain 0", "C99", "reciprocal of the exponential")
m(A, "def RmsEnvDetector.process", "let input_envelope := sample *. sample", "let input_envelope := abs (sample *. sample)", "none: squares are never negative", "", "equivalent except for the sign of NaN")
m(A, "def PeakEnvDetector.process", "if lt s.envelope input_envelope then s.attack_gain", "if le s.envelope input_envelope then s.attack_gain", "none: at equality both gains give the level", "", "equivalent except when a gain is not finite")
# windows
m(W, "def hannWindow", "half *. (one -. cos (numerator /. size_minus_one))", "half -. half *. cos (numerator /. size_minus_one)", "none: as accurate", "", "factor multiplied out")
m(W, "def hannWindow", "let numerator := two *. pi *. index_float\n  .ok (half *. (one -. cos (numerator /. size_minus_one)))", "let step := two *. pi /. size_minus_one\n  .ok (half *. (one -. cos (step *. index_float)))", "one-sample windows are NaN", "C62 C97", "step computed first")
m(W, "def triangularWindow", "let denominator := size_float /. two", "let denominator := (size_minus_one +. one) /. two", "accuracy beyond the precision of the type", "C97", "n recomputed from n-1")
m(W, "def blackmanWindow", "cos (two *. theta)", "(two *. cos theta *. cos theta -. one)", "accuracy in floating point", "C97", "double-angle formula")
m(W, "def bartlettWindow", "one -. abs (numerator /. alpha)", "abs (one -. abs (numerator /. alpha))", "none in exact arithmetic", "", "absolute value of a number that is not negative")
# util
m(U, "def toDb", "ofF64 (.lit 20) *. log10 sample", "ofF64 (.lit 10) *. log10 (sample *. sample)", "every sample above the floor is converted (squares underflow and overflow)", "C98", "power instead of amplitude")
m(U, "def toSample", "powf (ofF64 (.lit 10)) (db_value /. ofF64 (.lit 20))", "powf (ofF64 (.lit 10)) (ofF64 (.lit (5 / 100)) *. db_value)", "accuracy constant", "C98", "multiplies by 0.05")
m(U, "def toDb", "lt (ofF64 (.lit (1 / 1000000))) sample", "lt (ofF64 (.div (.lit 1) (.lit 1000000))) sample", "none: the same double", "", "floor written as a division")
# delays
m(LD, "def LinearDelay.nextOut", "let m0 ← idx s.memory s.read_ptr\n    let n0 := m0 *. s.om_alpha", "let m0 ← idx s.memory s.read_ptr\n    let n0 := m0 -. m0 *. s.alpha", "integer delays are exact; accuracy", "C77 C78", "om_alpha multiplied out")
m(LD, "def LinearDelay.setDelay", "om_alpha := one -. alpha", "om_alpha := DelayTime.castTo (one -. (read_ptr_integer -. ofUsize read_ptr))", "weights add up in the sample type", "C25 C78", "complement taken in f32")
m(LD, "def LinearDelay.setDelay", "let read_ptr := if r = s.memory.length then 0 else r", "let read_ptr := if r ≥ s.memory.length then 0 else r", "none: never above the length", "", "comparison instead of equality")
m(LD, "def LinearDelay.process", "do_next_out := true, read_ptr := read_ptr", "read_ptr := read_ptr", "complete description: every output is interpolated anew", "C77", "flag not reset")
m(LD, "def LinearDelay.setMaxDelay", "if delay < s.memory.length then .ok s", "if delay ≤ s.memory.length then .ok s", "set_max_delay makes room for the delay asked for", "C17", "off by one")
m(D, "def Delay.process", "let output ← idx memory s.read_ptr\n", "let output ← idx memory s.read_ptr\n  let output := output +. zero\n", "stored samples are returned bit for bit", "C07 C75", "adds +0.0")
m(D, "def Delay.setMaxDelay", "let n ← uAdd b delay 1", "let n ← uAdd b delay 2", "get_max_delay is what was set", "C17 C76", "one slot too many")
m(D, "def Delay.setMaxDelay", ".ok { s with memory := memory }", ".ok { s with memory := memory, write_ptr := 0 }", "growing is inaudible when the read pointer is behind the write pointer", "C18 C75", "write pointer reset")
m(D, "def Delay.addTo", "let memory ← idxSet s.memory tap (old +. value)", "let memory ← idxSet s.memory tap (value +. old)", "none for numbers: only which NaN comes out differs", "", "operands swapped")
m(D, "def tapIndex", "let tap ← iSub b t 1", "let tap := t", "feedback through a tap; taps count from the most recent sample", "C13 C92", "taps count from one")
json.dump(M, open("/tmp/mut/muts2.json", "w"), indent=1)
print(len(M))
