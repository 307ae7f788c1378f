"""Bugs that must break C138 to C144 in their own modules (batch 7). Writes /tmp/mut/muts7.json."""
import json
M = []
def m(file, within, old, new, edit, props, claim, targets=()):
    M.append({"id": "Y%03d" % (len(M) + 1), "file": file, "within": within, "old": old, "new": new, "edit": edit, "props": props.split(), "claim": claim, **({"targets": list(targets)} if targets else {})})
F, R, W, A, DL, LD, U = ("Model/%s.lean" % x for x in ("Filters", "Rbj", "Windows", "Analysis", "Delay", "LinearDelay", "Util"))
NF, EX, TL, SP, OR, ID, ST = (["Verif.Props." + x] for x in ("NetworkFloat", "Exact", "Tail", "Spoilt", "Order", "Identify", "SampleType"))
m(DL, "def Delay.process", "let output ← idx memory s.read_ptr", "let output ← idx s.memory s.read_ptr", "the sample is read before the new one is written", "C138", "the network follows its recursion", NF)
m(DL, "def Delay.new", "if delay > max_delay then max_delay else delay", "if delay > max_delay then delay else max_delay", "the clipping takes the larger value", "C138", "line i has the length d i", NF)
m(F, "def OnePole.process", "s.b0 *. sample -. s.a1 *. s.y_z1", "s.b0 *. (sample -. s.a1 *. s.y_z1)", "the gain applies to the feedback too", "C139", "OnePole solves its difference equation exactly", EX)
m(F, "def OneZero.process", "s.b0 *. sample +. s.b1 *. s.x_z1", "s.b0 *. (sample +. s.b1 *. s.x_z1)", "b1 is relative to b0", "C139", "OneZero solves its difference equation exactly", EX)
m(F, "def Biquad2.process", "let z2 := s.b2 *. sample -. s.a2 *. output", "let z2 := s.b2 *. sample -. s.a2 *. sample", "the feedback takes the input", "C139", "Biquad2 is exact", EX)
m(F, "def Biquad1.process", "-. s.a1 *. s.y_z1 -. s.a2 *. s.y_z2", "-. (s.a1 *. s.y_z1 -. s.a2 *. s.y_z2)", "brackets around the feedback", "C139", "Biquad1 is exact", EX)
m(F, "def TwoPole.process", "y_z2 := s.y_z1, y_z1 := output", "y_z2 := output, y_z1 := output", "both memories store the output", "C139", "the oscillator repeats after 12 samples", EX)
m(F, "def OnePole.process", "({ s with y_z1 := output }, output)", "({ s with y_z1 := sample }, output)", "the input is stored", "C139", "running sums", EX)
m(R, "def LowPass.setCoefficients", "sin w0 /. (two *. q)", "sin w0 /. q", "alpha is not halved", "C140", "damping sin w0/(2q)", TL)
m(R, "def HighPass.setCoefficients", "let a2 := one -. alpha", "let a2 := alpha -. one", "sign of a2", "C140", "HighPass rings", TL)
m(R, "def Peak.setCoefficients", "let a2 := one -. alpha /. a", "let a2 := one -. alpha *. a", "the gain on the wrong side of a2", "C140", "Peak rings with the damping of its gain", TL)
m(R, "def LowShelf.setCoefficients", "sin w0 /. two *. sqrt", "sin w0 *. sqrt", "alpha is not halved", "C140", "damping of LowShelf", TL)
m(R, "def HighShelf.setCoefficients", "sin w0 /. two *. sqrt", "cos w0 /. two *. sqrt", "cosine for sine", "C140", "damping of HighShelf", TL)
m(F, "def TwoPole.process", "-. s.a2 *. s.y_z2", "+. s.a2 *. s.y_z2", "sign of the second feedback", "C140", "TwoPole rings with r = sqrt a2", TL)
m(F, "def Biquad2.process", "let output := s.b0 *. sample +. s.z1", "let output := s.b0 *. sample +. s.z1 +. s.z2", "both states go to the output", "C140", "Biquad2 rings with r = sqrt a2", TL)
m(F, "def OnePole.setCoefficients", "{ s with b0 := b0, a1 := a1 }", "{ s with b0 := b0, a1 := a1, y_z1 := zero }", "set_coefficients clears", "C141", "new coefficients do not repair", SP)
m(F, "def Biquad1.setCoefficients", "{ s with b0 := b0,", "{ s with y_z1 := zero, y_z2 := zero, x_z1 := zero, x_z2 := zero, b0 := b0,", "set_coefficients clears", "C141", "new coefficients do not repair", SP)
m(F, "def Biquad2.process", "let z1 := s.b1 *. sample +. s.z2 -. s.a1 *. output", "let z1 := s.b1 *. sample +. s.z2", "no first feedback", "C141", "Biquad2 stays spoilt for ever", SP)
m(F, "def TwoZero.process", "x_z2 := s.x_z1, x_z1 := sample", "x_z2 := s.x_z2, x_z1 := sample", "the second memory is never written", "C141", "a bad sample spoils two more outputs", SP)
m(F, "def OneZero.process", "x_z1 := sample", "x_z1 := output", "the output is stored", "C141", "OneZero recovers after one sample", SP)
m(LD, "def LinearDelay.nextOut", "let m1 ← idx s.memory 0", "let m1 ← idx s.memory s.read_ptr", "no wrap to the first slot", "C141", "the neighbour of the last slot is the first", SP)
m(LD, "def LinearDelay.process", "{ s1 with output := output, do_next_out := true, read_ptr := read_ptr }", "{ s1 with output := output, read_ptr := read_ptr }", "the announcement is never withdrawn", "C141", "the loop is spoilt by its own samples only", SP)
m(LD, "def LinearDelay.setDelay", "(ofUsize s.write_ptr -. delay_time)", "(delay_time -. ofUsize s.write_ptr)", "difference reversed", "C141", "which two samples count", SP)
m(F, "def OnePole.process", "-. s.a1 *. s.y_z1", "+. s.a1 *. s.y_z1", "sign of the feedback", "C142", "OnePole with a1 at most 0 keeps order", OR)
m(F, "def OneZero.process", "+. s.b1 *. s.x_z1", "-. s.b1 *. s.x_z1", "sign of b1", "C142", "OneZero with positive coefficients keeps order", OR)
m(F, "def Biquad1.process", "+. s.b2 *. s.x_z2", "-. s.b2 *. s.x_z2", "sign of b2", "C142", "Biquad1 keeps order", OR)
m(F, "def Biquad2.process", "s.b1 *. sample +. s.z2 -. s.a1 *. output", "s.b1 *. sample -. s.z2 -. s.a1 *. output", "sign of z2", "C142", "Biquad2 keeps order", OR)
m(F, "def TwoPole.clear", "y_z1 := zero, y_z2 := zero", "y_z1 := zero", "clear forgets only half", "C142", "after clear the answer to a constant rises", OR)
m(LD, "def LinearDelay.setDelay", "om_alpha := one -. alpha", "om_alpha := alpha -. one", "sign of the other weight", "C142", "LinearDelay keeps order", OR)
m(U, "def toSample", "else zero", "else one", "floor of to_sample is 1", "C142", "to_sample keeps order at the floor", OR)
m(F, "def OnePole.process", "s.b0 *. sample -. s.a1 *. s.y_z1", "s.b0 *. sample -. s.a1 *. s.a1 *. s.y_z1", "a1 squared", "C143", "a1 and -a1 answer differently", ID)
m(F, "def TwoPole.process", "-. s.a2 *. s.y_z2", "-. s.a1 *. s.a2 *. s.y_z2", "product of both coefficients", "C143", "a2 shows for a1 = 0", ID)
m(F, "def TwoZero.process", "s.b0 *. sample +. s.b1 *. s.x_z1 +. s.b2 *. s.x_z2", "s.b0 *. sample +. s.b1 *. s.x_z1 +. s.b2 *. s.x_z1", "b1 and b2 share a tap", "C143", "three samples tell three coefficients", ID)
m(F, "def Biquad2.process", "let z2 := s.b2 *. sample -. s.a2 *. output", "let z2 := s.b2 *. sample", "a2 is unused", "C143", "five samples tell a2", ID)
m(R, "def LowPass.setCoefficients", "sin w0 /. (two *. q)", "sin w0 /. two", "q is unused", "C143", "five samples tell q", ID)
m(R, "def AllPass.setCoefficients", "let a2 := b0", "let a2 := b2", "numerator and denominator alike", "C143", "five samples tell AllPass's parameters", ID)
m(R, "def Peak.setCoefficients", ".lit 40", ".lit 20", "the gain of the other formula", "C143", "(still true: gains are still told apart)", ID)
m(R, "def HighShelf.setCoefficients", "one /. shelf_slope", "shelf_slope /. shelf_slope", "slope is unused", "C143", "five samples tell the slope", ID)
m(A, "def LeakyIntegrator.process", "s.alpha *. (s.y_z1 -. value)", "s.alpha *. s.alpha *. (s.y_z1 -. value)", "alpha squared", "C143", "(first sample 1 - alpha)", ID)
m(A, "def PeakEnvDetector.setRelease", "{ s with release_gain := exp", "{ s with attack_gain := exp", "set_release sets the attack", "C143", "two samples tell both lengths", ID)
m(A, "def RmsEnvDetector.process", "then s.attack_gain else s.release_gain", "then s.attack_gain else s.attack_gain", "release is unused", "C143", "two samples tell both lengths", ID)
m(DL, "def Delay.process", "let output ← idx memory s.read_ptr", "let output ← idx memory s.write_ptr", "no delay at all", "C143", "samples tell the delay", ID)
m(LD, "def LinearDelay.setDelay", "castTo (read_ptr_integer -. ofUsize read_ptr)", "castTo (read_ptr_integer -. read_ptr_integer)", "the fraction is ignored", "C143", "samples tell a fractional delay", ID)
m(DL, "def Delay.process", "let output ← idx memory s.read_ptr", "let output ← (idx memory s.read_ptr).map abs", "the output is rectified", "C144", "Delay never looks at a sample", ST)
m(DL, "def Delay.process", "output := output, read_ptr", "output := output +. zero, read_ptr", "zero is added to the stored output", "C144", "Delay never computes with a sample (last_out)", ST)
m(DL, "def Delay.tapIn", "idxSet s.memory tap value", "idxSet s.memory tap (one *. value)", "tap_in multiplies by one", "C144", "Delay never computes with a sample", ST)
m(DL, "def Delay.clear", "s.memory.map (fun _ => zero)", "s.memory.map (fun x => x -. x)", "clear subtracts instead of setting", "C144", "Delay never computes with a sample (infinities stay as NaN)", ST)
m(DL, "def Delay.addTo", "(old +. value)", "(old -. value)", "add_to subtracts", "C144", "relations that respect sums are kept (still true for doubling, not for every relation)", ST)
m(DL, "def Delay.setMaxDelay", "vecResize s.memory n zero", "vecResize s.memory n one", "new slots hold 1", "C144", "new slots are zero for both types", ST)
m(A, "def LeakyIntegrator.process", "(s.y_z1 -. value)", "(value -. s.y_z1)", "sign of the feedback", "C144", "f32 and f64 stay close", ST)
m(W, "def hammingWindow", ".lit (54 / 100)", ".lit (55 / 100)", "another constant", "C144", "(f32 and f64 still agree; C60 fails)", ST)
M = [x for x in M if x]
json.dump(M, open("/tmp/mut/muts7.json", "w"), indent=1)
print(len(M))
