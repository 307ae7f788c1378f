"""Bugs that must break C156 to C158 in their own modules (batch 11). Writes /tmp/mut/muts11.json."""
import json
M = []
def m(file, within, old, new, edit, props, claim, targets=()):
    M.append({"id": "c%03d" % (len(M) + 1), "file": file, "within": within, "old": old, "new": new, "edit": edit, "props": props.split(), "claim": claim, **({"targets": list(targets)} if targets else {})})
W, A, D = ("Model/%s.lean" % x for x in ("Windows", "Analysis", "Delay"))
LI, RE, WS = (["Verif.Props." + x] for x in ("Limiter", "Reverb", "WindowedSinc"))
m(W, "def hannWindow", "one -. cos", "one +. cos", "Hann upside down", "C158", "the filter keeps the middle of the ideal response", WS)
m(W, "def hannWindow", "two *. pi *. index_float", "pi *. index_float", "half a period", "C158", "symmetric weights, delay exactly M", WS)
m(W, "def blackmanWindow", "+. a2 *. cos (two *. theta)", "-. a2 *. cos (two *. theta)", "sign of the third term", "C158", "ripple of Blackman", WS)
m(W, "def blackmanWindow", "a0 -. a1 *. cos theta", "a0 +. a1 *. cos theta", "sign of the second term", "C158", "gain 1 below the edge", WS)
m(W, "def applyLoop", "gain *. x :: rest", "x :: rest", "the window is not applied", "C158", "ripple at most 0.0114", WS)
m(W, "def applyLoop", "gain *. x :: rest", "(gain +. x) :: rest", "the window is added", "C158", "gain 0 above the edge", WS)
m(W, "def hannWindow", "uSub b s.size 1", "uSub b s.size 0", "periodic instead of symmetric window", "C158", "symmetric weights, delay exactly M", WS)
m(D, "def Delay.process", "let output ← idx memory s.read_ptr", "let output ← idx s.memory s.read_ptr", "output read before the write", "C157", "period of a loop with delay 0", RE)
m(D, "def Delay.nextOut", "idx s.memory s.read_ptr", "idx s.memory s.write_ptr", "next_out at the write pointer", "C157", "echoes at multiples of the period", RE)
m(D, "def Delay.new", "if delay > max_delay then max_delay else delay", "delay", "the delay is not clipped", "C157", "period is the clipped delay", RE)
m(D, "def Delay.new", "vecNew (zero : T) n", "vecNew (one : T) n", "new line not silent", "C157", "echoes of an impulse and nothing else", RE)
m(A, "def PeakEnvDetector.process", "abs sample", "sample", "no rectification", "C156", "negative samples are limited", LI)
m(A, "def PeakEnvDetector.process", "then s.attack_gain else s.release_gain", "then s.release_gain else s.attack_gain", "gains swapped", "C156", "immediate attack", LI)
m(A, "def PeakEnvDetector.process", "input_envelope +. alpha *. (s.envelope -. input_envelope)", "input_envelope +. alpha *. (input_envelope -. s.envelope)", "difference reversed", "C156", "the reading is not below the sample", LI)
m(A, "def RmsEnvDetector.process", "sqrt envelope", "envelope", "no root", "C156", "levelled to amplitude sqrt 2 t", LI)
json.dump(M, open("/tmp/mut/muts11.json", "w"), indent=1)
print(len(M))
