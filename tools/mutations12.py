"""Bugs that must break C159 and C160 in their own modules (batch 12). Writes /tmp/mut/muts12.json."""
import json
M = []
def m(file, within, old, new, edit, props, claim, targets=()):
    M.append({"id": "d%03d" % (len(M) + 1), "file": file, "within": within, "old": old, "new": new, "edit": edit, "props": props.split(), "claim": claim, **({"targets": list(targets)} if targets else {})})
U, W, A, D = ("Model/%s.lean" % x for x in ("Util", "Windows", "Analysis", "Delay"))
CO, BA = (["Verif.Props." + x] for x in ("Compressor", "Bands"))
m(U, "def toDb", "ofF64 (.lit 20) *. log10 sample", "ofF64 (.lit 10) *. log10 sample", "levels of powers instead of amplitudes", "C160", "static curve", CO)
m(U, "def toDb", ".lit (-120)", ".lit 120", "silence is loud", "C160", "nothing is changed below the threshold", CO)
m(U, "def toDb", "b.debug && isSignNegative sample", "b.debug && !isSignNegative sample", "assertion inverted", "C160", "it runs on every input", CO)
m(U, "def toDb", "lt (ofF64 (.lit (1 / 1000000))) sample && isFinite sample", "lt sample (ofF64 (.lit (1 / 1000000))) && isFinite sample", "floor comparison reversed", "C160", "static curve", CO)
m(U, "def toSample", "db_value /. ofF64 (.lit 20)", "db_value /. ofF64 (.lit 10)", "powers instead of amplitudes", "C160", "one decibel for each ratio decibels", CO)
m(U, "def toSample", "db_value /. ofF64 (.lit 20)", "ofF64 (.lit 20) /. db_value", "quotient reversed", "C160", "one decibel for each ratio decibels", CO)
m(U, "def toSample", "else zero", "else one", "no reduction beyond 120 dB", "C160", "below the static curve however loud", CO)
m(U, "def applyGain", "sample *. ratio", "sample +. ratio", "gain added", "C160", "static curve", CO)
m(U, "def applyGain", "sample *. ratio", "ratio", "the sample is dropped", "C160", "the output is the sample times the gain", CO)
m(U, "def applyGain", "!(isFinite ratio && !isSignNegative ratio)", "(isFinite ratio && !isSignNegative ratio)", "assertion inverted", "C160", "it runs on every input", CO)
m(A, "def PeakEnvDetector.process", "abs sample", "sample", "no rectification", "C160", "negative samples are under the static curve", CO)
m(A, "def PeakEnvDetector.process", "then s.attack_gain else s.release_gain", "then s.release_gain else s.attack_gain", "gains swapped", "C160", "bound with the attack gain", CO)
m(A, "def PeakEnvDetector.clear", "envelope := zero", "envelope := one", "cleared to one", "C160", "a first sample reaches the bound", CO)
m(A, "def RmsEnvDetector.process", "sqrt envelope", "envelope", "no root", "C160", "ratio with the RMS detector", CO)
m(A, "def RmsEnvDetector.process", "sample *. sample", "abs sample", "magnitude instead of square", "C160", "sinusoids", CO)
m(W, "def applyLoop", "gain *. x :: rest", "(gain +. x) :: rest", "the window is added", "C159", "gain 0 away from the band", BA)
m(W, "def hannWindow", "uSub b s.size 1", "uSub b s.size 0", "periodic instead of symmetric window", "C159", "delayed by exactly M samples", BA)
m(W, "def blackmanWindow", "a0 -. a1 *. cos theta", "a0 +. a1 *. cos theta", "sign of the second term", "C159", "the filter and its complement add up to the input", BA)
m(D, "def Delay.tapOut", "tap_delay s.memory.length", "(tap_delay + 1) s.memory.length", "taps one sample late", "C159", "delayed by exactly M samples", BA)
json.dump(M, open("/tmp/mut/muts12.json", "w"), indent=1)
print(len(M))
