"""Bugs that must break C153 to C155 in their own modules (batch 10). Writes /tmp/mut/muts10.json."""
import json
M = []
def m(file, within, old, new, edit, props, claim, targets=()):
    M.append({"id": "b%03d" % (len(M) + 1), "file": file, "within": within, "old": old, "new": new, "edit": edit, "props": props.split(), "claim": claim, **({"targets": list(targets)} if targets else {})})
R, A, U, D, LD = ("Model/%s.lean" % x for x in ("Rbj", "Analysis", "Util", "Delay", "LinearDelay"))
MF, MD, TR = (["Verif.Props." + x] for x in ("MetersFloat", "MeterDb", "TapResponse"))
m(A, "def PeakEnvDetector.process", "abs sample", "sample", "no rectification", "C153", "peak reading of a sinusoid", MF)
m(A, "def PeakEnvDetector.process", "lt s.envelope input_envelope", "lt input_envelope s.envelope", "attack and release swapped", "C153", "the peak meter jumps to crests", MF)
m(A, "def RmsEnvDetector.process", "sample *. sample", "abs sample", "magnitudes instead of squares", "C153", "RMS reading of a sinusoid", MF)
m(A, "def RmsEnvDetector.process", "sqrt envelope", "envelope", "no root", "C153", "RMS reading of a sinusoid", MF)
m(A, "def RmsEnvDetector.clear", "envelope := zero", "envelope := one", "clear leaves a level behind", "C153", "reading after clear", MF)
m(A, "def RmsEnvDetector.getAttackGain", "s.attack_gain", "s.release_gain", "getter of the other gain", "C153", "the gain seen is the gain used", MF)
m(A, "def PeakEnvDetector.getReleaseGain", "s.release_gain", "s.attack_gain", "getter of the other gain", "C153", "the gain seen is the gain used", MF)
m(R, "def LowPass.setCoefficients", "two *. pi *. cutoff", "pi *. cutoff", "the angle is halved", "C153", "reading behind LowPass at the corner", MF)
m(R, "def HighPass.setCoefficients", "sin w0 /. (two *. q)", "sin w0 /. q", "alpha is not halved", "C153", "reading behind HighPass at the corner", MF)
m(U, "def toDb", ".lit 20", ".lit 10", "decibels of power", "C154", "the meter shows 20 log10", MD)
m(U, "def toDb", ".lit (1 / 1000000)", ".lit (1 / 100)", "floor at -40 dB", "C154", "quiet readings are shown", MD)
m(U, "def toSample", ".lit 20", ".lit 10", "decibels of power", "C154", "the fader moves the display by v", MD)
m(U, "def toSample", ".lit (-120)", ".lit (-30)", "fader silent below -30 dB", "C154", "the fader works down to -60", MD)
m(U, "def applyGain", "sample *. ratio", "sample +. ratio", "gain added", "C154", "the fader scales the sinusoid", MD)
m(U, "def applyGain", "!(isFinite ratio && !isSignNegative ratio)", "!(isFinite ratio && isSignNegative ratio)", "assertion inverted", "C154", "apply_gain does not panic in a debug build", MD)
m(R, "def Peak.setCoefficients", "let a := powf", "let a := one /. powf", "boost becomes cut", "C154", "Peak moves the display by its gain", MD)
m(R, "def LowShelf.setCoefficients", "let forty := ofF64 (T := T) (.lit 40)", "let forty := ofF64 (T := T) (.lit 20)", "the gain of the other formula", "C154", "a shelf moves the display by half its gain at the corner", MD)
m(R, "def HighShelf.setCoefficients", "let forty := ofF64 (T := T) (.lit 40)", "let forty := ofF64 (T := T) (.lit 20)", "the gain of the other formula", "C154", "a shelf moves the display by half its gain at the corner", MD)
m(A, "def RmsEnvDetector.process", "sqrt envelope", "envelope", "no root", "C154", "the display is 3 dB below the amplitude", MD)
m(D, "def Delay.tapOut", "tapIndex b s.write_ptr tap_delay", "tapIndex b s.read_ptr tap_delay", "taps counted from the read pointer", "C155", "taps read the delayed samples", TR)
m(D, "def Delay.process", "idxSet s.memory s.write_ptr sample", "idxSet s.memory s.read_ptr sample", "writes at the read pointer", "C155", "taps read the delayed samples", TR)
m(D, "def Delay.new", "uAdd b max_delay 1", "uAdd b max_delay 0", "no room for the longest delay", "C155", "taps up to the capacity", TR)
m(D, "def Delay.new", "vecNew (zero : T) n", "vecNew (one : T) n", "new line not silent", "C155", "silence before the start", TR)
m(LD, "def LinearDelay.tapOut", "tapIndex b s.write_ptr tap_delay", "tapIndex b s.read_ptr tap_delay", "taps counted from the read pointer", "C155", "taps read the delayed samples", TR)
m(LD, "def LinearDelay.nextOut", "let n0 := m0 *. s.om_alpha", "let n0 := m0 *. s.alpha", "weights exchanged in part", "C155", "the flanger interpolates", TR)
m(LD, "def LinearDelay.setDelay", "om_alpha := one -. alpha", "om_alpha := one", "weights do not add up to one", "C155", "the flanger interpolates", TR)
m(LD, "def LinearDelay.process", "do_next_out := true", "do_next_out := false", "output frozen", "C155", "the flanger interpolates", TR)
json.dump(M, open("/tmp/mut/muts10.json", "w"), indent=1)
