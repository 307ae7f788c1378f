"""Bugs that must break C149 to C152 in their own modules (batch 9). Writes /tmp/mut/muts9.json."""
import json
M = []
def m(file, within, old, new, edit, props, claim, targets=()):
    M.append({"id": "a%03d" % (len(M) + 1), "file": file, "within": within, "old": old, "new": new, "edit": edit, "props": props.split(), "claim": claim, **({"targets": list(targets)} if targets else {})})
R, W, A = ("Model/%s.lean" % x for x in ("Rbj", "Windows", "Analysis"))
MN, RF, SP, NF = (["Verif.Props." + x] for x in ("MeterNoise", "ReadingFloat", "ShelfPhase", "NoiseFloat"))
m(A, "def PeakEnvDetector.process", "abs sample", "sample", "no rectification", "C149", "the mean peak reading approaches the mean magnitude", MN)
m(A, "def PeakEnvDetector.process", "lt s.envelope input_envelope", "lt input_envelope s.envelope", "attack and release swapped", "C149", "bias of unequal gains", MN)
m(A, "def RmsEnvDetector.process", "sample *. sample", "abs sample", "magnitudes instead of squares", "C149", "the mean square reading approaches the power", MN)
m(A, "def RmsEnvDetector.lastOut", "sqrt s.envelope", "s.envelope", "last_out without the root", "C149", "the start of the mean square is last_out squared", MN)
m(W, "def applyLoop", "gain *. x", "gain +. x", "the window is added", "C150", "the spectrum is that of the exactly windowed signal", RF)
m(W, "def hannWindow", "one -. cos (", "one +. cos (", "the window is turned inside out", "C150", "half-bin level of Hann", RF)
m(W, "def blackmanHarrisWindow", ".lit (1168 / 100000)", ".lit (11680 / 100000)", "a digit too many", "C150", "reading through Blackman-Harris", RF)
for k in ("LowShelf", "HighShelf"):
    w = "def %s.setCoefficients" % k
    m(R, w, "two *. pi *. cutoff_frequency", "pi *. cutoff_frequency", "the angle is halved", "C151", "the phase at the corner", SP)
    m(R, w, "let forty := ofF64 (T := T) (.lit 40)", "let forty := ofF64 (T := T) (.lit 20)", "the gain of the other formula", "C151", "the product of the gains and the phase at the corner", SP)
    m(R, w, "one /. shelf_slope -. one", "one /. shelf_slope", "slope term without the 1", "C151", "right angle condition", SP)
    m(R, w, "let sqrt_product := two *. sqrt a *. alpha", "let sqrt_product := two *. a *. alpha", "root of the gain forgotten", "C151", "the phase at the corner", SP)
    m(R, w, "let a_subt_one := a -. one", "let a_subt_one := one -. a", "boost and cut exchanged in part", "C151", "sign of the shift", SP)
    m(R, w, "sin w0 /. two *. sqrt", "sin w0 *. sqrt", "alpha not halved", "C151", "the phase at the corner", SP)
    m(R, w, "let a2 := a_plus_one +. a_subt_one *. cos_w0 -. sqrt_product" if k == "LowShelf" else "let a2 := a_plus_one -. a_subt_one *. cos_w0 -. sqrt_product", "let a2 := a_plus_one -. a_subt_one -. sqrt_product", "cosine lost in a2", "C151", "the shift vanishes at both ends", SP)
    m(R, w, "let b2 := a *. (a_plus_one -. a_subt_one *. cos_w0 -. sqrt_product)" if k == "LowShelf" else "let b2 := a *. (a_plus_one +. a_subt_one *. cos_w0 -. sqrt_product)", "let b2 := a_plus_one -. a_subt_one *. cos_w0 -. sqrt_product", "factor a lost in b2", "C151", "gains and shifts", SP)
m(R, "def LowPass.setCoefficients", "two *. pi *. cutoff", "pi *. cutoff", "the angle is halved", "C152", "noise level of LowPass", NF)
m(R, "def HighPass.setCoefficients", "sin w0 /. (two *. q)", "sin w0 /. q", "alpha is not halved", "C152", "noise level of HighPass", NF)
m(R, "def BandPass1.setCoefficients", "sin w0 /. (two *. q)", "sin w0 *. q", "bandwidth upside down", "C152", "noise level of BandPass1", NF)
m(R, "def BandStop.setCoefficients", "let a2 := one -. alpha", "let a2 := one", "no damping in a2", "C152", "noise level of BandStop", NF)
m(R, "def AllPass.setCoefficients", "let b0 := one -. alpha", "let b0 := one +. alpha", "numerator not reversed", "C152", "AllPass keeps the level of noise", NF)
m(A, "def PeakEnvDetector.process", "abs sample", "sample", "no rectification", "C152", "mean peak reading", NF)
m(A, "def RmsEnvDetector.process", "sqrt envelope", "envelope", "no root", "C152", "root mean square of the RMS reading", NF)
m(A, "def RmsEnvDetector.process", "sample *. sample", "abs sample", "magnitudes instead of squares", "C152", "root mean square of the RMS reading", NF)
json.dump(M, open("/tmp/mut/muts9.json", "w"), indent=1)
