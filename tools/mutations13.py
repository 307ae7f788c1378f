"""Bugs that must break C161, C162, C163 and the lookahead limiter in their own modules (batch 13). Writes /tmp/mut/muts13.json."""
import json
M = []
def m(file, within, old, new, edit, props, claim, targets=()):
    M.append({"id": "e%03d" % (len(M) + 1), "file": file, "within": within, "old": old, "new": new, "edit": edit, "props": props.split(), "claim": claim, **({"targets": list(targets)} if targets else {})})
R, A, F, D = ("Model/%s.lean" % x for x in ("Rbj", "Analysis", "Filters", "Delay"))
GA, PH, EQ, LA = (["Verif.Props." + x] for x in ("Gate", "Phaser", "Equalizer", "LookAhead"))
P = "def PeakEnvDetector.process"
m(A, P, "abs sample", "sample", "no rectification", "C161", "every sample that reaches the threshold passes", GA)
m(A, P, "then s.attack_gain else s.release_gain", "then s.release_gain else s.attack_gain", "gains swapped", "C161", "opens at once", GA)
m(A, P, "lt s.envelope input_envelope", "lt input_envelope s.envelope", "comparison reversed", "C161", "opens at once", GA)
m(A, P, "input_envelope +. alpha *. (s.envelope -. input_envelope)", "s.envelope +. alpha *. (input_envelope -. s.envelope)", "smoothing the other way", "C161", "opens at once", GA)
m(A, P, "input_envelope +. alpha", "input_envelope -. alpha", "sign of the memory", "C161", "a closed gate stays closed", GA)
m(A, "def PeakEnvDetector.setRelease", "exp (neg one /. release_length)", "exp (neg two /. release_length)", "twice as fast", "C161", "open for at least len ln p samples", GA)
m(A, "def PeakEnvDetector.setRelease", "release_gain := exp", "attack_gain := exp", "stored in the other field", "C161", "open for at least len ln p samples", GA)
m(A, "def PeakEnvDetector.new", "attack_gain := zero", "attack_gain := one", "attacks never", "C161", "a loud sample opens the gate", GA)
m(A, "def RmsEnvDetector.process", "sqrt envelope", "envelope", "no root", "C161", "level at which sinusoids pass", GA)
m(R, "def AllPass.setCoefficients", "let b0 := one -. alpha", "let b0 := one +. alpha", "sign of alpha in b0", "C162", "the angle rises to N pi", PH)
m(R, "def AllPass.setCoefficients", "let b1 := neg two *. cos_w0", "let b1 := two *. cos_w0", "sign of b1", "C162", "a notch at the common frequency for odd N", PH)
m(R, "def AllPass.setCoefficients", "let a1 := b1", "let a1 := b0", "wrong coefficient copied", "C162", "response with a gain of 1 per stage", PH)
m(R, "def AllPass.setCoefficients", "let a2 := b0", "let a2 := b2", "wrong coefficient copied", "C162", "inputs that settle give outputs that settle", PH)
m(R, "def AllPass.setCoefficients", "two *. pi *. phase_frequency", "pi *. phase_frequency", "half of the angle", "C162", "the notch lies at the frequency that was set", PH)
m(F, "def Biquad2.process", "s.b2 *. sample -. s.a2 *. output", "s.b2 *. sample +. s.a2 *. output", "sign of the feedback", "C162", "response with a gain of 1 per stage", PH)
m(F, "def Biquad2.process", "s.b0 *. sample +. s.z1", "s.b0 *. sample", "memory not added", "C162", "the angle rises to N pi", PH)
m(R, "def rbjStore", "(a2 /. a0)).clear", "a2).clear", "a2 not divided", "C162", "response with a gain of 1 per stage", PH)
m(R, "def Peak.setCoefficients", ".lit 40", ".lit 20", "twice the gain in dB", "C163", "gain between the sum of the cuts and the sum of the boosts", EQ)
m(R, "def Peak.setCoefficients", "let a2 := one -. alpha /. a", "let a2 := one -. alpha *. a", "product for quotient", "C163", "undone by the opposite gain", EQ)
m(R, "def Peak.setCoefficients", "let b2 := one -. alpha *. a", "let b2 := one +. alpha *. a", "sign of alpha in b2", "C163", "unchanged at DC and Nyquist", EQ)
m(R, "def Peak.setCoefficients", "let a0 := one +. alpha /. a", "let a0 := one +. alpha", "a forgotten", "C163", "undone by the opposite gain", EQ)
m(R, "def LowShelf.setCoefficients", "sqrt ((a +. one /. a)", "sqrt ((a +. one)", "reciprocal forgotten", "C163", "undone by the opposite gain", EQ)
m(R, "def LowShelf.setCoefficients", "two *. sqrt a *. alpha", "two *. a *. alpha", "root forgotten", "C163", "undone by the opposite gain", EQ)
m(R, "def LowShelf.setCoefficients", "let b1 := two *. a *. (a_subt_one -.", "let b1 := two *. a *. (a_subt_one +.", "sign in b1", "C163", "only the low shelves count at DC", EQ)
m(R, "def HighShelf.setCoefficients", "let a1 := two *. (a_subt_one", "let a1 := neg two *. (a_subt_one", "sign of a1", "C163", "only the high shelves count at Nyquist", EQ)
m(R, "def HighShelf.setCoefficients", "let b0 := a *. (", "let b0 := (", "factor forgotten", "C163", "undone by the opposite gain", EQ)
m(R, "def HighShelf.setCoefficients", "db_gain /. forty", "neg db_gain /. forty", "boost is cut", "C163", "only the high shelves count at Nyquist", EQ)
m(R, "def rbjStore", ").clear", ")", "memory kept", "C163", "undone sample by sample whatever the filters did before", EQ)
m(F, "def Biquad2.process", "+. s.z2 -. s.a1", "+. s.z2 +. s.a1", "sign of the feedback", "C163", "undone by the opposite gain", EQ)
m(A, P, "abs sample", "sample", "no rectification", "C156", "the lookahead limiter's bound, negative samples", LA)
m(A, P, "then s.attack_gain else s.release_gain", "then s.release_gain else s.attack_gain", "gains swapped", "C156", "the lookahead limiter's bound", LA)
m(D, "def Delay.process", "idx memory s.read_ptr", "idx memory s.write_ptr", "reads where it writes", "C156", "the delayed sample is limited", LA)
json.dump(M, open("/tmp/mut/muts13.json", "w"), indent=1)
print(len(M))
