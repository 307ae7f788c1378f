"""Bugs that must break C164, and bugs of the delay lines that must break C158 and C159 (batch 14). Writes /tmp/mut/muts14.json."""
import json
M = []
def m(file, within, old, new, edit, props, claim, targets=()):
    M.append({"id": "f%03d" % (len(M) + 1), "file": file, "within": within, "old": old, "new": new, "edit": edit, "props": props.split(), "claim": claim, **({"targets": list(targets)} if targets else {})})
R, F, D = ("Model/%s.lean" % x for x in ("Rbj", "Filters", "Delay"))
FB, DL = (["Verif.Props." + x] for x in ("FlatBands", "DesignLines"))
m(R, "def Peak.setCoefficients", "let b2 := one -. alpha *. a", "let b2 := one +. alpha *. a", "sign of alpha in b2", "C164", "transparent at 0 dB", FB)
m(R, "def Peak.setCoefficients", "let a0 := one +. alpha /. a", "let a0 := one -. alpha /. a", "sign of alpha in a0", "C164", "transparent at 0 dB", FB)
m(R, "def LowShelf.setCoefficients", "let b1 := two *. a *. (a_subt_one -.", "let b1 := two *. a *. (a_subt_one +.", "sign in b1", "C164", "transparent at 0 dB", FB)
m(R, "def HighShelf.setCoefficients", "let a1 := two *. (a_subt_one", "let a1 := neg two *. (a_subt_one", "sign of a1", "C164", "transparent at 0 dB", FB)
m(R, "def rbjStore", ").clear", ")", "memory kept", "C164", "transparent whatever the filter did before", FB)
m(F, "def Biquad2.process", "+. s.z2 -. s.a1", "+. s.z2 +. s.a1", "sign of the feedback", "C164", "transparent at 0 dB", FB)
m(R, "def rbjStore", "(b1 /. a0)", "b1", "b1 not divided", "C164", "transparent at 0 dB", FB)
m(R, "def Peak.setCoefficients", "powf ten (db_gain /. forty)", "powf ten ((db_gain +. one) /. forty)", "one dB too much", "C164", "transparent at 0 dB", FB)
m(D, "def Delay.tapOut", "tap_delay s.memory.length", "(tap_delay + 1) s.memory.length", "taps one sample late", "C158 C159", "delayed by exactly M samples", DL)
json.dump(M, open("/tmp/mut/muts14.json", "w"), indent=1)
print(len(M))
