"""Bugs in size hints, taps, the order of additions and the filter design (batch 5). Writes /tmp/mut/muts5.json."""
import json
M = []
def m(file, within, old, new, edit, props, claim, targets=()):
    M.append({"id": "V%03d" % (len(M) + 1), "file": file, "within": within, "old": old, "new": new, "edit": edit, "props": props.split(), "claim": claim, **({"targets": list(targets)} if targets else {})})
S, D, L, F, R, W = ("Model/%s.lean" % x for x in ("SizeHint", "Delay", "LinearDelay", "Filters", "Rbj", "Windows"))
m(S, "def WindowIter.sizeHint", "(_ : WindowIter) : Hint := (0, none)", "(s : WindowIter) : Hint := (s.size, some s.size)", "size_hint returns the size", "C118", "the hint is not exact and Zip::len panics")
m(S, "def WindowIter.sizeHint", "(_ : WindowIter) : Hint := (0, none)", "(s : WindowIter) : Hint := (s.size - s.index, some (s.size - s.index))", "size_hint returns what is left", "C118", "the hint is not exact and Zip::len panics")
m(S, "def WindowIter.sizeHint", "(_ : WindowIter) : Hint := (0, none)", "(s : WindowIter) : Hint := (0, some s.size)", "size_hint has an upper bound", "C118", "the hint has no upper bound")
m(S, "def WindowIter.sizeHint", "(_ : WindowIter) : Hint := (0, none)", "(_ : WindowIter) : Hint := (1, none)", "size_hint promises an item", "C118", "the hint is sound")
m(S, "def Hint.len", "if h.2 = some h.1 then .ok h.1 else .error .panic", ".ok h.1", "len does not assert", "C118", "len of an adapter panics")
m(S, "def Hint.len", ".ok h.1 else", ".ok (h.1 + 1) else", "len is one too large", "C118", "an exact hint gives the length")
m(S, "def Hint.zip", "| some x, none => some x", "| some _, none => none", "zip drops the bound of the left side", "C118", "Zip::len with an empty slice is 0")
m(S, "def Hint.zip", "| none, some y => some y", "| none, some _ => none", "zip drops the bound of the right side", "C118", "Zip::len with an empty slice is 0")
m(S, "def Hint.zip", "(min a.1 b.1,", "(max a.1 b.1,", "zip uses the longer side", "C118", "Zip::len panics for every non-empty slice")
m(S, "def Hint.take", "| none => some k", "| none => none", "take ignores its count", "C118", "take(0) has length 0")
m(S, "def Hint.take", "if x < k then some x else some k", "if x < k then some k else some x", "take picks the larger bound", "C118", "with an exact hint, take gives the right length")
m(S, "def Hint.skip", "(a.1 - k, a.2.map (· - k))", "(a.1, a.2.map (· - k))", "skip keeps the lower bound", "C118", "with an exact hint, skip gives the right length")
m(S, "def WindowIter.forwardedLen", ":= s.len", ":= s.len - s.index", "the forwarded len is what is left", "C118", "map and enumerate report the original size")
m(D, "def tapIndex", "iSub b t 1", "iSub b t 0", "tap positions are one too new", "C116 C08", "tap k is the sample k steps back")
m(D, "def Delay.addTo", "(old +. value)", "(value +. old)", "add_to swaps the summands", "C116", "the sum is in the documented order (bit for bit)")
m(D, "def Delay.addTo", "(old +. value)", "(old +. old)", "add_to doubles the old value", "C116 C08", "add_to adds the value")
m(D, "def Delay.addTo", "let out ← idx memory tap", "let out ← idx s.memory tap", "add_to returns the old value", "C08", "add_to returns the new value")
m(L, "def LinearDelay.tapOut", "tapIndex b s.write_ptr tap_delay s.memory.length", "tapIndex b s.read_ptr tap_delay s.memory.length", "tap_out is relative to the read position", "C116", "tap k is the sample k steps back")
m(L, "def LinearDelay.addTo", "(old +. value)", "value", "add_to overwrites", "C15", "add_to adds")
m(F, "def Biquad1.process", "s.b0 *. sample\n    +. s.b1 *. s.x_z1 +. s.b2 *. s.x_z2", "s.b0 *. sample\n    +. (s.b1 *. s.x_z1 +. s.b2 *. s.x_z2)", "feed-forward sum from the right", "C117", "Biquad1 agrees with TwoZero bit for bit", ["Verif.Props.SmallBiquad"])
m(F, "def TwoZero.process", "s.b0 *. sample +. s.b1 *. s.x_z1 +. s.b2 *. s.x_z2", "s.b0 *. sample +. (s.b1 *. s.x_z1 +. s.b2 *. s.x_z2)", "sum from the right", "C117", "TwoZero agrees with Biquad1 bit for bit", ["Verif.Props.SmallBiquad"])
m(F, "def TwoPole.process", "s.b0 *. sample -. s.a1 *. s.y_z1 -. s.a2 *. s.y_z2", "s.b0 *. sample -. (s.a1 *. s.y_z1 +. s.a2 *. s.y_z2)", "feedback sum first", "C117", "TwoPole agrees with Biquad1 bit for bit", ["Verif.Props.SmallBiquad"])
m(F, "def Biquad2.process", "s.b1 *. sample +. s.z2 -. s.a1 *. output", "s.b1 *. sample -. s.a1 *. output +. s.z2", "state update in another order", "C117", "the second-order claim for Biquad2 is false, the first-order one true", ["Verif.Props.SmallBiquad"])
m(F, "def OnePole.process", "s.b0 *. sample -. s.a1 *. s.y_z1", "neg (s.a1 *. s.y_z1) +. s.b0 *. sample", "summands swapped", "C117", "OnePole agrees with Biquad1 (the swap is invisible in IEEE arithmetic, not for every FloatOps)", ["Verif.Props.SmallBiquad"])
m(R, "def LowPass.setCoefficients", "two *. pi *. cutoff_frequency /. sample_rate", "two *. pi /. sample_rate *. cutoff_frequency", "angle computed in another order", "C115", "scaling both rates by a power of two is invisible (still true); bit-for-bit order", ["Verif.Props.Ratio"])
m(R, "def HighShelf.setCoefficients", "let a1 := two *. (a_subt_one -.", "let a1 := neg two *. (a_subt_one -.", "a1 has the sign of the low shelf", "C114 C43", "the high shelf mirrors the low shelf")
m(R, "def HighPass.setCoefficients", "let b1 := neg one -. cos_w0", "let b1 := one +. cos_w0", "b1 sign slip", "C114", "the high-pass mirrors the low-pass")
m(R, "def BandPass1.setCoefficients", "let a1 := neg two *. cos_w0", "let a1 := two *. cos_w0", "a1 sign slip", "C114", "the band-pass is its own mirror image about the quarter rate")
json.dump(M, open("/tmp/mut/muts5.json", "w"), indent=1)
print(len(M))
