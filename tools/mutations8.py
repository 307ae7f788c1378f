"""Bugs that must break C145 to C148 in their own modules (batch 8). Writes /tmp/mut/muts8.json."""
import json
M = []
def m(file, within, old, new, edit, props, claim, targets=()):
    M.append({"id": "Z%03d" % (len(M) + 1), "file": file, "within": within, "old": old, "new": new, "edit": edit, "props": props.split(), "claim": claim, **({"targets": list(targets)} if targets else {})})
F, R, W, A, DL, LD, U = ("Model/%s.lean" % x for x in ("Filters", "Rbj", "Windows", "Analysis", "Delay", "LinearDelay", "Util"))
RD, OS, BL, CO = (["Verif.Props." + x] for x in ("Reading", "Oversampling", "Builds", "Correlation"))
m(W, "def triangularWindow", "size_float /. two", "size_float", "the triangle falls half as fast", "C145", "the noise bandwidth of Triangular is 1.333 to 1.334 bins", RD)
m(W, "def bartlettWindow", "abs (numerator /. alpha)", "abs (numerator /. size_minus_one)", "the triangle stands on a block", "C145", "noise bandwidth and main lobe of Bartlett", RD)
m(W, "def hannWindow", "one -. cos (", "one +. cos (", "the window is turned inside out", "C145", "the main lobe of Hann falls over a bin", RD)
m(W, "def hammingWindow", ".lit (54 / 100)", ".lit (64 / 100)", "another constant", "C145", "noise bandwidth of Hamming", RD)
m(W, "def blackmanWindow", "+. a2 *. cos", "-. a2 *. cos", "sign of the second harmonic", "C145", "noise bandwidth of Blackman", RD)
m(W, "def blackmanHarrisWindow", ".lit (1168 / 100000)", ".lit (11680 / 100000)", "a digit too many", "C145", "noise bandwidth of Blackman-Harris", RD)
m(W, "def blackmanHarrisWindow", "cos (three *. theta)", "cos (two *. theta)", "the wrong harmonic", "C145", "noise bandwidth of Blackman-Harris", RD)
m(W, "def applyLoop", "gain *. x", "gain *. gain *. x", "the window is applied twice", "C145", "noise reads P times the sum of the squares", RD)
m(R, "def LowPass.setCoefficients", "two *. pi *. cutoff", "pi *. cutoff", "the angle is halved", "C146", "LowPass tends to the analog filter", OS)
m(R, "def HighPass.setCoefficients", "sin w0 /. (two *. q)", "sin w0 /. q", "alpha is not halved", "C146", "HighPass tends to the analog filter", OS)
m(R, "def BandPass1.setCoefficients", "sin w0 /. (two *. q)", "sin w0 *. q", "bandwidth upside down", "C146", "BandPass1 tends to the analog filter", OS)
m(R, "def BandStop.setCoefficients", "let a2 := one -. alpha", "let a2 := one", "no damping in a2", "C146", "BandStop tends to the analog filter", OS)
m(R, "def AllPass.setCoefficients", "let b0 := one -. alpha", "let b0 := one +. alpha", "numerator not reversed", "C146", "AllPass tends to the analog filter", OS)
m(R, "def Peak.setCoefficients", ".lit 40", ".lit 20", "the gain of the other formula", "C146", "Peak has the gain 10^(db/20)", OS)
m(R, "def LowShelf.setCoefficients", ".lit 40", ".lit 20", "the gain of the other formula", "C146", "LowShelf tends to the analog shelf", OS)
m(R, "def HighShelf.setCoefficients", "one /. shelf_slope", "shelf_slope", "slope upside down", "C146", "HighShelf tends to the analog shelf", OS)
m(DL, "def Delay.new", "let n ← uAdd b max_delay 1", "let n := if b.debug then max_delay + 1 else max_delay + 2", "a spare slot in release builds", "C147", "both builds agree", BL)
m(DL, "def Delay.setDelay", "let r ← uSub b t delay_time", "let r ← uSub b t (if b.debug then delay_time else delay)", "the clipping is a debug_assert", "C147", "both builds agree", BL)
m(DL, "def Delay.process", "let w ← uAdd b s.write_ptr 1", "let w ← if b.debug then .ok 0 else uAdd b s.write_ptr 1", "the increment is inside debug_assert's complement", "C147", "both builds agree", BL)
m(DL, "def tapIndex", "if tap < 0 then", "if tap < 0 && b.debug then", "wrapping only in debug builds", "C147", "both builds agree on taps", BL)
m(LD, "def LinearDelay.nextOut", "let last ← uSub b s.memory.length 1", "let last := if b.debug then s.memory.length - 1 else s.memory.length", "the wrap test differs in release builds", "C147", "both builds agree", BL)
m(W, "def WindowIter.next", "if s.index < s.size then do", "if s.index < s.size && b.debug then do", "release builds stop at once", "C147", "windows are the same in both builds", BL)
m(W, "def hannWindow", "let m ← uSub b s.size 1", "let m := if b.debug then s.size - 1 else s.size", "periodic window in release builds", "C147", "windows are the same in both builds", BL)
m(DL, "def Delay.setMaxDelay", "let n ← uAdd b delay 1", "let n ← uAdd ⟨true⟩ delay 1", "checked addition in both builds", "C147", "usize::MAX is where the builds differ", BL)
m(F, "def OnePole.process", "-. s.a1 *. s.y_z1", "+. s.a1 *. s.y_z1", "sign of the feedback", "C148", "R[1] = -a1 R[0]", CO)
m(F, "def OneZero.process", "+. s.b1 *. s.x_z1", "-. s.b1 *. s.x_z1", "sign of b1", "C148", "R[1] = b0 b1", CO)
m(F, "def TwoZero.process", "s.b0 *. sample +. s.b1 *. s.x_z1 +. s.b2 *. s.x_z2", "s.b0 *. sample +. s.b1 *. s.x_z2 +. s.b2 *. s.x_z1", "taps swapped", "C148", "R[1] and R[2] of TwoZero", CO)
m(F, "def TwoPole.process", "-. s.a2 *. s.y_z2", "+. s.a2 *. s.y_z2", "sign of the second feedback", "C148", "linear prediction gives a2", CO)
m(F, "def TwoPole.process", "-. s.a2 *. s.y_z2", "-. s.a2 *. s.y_z1", "both feedbacks take the last output", "C148", "linear prediction gives a2", CO)
m(F, "def Biquad1.process", "x_z2 := s.x_z1, x_z1 := sample", "x_z2 := sample, x_z1 := sample", "both memories store the input", "C148", "the Yule-Walker equations", CO)
m(F, "def Biquad2.process", "let z2 := s.b2 *. sample -. s.a2 *. output", "let z2 := s.b2 *. sample -. s.a2 *. sample", "the feedback takes the input", "C148", "the Yule-Walker equations", CO)
m(R, "def AllPass.setCoefficients", "let a2 := b0", "let a2 := b2", "numerator and denominator alike", "C148", "AllPass keeps noise white", CO)
m(R, "def AllPass.setCoefficients", "let b1 := ", "let b1 := two *. ", "b1 doubled", "C148", "AllPass keeps noise white", CO)
m(DL, "def Delay.process", "let output ← idx memory s.read_ptr", "let output ← idx s.memory s.read_ptr", "the sample is read before the new one is written", "C148", "one peak at the delay", CO)
m(LD, "def LinearDelay.setDelay", "om_alpha := one -. alpha", "om_alpha := one", "the weights do not add up", "C148", "peaks 1-r and r", CO)
m(LD, "def LinearDelay.setDelay", "castTo (read_ptr_integer -. ofUsize read_ptr)", "castTo (ofUsize read_ptr -. read_ptr_integer)", "sign of the fraction", "C148", "peaks 1-r and r", CO)
json.dump(M, open("/tmp/mut/muts8.json", "w"), indent=1)
