"""Bugs in what the model says about the target's pointer width and its use (batch 3). Writes /tmp/mut/muts3.json."""
import json
M = []
def m(file, within, old, new, edit, props, claim):
    M.append({"id": "W%03d" % (len(M) + 1), "file": file, "within": within, "old": old, "new": new, "edit": edit, "props": props.split(), "claim": claim})
T, R, D, L, F = "Rust/Target.lean", "Rust/Res.lean", "Model/Delay.lean", "Model/LinearDelay.lean", "Float/IEEE.lean"
m(T, "def usizeBits", "else 32", "else 16", "16-bit pointers instead of 32-bit ones", "C09 C16", "usize has 32 or 64 bits")
m(T, "def isizeMod", "usizeBits - 1", "usizeBits", "isize as wide as usize", "C13 C16", "isize::MAX is half of usize::MAX")
m(T, "def isizeMax", "isizeMod - 1", "isizeMod", "isize::MAX too large by one", "C09 C76", "the capacity limit is isize::MAX")
m(T, "def isizeMax", "isizeMod - 1", "usizeMod - 1", "capacity limit usize::MAX", "C09 C76", "the capacity limit is isize::MAX")
m(R, "def uAdd", "x + y < usizeMod", "x + y < isizeMod", "usize addition overflows at isize::MAX", "C07 C09", "usize addition")
m(R, "def wrapI", "(i + isizeMod)", "(i + usizeMod)", "two's complement off by half", "C13 C16", "as isize")
m(R, "def asUsize", "usizeMod", "isizeMod", "as usize keeps one bit less", "C13", "as usize")
m(F, "def toUsize", "(fin s a ha)⌋.toNat) (usizeMod - 1)", "(fin s a ha)⌋.toNat) (isizeMod - 1)", "cast of a float saturates at isize::MAX", "C22 C24", "saturating cast")
json.dump(M, open("/tmp/mut/muts3.json", "w"), indent=1)
print(len(M))
