#!/usr/bin/env python3
"""Generate operator mutations of every definition of the model; writes /tmp/mut/auto.json for mutate.py.

Each mutation replaces one occurrence of one token in one definition. Whether a mutant is a different program, and which
claim it breaks, is recorded by hand for survivors (mutants that still build)."""
import json, pathlib, re
root = pathlib.Path(__file__).resolve().parent.parent / "lean" / "Verif"
FILES = ["Model/Traits.lean", "Model/Delay.lean", "Model/LinearDelay.lean", "Model/Filters.lean", "Model/Rbj.lean",
         "Model/Analysis.lean", "Model/Windows.lean", "Model/Util.lean", "Rust/Res.lean", "Float/IEEE.lean"]
RULES = [(r"\+\.", "-."), (r"-\.", "+."), (r"\*\.", "+."), (r"/\.", "*."),
         (r"\bzero\b", "one"), (r"\bone\b", "zero"), (r"\btwo\b", "one"), (r"\blt ", "le "), (r"\ble ", "lt "),
         (r" < ", " ≤ "), (r" ≤ ", " < "), (r" ≥ ", " > "), (r" > ", " ≥ "), (r"\btrue\b", "false"), (r"\bfalse\b", "true"),
         (r"\bcos\b(?!_)", "sin"), (r"\bsin\b(?!_)", "cos"), (r"\babs ", "id "), (r"\bneg ", "id "), (r"\bsqrt ", "id "),
         (r"&&", "||"), (r"\|\|", "&&"), (r"\.y_z1\b", ".y_z2"), (r"\.y_z2\b", ".y_z1"), (r"\.x_z1\b", ".x_z2"), (r"\.x_z2\b", ".x_z1"),
         (r"\.b0\b", ".b1"), (r"\.b1\b", ".b2"), (r"\.b2\b", ".b1"), (r"\.a1\b", ".a2"), (r"\.a2\b", ".a1"),
         (r"\.z1\b", ".z2"), (r"\.z2\b", ".z1"),
         (r"s\.read_ptr\b", "s.write_ptr"), (r"s\.write_ptr\b", "s.read_ptr"), (r"(?<=length )1\b", "0"), (r"(?<=_ptr )1\b", "0"),
         (r"(?<=size )1\b", "0"), (r"(?<=index )1\b", "0"), (r"(?<=delay )1\b", "0"), (r"\.attack_gain", ".release_gain"), (r"\.release_gain", ".attack_gain"),
         (r"\.alpha\b", ".om_alpha"), (r"\.om_alpha\b", ".alpha"), (r"(?<=\.lit \()(\d+)", "+1"), (r"(?<=\.lit )(\d+)", "+1"),
         (r"(?<=\{ s with )\w+ := [^,}]*, ", ""), (r", \w+ := [^,}]*(?=[ ]?\})", ""), (r", \w+ := [^,}]*(?=,)", ""),
         (r" != ", " == "), (r"!(?=[stb(i])", ""), (r" \+ ", " - "), (r" - ", " + "), (r" % ", " / "), (r"\bmin ", "max "),
         (r"\buAdd b", "uSub b"), (r"\buSub b", "uAdd b")]
DEF = re.compile(r"^(?:noncomputable )?(def|instance) ?([^\s:({\[]*)", re.M)
out, seen = [], set()
for fn in FILES:
    s = (root / fn).read_text()
    starts = [m.start() for m in DEF.finditer(s)]
    for i in starts:
        j = s.find("\n\n", i)
        seg = s[i:j]
        head = seg.split("\n")[0]
        k = max(seg.find(":="), seg.find(" where"))
        k = seg.find(":=") if ":=" in seg else 0
        m0 = re.search(r":=\s|\bwhere\b|\n  \|", seg)
        k = m0.start() if m0 else 0
        for pat, rep in RULES:
            for m in re.finditer(pat, seg[k:]):
                a, z = i + k + m.start(), i + k + m.end()
                new = str(int(m.group(1)) + 1) if rep == "+1" else rep
                if s[a:z] == new: continue
                key = (fn, a, z, new)
                if key in seen: continue
                seen.add(key)
                ls = s.rfind("\n", 0, a) + 1
                le = s.find("\n", z)
                out.append(dict(id=f"A{len(out)+1:03d}", file=fn, within=re.match(r"(?:noncomputable )?(.*?)(?= [({\[:]|$)", head).group(1),
                                pos=[a, z], new_token=new, old=s[ls:le], new=s[ls:a] + new + s[z:le]))
pathlib.Path("/tmp/mut/auto.json").write_text(json.dumps(out, ensure_ascii=False, indent=0))
import collections
print(len(out), collections.Counter(m["file"] for m in out))
