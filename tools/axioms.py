#!/usr/bin/env python3
"""Writes AXIOMS.md: the axioms every theorem listed in MANIFEST.json depends on (needs a finished `lake build`)."""
import json, pathlib, re, subprocess, tempfile
root = pathlib.Path(__file__).resolve().parent.parent
names = [t for c in json.loads((root / "MANIFEST.json").read_text())["claims"] for t in c["theorems"]]
with tempfile.TemporaryDirectory() as d:
    src = pathlib.Path(d) / "Axioms.lean"
    src.write_text("import Verif\n" + "".join(f"#print axioms {n}\n" for n in names))
    out = subprocess.run(["lake", "env", "lean", str(src)], cwd=root / "lean", capture_output=True, text=True).stdout
out = re.sub(r"\n\s+", " ", out)
groups = {}
for m in re.finditer(r"'([^']+(?:'*))' (does not depend on any axioms|depends on axioms: \[([^\]]*)\])", out):
    groups.setdefault(", ".join(sorted((m.group(3) or "").split(", "))) or "none", []).append(m.group(1))
assert sum(map(len, groups.values())) == len(names), (sum(map(len, groups.values())), len(names))
text = "# Axioms each property theorem depends on\n\nGenerated by tools/axioms.py from `#print axioms`.\n"
for k in sorted(groups, key=len):
    text += f"\n## {k} ({len(groups[k])} theorems)\n\n" + ", ".join(n.replace("Rasp.", "") for n in groups[k]) + "\n"
(root / "AXIOMS.md").write_text(text)
print({k: len(v) for k, v in groups.items()})
