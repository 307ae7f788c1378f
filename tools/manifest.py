#!/usr/bin/env python3
"""Writes MANIFEST.json: every theorem named Cnn_... under lean/Verif/Props, grouped by property.
The status is `partial` if listed in PARTIAL (with the reason), otherwise `proved`."""
import json, re, pathlib
root = pathlib.Path(__file__).resolve().parent.parent
notes = json.loads((root / "tools" / "notes.json").read_text())
thms = {}
for f in sorted((root / "lean/Verif/Props").glob("*.lean")):
    for m in re.finditer(r"^(?:private )?theorem (C(\d\d+)_[\w?']+)", f.read_text(), re.M):
        thms.setdefault("C" + m.group(2), []).append("Rasp." + m.group(1))
props = [json.loads(l)["id"] for l in (root / "properties.jsonl").read_text().splitlines() if l.strip()]
claims = []
for p in props:
    if p in thms:
        n = notes.get(p, {})
        claims.append({"property": p, "status": n.get("status", "proved"), "theorems": thms[p], "note": n.get("note", "")})
extra = set(thms) - set(props)
assert not extra, extra
(root / "MANIFEST.json").write_text(json.dumps({"claims": claims}, indent=1, ensure_ascii=False) + "\n")
print(len(claims), "claims,", sum(len(c["theorems"]) for c in claims), "theorems; missing:", [p for p in props if p not in thms])
