#!/usr/bin/env python3
"""Write results of tools/mutate.py to seeded/LOG.jsonl. Usage: logseed.py MUTATIONS.json RESULTS.jsonl [NOTES.json]"""
import json, pathlib, sys
root = pathlib.Path(__file__).resolve().parent.parent
muts = {m["id"]: m for m in json.load(open(sys.argv[1]))}
notes = json.load(open(sys.argv[3])) if len(sys.argv) > 3 else {}
log = root / "seeded" / "LOG.jsonl"
done = {json.loads(l)["id"] for l in log.read_text().splitlines() if l.strip()} if log.exists() else set()
with log.open("a") as f:
    for l in open(sys.argv[2]):
        r = json.loads(l)
        if r["id"] in done or "error" in r: continue
        m = muts[r["id"]]
        n = notes.get(r["id"], {})
        ids = m["props"]
        f.write(json.dumps({
            "id": r["id"], "definition": f'lean/Verif/{m["file"]}: {m.get("within", "").replace("noncomputable ", "")}',
            "edit": f'{m["old"].strip()}  ->  {m["new"].strip()}',
            "claim_broken": (", ".join(ids) + ": " if ids else "none: ") + m["claim"],
            "built": r["built"], "failed_directly": r["direct"] + r["other"],
            "theorems_failed": r["failed"], "theorems_tightened": n.get("tightened", []),
            "note": n.get("note", "")}, ensure_ascii=False) + "\n")
