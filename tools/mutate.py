#!/usr/bin/env python3
"""Mutation testing of the theorems. Usage: mutate.py MUTATIONS.json [first [last]] [--fast]

Each mutation edits one definition of the model in a scratch copy of lean/ (outside this repository), rebuilds, maps every
error to the declaration that contains it, and adds all theorems whose proof uses one of these declarations (dependency
graph of the unmutated build, file deps.tsv). One line per attempt is printed; nothing is written to this repository."""
import json, os, pathlib, re, shutil, signal, subprocess, sys
root = pathlib.Path(__file__).resolve().parent.parent
scratch = pathlib.Path("/tmp/mut")
deps, thm = {}, set()
for l in (scratch / "deps.tsv").read_text().splitlines():
    l = re.sub(r"_private\.\S*?\.0\.", "", l)  # private lemmas go by the names in the sources
    mod, name, kind, used = (l + "\t").split("\t")[:4]
    deps.setdefault(name, set()).update(used.split())
    if kind == "thm": thm.add(name)
rev = {}
for n, us in deps.items():
    for u in us: rev.setdefault(u, set()).add(n)
manifest = {t for c in json.loads((root / "MANIFEST.json").read_text())["claims"] for t in c["theorems"]}
def closure(start):
    seen, todo = set(start), list(start)
    while todo:
        for n in rev.get(todo.pop(), ()):
            if n not in seen: seen.add(n); todo.append(n)
    return seen
DECL = re.compile(r"^(?:private |noncomputable |protected |@\[[^\]]*\] *)*(theorem|def|instance|example|structure|inductive|abbrev|class)\b ?([^\s:({\[]*)")
def enclosing(path, line):
    ls = path.read_text().splitlines()
    ns = []
    best = None
    for i, l in enumerate(ls[:line]):
        m = re.match(r"^namespace (\S+)", l)
        if m: ns.append(m.group(1))
        m = re.match(r"^end (\S+)", l)
        if m and ns and ns[-1] == m.group(1): ns.pop()
        m = DECL.match(l)
        if m: best = (m.group(1), m.group(2), ".".join(ns), i + 1)
    return best
def run(mut):
    work = scratch / "work"
    src = scratch / "base"
    shutil.rmtree(work, ignore_errors=True)
    subprocess.run(["cp", "-a", str(src), str(work)], check=True)
    p = work / "Verif" / mut["file"]
    s = p.read_text()
    if "pos" in mut:
        a, z = mut["pos"]
        p.write_text(s[:a] + mut["new_token"] + s[z:])
        return finish(mut, work)
    if "within" in mut:
        i = s.index(mut["within"])
        j = s.find("\n/--", i + 1)
        j = len(s) if j < 0 else j
    else: i, j = 0, len(s)
    seg = s[i:j]
    assert mut["old"] in seg, ("not found", mut["id"])
    assert seg.count(mut["old"]) == 1 or mut.get("first"), ("ambiguous", mut["id"], seg.count(mut["old"]))
    s = s[:i] + seg.replace(mut["old"], mut["new"], 1) + s[j:]
    p.write_text(s)
    return finish(mut, work)
def assume(path, line):
    """Replace the proof of the declaration that starts at `line` by sorry, without moving the lines below."""
    ls = path.read_text().split("\n")
    end = line
    while end < len(ls) and not (ls[end] and not ls[end][0].isspace()): end += 1
    text = "\n".join(ls[line - 1:end])
    depth = 0
    for i, c in enumerate(text):
        if c in "([{⟨": depth += 1
        if c in ")]}⟩": depth -= 1
        if depth == 0 and text.startswith(":=", i): break
    else: return
    path.write_text("\n".join(ls[:line - 1] + [text[:i] + ":= sorry" + "\n" * text[i:].count("\n")] + ls[end:]))
def covered(seen, props):
    hit = closure({d for d in seen if d in deps}) & manifest
    return bool(props) and all(any(t.split(".")[-1].startswith(c + "_") for t in hit) for c in props)
def watch(work, targets, props, seen):
    """One build of the targets, given up once enough declarations have failed."""
    pr = subprocess.Popen(["lake", "build", *targets], cwd=work, stdout=subprocess.PIPE, stderr=subprocess.STDOUT, text=True, start_new_session=True)
    out, now = "", set(seen)
    for l in pr.stdout:
        out += l
        m = re.match(r"error: (Verif/\S+?\.lean):(\d+):\d+", l)
        if m:
            b = enclosing(work / m.group(1), int(m.group(2)))
            if b: now.add(f"{b[2]}.{b[1]}" if b[2] else b[1])
        if l.startswith("error: Lean exited") and covered(now, props):
            os.killpg(pr.pid, signal.SIGKILL)
            pr.wait()
            return out, 1
    return out, pr.wait()
def build(work, fast, targets=(), props=()):
    """Output and success of a build (of `targets` only, if given); with `fast`, stop at the first module that fails. With
    targets, stop as soon as declarations have failed that theorems of all of `props` depend on."""
    if targets:
        out, seen = "", set()
        for _ in range(30):
            new, code = watch(work, targets, props, seen)
            out += new
            if code == 0: break
            # the failing declarations of modules other than the targets are assumed, to get to the targets
            todo = {}
            for m in re.finditer(r"^error: (Verif/\S+?\.lean):(\d+):\d+", new, re.M):
                if m.group(1)[:-5].replace("/", ".") in targets: continue
                b = enclosing(work / m.group(1), int(m.group(2)))
                if b: todo.setdefault(m.group(1), set()).add(b[3])
                if b: seen.add(f"{b[2]}.{b[1]}" if b[2] else b[1])
            if not todo: break
            if covered(seen, props): break
            for q, lines in todo.items():
                for ln in sorted(lines, reverse=True): assume(work / q, ln)
        return out, out == new and code == 0
    if not fast:
        r = subprocess.run(["lake", "build"], cwd=work, capture_output=True, text=True)
        return r.stdout + r.stderr, r.returncode == 0
    pr = subprocess.Popen(["lake", "build"], cwd=work, stdout=subprocess.PIPE, stderr=subprocess.STDOUT, text=True, start_new_session=True)
    out, bad = "", False
    for l in pr.stdout:
        out += l
        if bad and re.match("error: Lean exited", l):
            os.killpg(pr.pid, signal.SIGKILL)
            pr.wait()
            return out, False
        if l.startswith("error: Verif/"): bad = True
    return out, pr.wait() == 0
def finish(mut, work):
    out, ok = build(work, "--fast" in sys.argv, mut.get("targets", ()), mut.get("props", ()))
    if re.search(r"^error: Verif/" + re.escape(mut["file"]), out, re.M):
        return {"id": mut["id"], "error": "the edited definition does not compile"}
    direct, other = set(), set()
    for m in re.finditer(r"^error: (Verif/\S+?\.lean):(\d+):\d+", out, re.M):
        b = enclosing(work / m.group(1), int(m.group(2)))
        if b is None: other.add(m.group(1)); continue
        kind, name, ns, ln = b
        if kind == "example" or not name: other.add(f"{kind} at {m.group(1)}:{ln}"); continue
        cand = f"{ns}.{name}" if ns else name
        direct.add(cand)
    known = {d for d in direct if d in deps}
    cl = closure(known)
    failed = sorted(t for t in cl if t in manifest)
    return {"id": mut["id"], "built": ok, "direct": sorted(direct), "other": sorted(other), "failed": failed,
            "unknown": sorted(direct - known)}
if __name__ == "__main__":
    args = [x for x in sys.argv[1:] if x != "--fast"]
    muts = json.loads(pathlib.Path(args[0]).read_text())
    a = int(args[1]) if len(args) > 1 else 0
    z = int(args[2]) if len(args) > 2 else len(muts)
    for m in muts[a:z]:
        try: res = run(m)
        except AssertionError as e: res = {"id": m["id"], "error": str(e)}
        print(json.dumps(res), flush=True)
