#!/usr/bin/env python3
"""Regenerates lean/Verif.lean: one import per module under lean/Verif."""
import pathlib
root = pathlib.Path(__file__).resolve().parent.parent / "lean"
mods = sorted(str(p.relative_to(root))[:-5].replace("/", ".") for p in (root / "Verif").rglob("*.lean"))
(root / "Verif.lean").write_text("".join(f"import {m}\n" for m in mods))
