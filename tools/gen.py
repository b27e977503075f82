#!/usr/bin/env python3
"""Regenerate lean/Verif.lean and MANIFEST.json.

Theorem names are collected from lean/Verif/Props; status and notes come from tools/notes.json
(property id -> {"status": ..., "note": ...}); without an entry a property whose theorems
contain a `_partial` or `_fails` name is "partial", otherwise "proved".
"""
import json, pathlib, re

root = pathlib.Path(__file__).resolve().parent.parent
lean = root / "lean"
mods = sorted(".".join(p.relative_to(lean).with_suffix("").parts) for p in (lean / "Verif").rglob("*.lean"))
(lean / "Verif.lean").write_text("".join(f"import {m}\n" for m in mods))

names = {}
for p in sorted((lean / "Verif" / "Props").rglob("*.lean")):
    for m in re.finditer(r"^theorem (C\d\d+)_(\S+)", p.read_text(), re.M):
        names.setdefault(m.group(1), []).append(f"Caustics.{m.group(1)}_{m.group(2)}")
notes = json.loads((root / "tools" / "notes.json").read_text())
claims = []
for line in (root / "properties.jsonl").read_text().splitlines():
    pid = json.loads(line)["id"]
    ths = names.get(pid, [])
    n = notes.get(pid, {})
    if not ths and "status" not in n:
        continue
    auto = "partial" if any(("_partial" in t or "_fails" in t) for t in ths) else "proved"
    claims.append({"property": pid, "status": n.get("status", auto), "theorems": ths, "note": n.get("note", "")})
(root / "MANIFEST.json").write_text(json.dumps({"claims": claims}, indent=1) + "\n")
print(len(claims), "claims;", sum(len(c["theorems"]) for c in claims), "theorems;", len(mods), "modules")
