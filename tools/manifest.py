#!/usr/bin/env python3
"""Regenerate /verif/MANIFEST.json and /verif/lean/Verif.lean.

CLAIMS maps a property id to (status, note).  The theorems of a property are collected from the
files lean/Verif/Props/*.lean: every theorem named `Cnn_...`.
"""
import json, re, pathlib
root = pathlib.Path(__file__).resolve().parent.parent
lean = root / "lean"
mods = sorted(".".join(p.relative_to(lean).with_suffix("").parts) for p in (lean / "Verif").rglob("*.lean"))
(lean / "Verif.lean").write_text("".join(f"import {m}\n" for m in mods))
thms = {}
for p in sorted((lean / "Verif" / "Props").rglob("*.lean")):
    ns = []
    text = re.sub(r"/-.*?-/", "", p.read_text(), flags=re.S)
    for line in text.splitlines():
        m = re.match(r"namespace (\S+)", line)
        if m: ns.append(m.group(1))
        m = re.match(r"end (\S+)", line)
        if m and ns and ns[-1] == m.group(1): ns.pop()
        m = re.match(r"(?:private |protected )?theorem ((C\d{2,3})_\S+)", line)
        if m: thms.setdefault(m.group(2), []).append(".".join(ns + [m.group(1)]))
exec((root / "tools" / "claims.py").read_text())
ids = [json.loads(l)["id"] for l in (root / "properties.jsonl").read_text().splitlines()]
out = []
for i in ids:
    if i not in CLAIMS:
        continue
    status, note = CLAIMS[i]
    t = thms.get(i, [])
    assert t or status == "not_applicable", i
    out.append({"property": i, "status": status, "theorems": t, "note": note})
(root / "MANIFEST.json").write_text(json.dumps({"claims": out}, indent=1, ensure_ascii=False) + "\n")
print(len(out), "claims;", len(ids), "properties; unclaimed:", [i for i in ids if i not in CLAIMS])
for i in thms:
    if i not in CLAIMS: print("theorems without claim:", i, thms[i])
