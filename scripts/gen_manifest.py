#!/usr/bin/env python3
"""Rebuild MANIFEST.json from the theorem names in lean/Verif/Props and scripts/notes.json."""
import json, re, pathlib

root = pathlib.Path(__file__).resolve().parent.parent
ids = [json.loads(l)["id"] for l in open(root / "properties.jsonl") if l.strip()]
notes = json.load(open(root / "scripts" / "notes.json"))
thms = {i: [] for i in ids}
for f in sorted((root / "lean/Verif/Props").glob("*.lean")):
    stack = []
    for line in f.read_text().splitlines():
        m = re.match(r"namespace (\S+)", line)
        if m:
            stack.append(m.group(1))
        m = re.match(r"end (\S+)", line)
        if m and stack and stack[-1] == m.group(1):
            stack.pop()
        m = re.match(r"(?:noncomputable )?theorem (C(\d\d+)\S*)", line)
        if m:
            pid = "C" + m.group(2)
            thms[pid].append(".".join(stack + [m.group(1)]))
claims = []
for i in ids:
    t = thms[i]
    note = notes.get(i, {})
    if not t:
        status = note.get("status", "not_applicable")
    else:
        bad = any(x.endswith("_partial") or x.endswith("_false") for x in t)
        status = note.get("status", "partial" if bad else "proved")
    claims.append({"property": i, "status": status, "theorems": t, "note": note.get("note", "")})
json.dump({"claims": claims}, open(root / "MANIFEST.json", "w"), indent=1)
from collections import Counter
print(Counter(c["status"] for c in claims), "no theorem:", [c["property"] for c in claims if not c["theorems"]],
      "partial without note:", [c["property"] for c in claims if c["status"] == "partial" and not c["note"]])
