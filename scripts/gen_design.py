#!/usr/bin/env python3
"""Rebuild the table of properties at the end of DESIGN.md from properties.jsonl and MANIFEST.json."""
import json, pathlib

root = pathlib.Path(__file__).resolve().parent.parent
props = {}
for line in open(root / "properties.jsonl"):
    if line.strip():
        d = json.loads(line)
        props[d["id"]] = d
claims = json.load(open(root / "MANIFEST.json"))["claims"]
out = ["| id | property | status | where | remarks |", "|----|----------|--------|-------|---------|"]
for c in claims:
    where = sorted({t.split(".")[1] for t in c["theorems"]})
    false = [t.split(".")[-1] for t in c["theorems"] if t.endswith("_false")]
    note = c["note"].replace("|", "\\|")
    if false:
        note = (note + " " if note else "") + "Refutations: " + ", ".join("`%s`" % f for f in false) + "."
    out.append("| %s | %s | %s | %s | %s |" % (c["property"], props[c["property"]]["title"], c["status"], ", ".join(where), note))
path = root / "DESIGN.md"
text = path.read_text()
mark = "<!-- table generated by scripts/gen_design.py -->"
head = text.split(mark)[0]
path.write_text(head + mark + "\n\n" + "\n".join(out) + "\n")
