#!/usr/bin/env python3
"""Apply each mutation of a JSON list to a scratch copy of the Lean project, rebuild, and report
the theorems that fail.  usage: mutate.py muts.json [--log]
A mutation: {"file": "Verif/Model/X.lean", "def": name, "old": .., "new": .., "edit": english,
             "claim": english, "tightened": []}"""
import json, os, re, subprocess, sys, shutil
SRC = "/verif/lean"; DST = "/tmp/mut/lean"; LOG = "/verif/seeded/LOG.jsonl"
muts = json.load(open(sys.argv[1])); log = "--log" in sys.argv
os.makedirs("/tmp/mut", exist_ok=True)

def sync():
    subprocess.run(["rsync", "-a", "--delete", "--checksum", SRC + "/", DST + "/"], check=True) if shutil.which("rsync") else (
        subprocess.run(f"mkdir -p {DST} && cp -r --preserve=timestamps {SRC}/. {DST}/", shell=True, check=True))

def enclosing(path, line):
    name = None
    for i, l in enumerate(open(os.path.join(DST, path)), 1):
        m = re.match(r"\s*(?:private |protected |noncomputable |@\[[^\]]*\] )*(theorem|lemma|def|instance|example|structure|abbrev)\b\s*([^\s:({\[]*)", l)
        if m and i <= line:
            name = (m.group(1) + " " + m.group(2)).strip() if m.group(1) not in ("theorem", "lemma") else m.group(2)
        if i > line: break
    return f"{path.split('/')[-2]}/{path.split('/')[-1][:-5]}:{name}"

sync()
for m in muts:
    p = os.path.join(DST, m["file"]); orig = open(p).read()
    if orig.count(m["old"]) != 1:
        print("!! pattern count", orig.count(m["old"]), m["def"], "|", m["old"][:60]); continue
    open(p, "w").write(orig.replace(m["old"], m["new"]))
    out = subprocess.run("lake build 2>&1", shell=True, cwd=DST, capture_output=True, text=True, timeout=3000).stdout
    failed = []
    for f, ln in re.findall(r"error: (?:\./)?(Verif/[\w/]+\.lean):(\d+):", out):
        e = enclosing(f, int(ln))
        if e not in failed: failed.append(e)
    if not failed:
        failed = [x + ":(elaboration aborted)" for x in re.findall(r"^- Verif\.(\S+)", out, re.M)]
    open(p, "w").write(orig)
    print(("KILLED " if failed else "SURVIVED ") + m["def"] + ": " + m["edit"]); print("    ", failed[:12])
    if not failed and "error" in out: print(out[-800:])
    if log:
        with open(LOG, "a") as fh:
            fh.write(json.dumps({"definition": m["def"], "edit": m["edit"], "claim": m["claim"],
                                 "failed": failed, "tightened": m.get("tightened", [])}) + "\n")
