#!/usr/bin/env python3
"""Regenerates MANIFEST.json from tools/claims.txt.

Line format:  id | status | theorem, theorem, ... | note
Properties without a line are not listed.
"""
import json, os
here = os.path.dirname(os.path.abspath(__file__))
claims = []
for line in open(os.path.join(here, "claims.txt")):
    line = line.strip()
    if not line or line.startswith("#"):
        continue
    pid, status, thms, note = [x.strip() for x in line.split("|", 3)]
    claims.append({"property": pid, "status": status,
                   "theorems": ["Symbolic." + t.strip() for t in thms.split(",") if t.strip()],
                   "note": note})
json.dump({"claims": claims}, open(os.path.join(here, "..", "MANIFEST.json"), "w"), indent=1)

# Every theorem named in a claim must occur in the sources.
import glob, re, sys
found = set()
for f in glob.glob(os.path.join(here, "..", "lean", "Verif", "**", "*.lean"), recursive=True):
    found.update(re.findall(r"^theorem ([^\s:({\[]+)", open(f).read(), re.M))
missing = [t for c in claims for t in c["theorems"] if t.split(".")[-1] not in found]
if missing:
    sys.exit("theorems not found: " + ", ".join(missing))
