#!/usr/bin/env python3
"""Write MANIFEST.json from tools/claims.txt.

Each non-empty line of claims.txt is `Cnn | status | theorem, theorem, ... | note`.
A property without a line is listed as partial with no theorems.
"""
import json
import os
import re
here = os.path.dirname(os.path.abspath(__file__))
root = os.path.dirname(here)
ids = [json.loads(l)["id"] for l in open(os.path.join(root, "properties.jsonl"))]
claims = {}
for line in open(os.path.join(here, "claims.txt")):
    line = line.strip()
    if not line or line.startswith("#"):
        continue
    pid, status, thms, note = [x.strip() for x in line.split("|", 3)]
    assert status in ("proved", "partial", "not_applicable"), line
    claims[pid] = {"property": pid, "status": status,
                   "theorems": [t.strip() for t in thms.split(",") if t.strip()], "note": note}
out = []
src = ""
for d, _, fs in os.walk(os.path.join(root, "lean", "Verif")):
    for f in fs:
        if f.endswith(".lean"):
            src += open(os.path.join(d, f)).read()
for i in ids:
    c = claims.get(i, {"property": i, "status": "partial", "theorems": [], "note": "not done yet"})
    for t in c["theorems"]:
        base = t.split(".")[-1]
        if not re.search(r"theorem (\S*\.)?" + re.escape(base) + r"\b", src):
            print("missing theorem", t)
    out.append(c)
json.dump({"claims": out}, open(os.path.join(root, "MANIFEST.json"), "w"), indent=1, ensure_ascii=False)
print(len(claims), "of", len(ids), "claims")
