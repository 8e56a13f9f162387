#!/usr/bin/env python3
"""Rewrite the section "Axioms of each theorem" of DESIGN.md from `#print axioms` of every theorem in MANIFEST.json.

Needs a finished `lake build` in lean/."""
import json
import os
import re
import subprocess
import tempfile

ROOT = os.path.join(os.path.dirname(os.path.abspath(__file__)), "..")
claims = json.load(open(os.path.join(ROOT, "MANIFEST.json")))["claims"]
thms = []
for c in claims:
    for t in c["theorems"]:
        if t not in thms:
            thms.append(t)
with tempfile.NamedTemporaryFile("w", suffix=".lean", delete=False) as f:
    f.write("import Verif\n" + "".join("#print axioms %s\n" % t for t in thms))
r = subprocess.run(["lake", "env", "lean", f.name], cwd=os.path.join(ROOT, "lean"), capture_output=True, text=True)
out = r.stdout + r.stderr
os.unlink(f.name)
deps = {}
for name, ax in re.findall(r"'([^']+)' depends on axioms:\s*\[([^\]]*)\]", out):
    deps[name] = tuple(sorted(a.strip() for a in ax.split(",")))
for name in re.findall(r"'([^']+)' does not depend on any axioms", out):
    deps[name] = ()
missing = [t for t in thms if t not in deps]
assert not missing, missing
allowed = {"propext", "Classical.choice", "Quot.sound"}
for t, a in deps.items():
    assert set(a) <= allowed, (t, a)
groups = {}
for t in thms:
    groups.setdefault(deps[t], []).append(t.replace("Verif.", "", 1))
text = ["## Axioms of each theorem", "",
        "Written by `tools/gen_axioms.py` from `#print axioms` of the %d theorems named in MANIFEST.json." % len(thms), ""]
for a in sorted(groups, key=len):
    text.append("* %s: %s." % (", ".join("`%s`" % x for x in a) if a else "no axioms",
                               ", ".join(groups[a])))
path = os.path.join(ROOT, "DESIGN.md")
d = open(path).read()
d = d.split("## Axioms of each theorem")[0].rstrip() + "\n\n" + "\n".join(text) + "\n"
open(path, "w").write(d)
print(len(thms), {", ".join(k) or "none": len(v) for k, v in groups.items()})
