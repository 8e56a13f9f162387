#!/usr/bin/env python3
"""Run wrong programs against the theorems, in a scratch copy.

usage: mutate.py MUTANTS.py [name ...]

MUTANTS.py defines M, a list of dicts: name, file (under lean/Verif), definition, old, new, edit (English), claim (English,
with the property id).  Each is applied to a scratch copy of lean/.  A theorem whose proof breaks is replaced by `sorry` and the
build goes on, so that at the end `#print axioms` tells exactly which property theorems (C01_..., ...) no longer hold up.
MUT_BASE, if set, is the copied tree (default: lean/).  One line is appended to seeded/LOG.jsonl for each mutant.
"""
import json
import os
import re
import resource
import shutil
import subprocess
import sys
import threading
import time
import importlib.util

HERE = os.path.dirname(os.path.abspath(__file__))
ROOT = os.path.dirname(HERE)
SCRATCH = os.environ.get("MUT_SCRATCH", "/tmp/mutants")
# build only the modules with the theorems of the claim
CLAIM_ONLY = os.environ.get("MUT_CLAIM_ONLY") == "1"
DECL = re.compile(r"^(?:@\[[^\]]*\] *)?(?:private |protected )?(theorem|lemma|example|def|instance|structure|inductive|abbrev|class|noncomputable def)\b ?(\S*)")


def decls(text):
    """(start line, end line, kind, name), 0-based, end exclusive"""
    lines = text.split("\n")
    starts = []
    for i, l in enumerate(lines):
        m = DECL.match(l)
        if m:
            starts.append((i, m.group(1), m.group(2)))
    out = []
    for k, (i, kind, name) in enumerate(starts):
        end = starts[k + 1][0] if k + 1 < len(starts) else len(lines)
        for j in range(i + 1, end):
            if lines[j].strip() == "end" or lines[j].startswith(("end ", "namespace ", "section", "/-", "variable", "open ", "set_option", "@[", "omit", "attribute", "mutual", "noncomputable section")):
                end = j
                break
        out.append((i, end, kind, name))
    return out


def sorry_out(text, line, proofs=False, by=":= by sorry"):
    """replace the proof of the theorem at `line` (1-based) by sorry; returns (text, name) or None"""
    lines = text.split("\n")
    for (i, end, kind, name) in decls(text):
        if i <= line - 1 < end:
            body = "\n".join(lines[i:end])
            if kind == "example":
                return "\n".join(lines[:i] + ["example : True := trivial"] + [""] * (end - i - 1) + lines[end:]), "example@%d" % (i + 1)
            if kind not in ("theorem", "lemma") and not (kind == "def" and proofs):
                return None
            # cut at the last top-level `:=`: the first one at bracket depth 0 that is not inside the statement's let/have
            depth = 0
            pos = None
            k = 0
            while k < len(body):
                c = body[k]
                if c == "'" and body[k + 2:k + 3] == "'":
                    k += 3  # a character literal
                    continue
                if c in "([{⟨":
                    depth += 1
                elif c in ")]}⟩":
                    depth -= 1
                elif depth == 0 and re.match(r"\bwhere\s", body[k:k + 6]) and body[k - 1].isspace():
                    pos = k
                    break
                elif depth == 0 and re.match(r"\n  \| .*=>", body[k:k + 400]):
                    pos = k  # a theorem given by cases
                    break
                elif depth == 0 and body.startswith(":=", k):
                    ln = body.rfind("\n", 0, k)
                    cur = body[ln + 1:k]
                    if not re.search(r"\blet\b", cur):
                        pos = k
                        break
                k += 1
            if pos is None:
                return None
            new = body[:pos] + by
            pad = len(body.split("\n")) - len(new.split("\n"))
            if new == body.rstrip():
                return None
            return "\n".join(lines[:i] + new.split("\n") + [""] * pad + lines[end:]), name or "example"
    return None


def limits():
    resource.setrlimit(resource.RLIMIT_CPU, (400, 400))


def watchdog():
    """end prover processes of the scratch copy that take more than 6 GB: false computations"""
    while True:
        time.sleep(2)
        for pid in filter(str.isdigit, os.listdir("/proc")):
            try:
                cmd = open("/proc/%s/cmdline" % pid).read()
                rss = int(open("/proc/%s/statm" % pid).read().split()[1]) * 4096
                if "bin/lean" in cmd and SCRATCH + "/" in cmd and rss > 6 << 30:
                    os.kill(int(pid), 9)
            except (OSError, IndexError):
                pass


def claim_theorems(m):
    """the listed theorems of the claims that m names, and the modules they are in"""
    want = re.findall(r"C\d\d", m["claim"])
    claims = json.load(open(os.path.join(ROOT, "MANIFEST.json")))["claims"]
    thms = [t for c in claims for t in c["theorems"] if any(t.split(".")[-1].startswith(w + "_") for w in want)]
    mods = set()
    for d, _, fs in os.walk(os.path.join(SCRATCH, "Verif")):
        for f in fs:
            if f.endswith(".lean"):
                names = {n.split(".")[-1] for (_, _, k, n) in decls(open(os.path.join(d, f)).read()) if k in ("theorem", "lemma")}
                if any(t.split(".")[-1] in names for t in thms):
                    mods.add(os.path.relpath(os.path.join(d, f), SCRATCH)[:-5].replace("/", "."))
    return thms, sorted(mods)


def run_mutant(m):
    if os.path.exists(SCRATCH):
        shutil.rmtree(SCRATCH)
    shutil.copytree(os.environ.get("MUT_BASE", os.path.join(ROOT, "lean")), SCRATCH, symlinks=True)
    edits = m.get("edits") or [(m["file"], m["old"], m["new"])]
    for f, old, new in edits:
        p = os.path.join(SCRATCH, "Verif", f)
        t = open(p).read()
        if t.count(old) < 1:
            return {"problem": "pattern not found in " + f}
        t = t.replace(old, new, 1)
        open(p, "w").write(t)
    targets = claim_theorems(m)[1] if CLAIM_ONLY else []
    direct = []
    gave_up = []
    kills = 0
    stage = {}
    retries = 2
    problem = None
    for _ in range(60):
        r = subprocess.run(["lake", "build"] + targets, cwd=SCRATCH, capture_output=True, text=True, preexec_fn=limits)
        out = r.stdout + r.stderr
        errs = re.findall(r"^error: (Verif/\S+?\.lean):(\d+):\d+:", out, re.M)
        if r.returncode == 0:
            break
        killed = [x for x in re.findall(r"^- (Verif\S*)$", out, re.M)]
        killed = [x for x in killed if not any(f == x.replace(".", "/") + ".lean" for f, _ in errs)]
        if killed and re.search(r"exited with code (?!1$)\d+", out, re.M):
            # A prover process was ended: by the box because memory was short, or because its computation is too large.
            # That says nothing about the theorems, so build again first.
            if retries > 0:
                retries -= 1
                kills += len(killed)
                time.sleep(20)
                continue
            # Still ended: give up the computations of that module. They rest on the axiom gaveUp from then on, not on sorry, so
            # that they are never counted as failed.
            open(os.path.join(SCRATCH, "Verif", "GaveUp.lean"), "w").write("axiom Verif.gaveUp (p : Prop) : p\n")
            for x in killed:
                p = os.path.join(SCRATCH, x.replace(".", "/") + ".lean")
                t = open(p).read()
                # first only the examples and concrete cases, then everything that may compute
                stage[x] = stage.get(x, 0) + 1
                for (i, end, kind, name) in reversed(decls(t)):
                    text = "\n".join(t.split("\n")[i:end])
                    concrete = kind == "example" or re.match(r"ex[A-Z]", name) or "_fails" in name
                    if kind in ("theorem", "lemma", "example") and (concrete or stage[x] > 1 and "decide" in text):
                        res = sorry_out(t, i + 1, by=":= Verif.gaveUp _")
                        if res is not None:
                            t = res[0]
                            gave_up.append(res[1])
                if "import Verif.GaveUp" not in t:
                    t = "import Verif.GaveUp\n" + t
                open(p, "w").write(t)
            retries = 1
            if not errs:
                continue
        elif not errs:
            problem = out[-1500:]
            break
        done = set()
        changed = False
        # from the bottom up, so that line numbers stay right
        for f, ln in sorted(set(errs), key=lambda e: (e[0], -int(e[1]))):
            p = os.path.join(SCRATCH, f)
            t = open(p).read()
            res = sorry_out(t, int(ln), "/Proofs/" in f)
            if res is None:
                continue
            open(p, "w").write(res[0])
            changed = True
            key = (f, res[1])
            if key not in done:
                done.add(key)
                direct.append(res[1])
        if not changed:
            problem = "cannot repair: " + "; ".join("%s:%s" % e for e in errs) + "\n" + out[-1500:]
            break
    else:
        problem = "too many rounds"
    claims = json.load(open(os.path.join(ROOT, "MANIFEST.json")))["claims"]
    thms = [t for c in claims for t in c["theorems"]]
    if CLAIM_ONLY:
        thms = claim_theorems(m)[0]
    src = "".join("import %s\n" % x for x in targets or ["Verif"]) + "\n".join("#print axioms %s" % t for t in thms) + "\n"
    open(os.path.join(SCRATCH, "Ax.lean"), "w").write(src)
    broken = []
    undecided = []
    if problem is None:
        r = subprocess.run(["lake", "env", "lean", "Ax.lean"], cwd=SCRATCH, capture_output=True, text=True)
        for part in re.findall(r"'([^']+)' depends on axioms: \[([^\]]*)\]", r.stdout + r.stderr, re.S):
            if "sorryAx" in part[1]:
                broken.append(part[0].replace("Verif.", "", 1))
            elif "gaveUp" in part[1]:
                undecided.append(part[0].replace("Verif.", "", 1))
    return {"direct": direct, "broken": broken, "problem": problem, "gave_up": gave_up, "undecided": undecided, "kills": kills}


def main():
    threading.Thread(target=watchdog, daemon=True).start()
    spec = importlib.util.spec_from_file_location("mutants", sys.argv[1])
    mod = importlib.util.module_from_spec(spec)
    spec.loader.exec_module(mod)
    names = set(sys.argv[2:])
    log = os.path.join(ROOT, "seeded", "LOG.jsonl")
    os.makedirs(os.path.dirname(log), exist_ok=True)
    for m in mod.M:
        if names and m["name"] not in names:
            continue
        r = run_mutant(m)
        if r.get("problem"):
            print(m["name"], "PROBLEM", r["problem"])
            continue
        direct = [d for d in r["direct"] if not d.startswith("example")]
        examples = [d for d in r["direct"] if d.startswith("example")]
        want = re.findall(r"C\d\d", m["claim"])
        hit = [b for b in r["broken"] if any(b.split(".")[-1].startswith(w + "_") for w in want)]
        open_ = [b for b in r["undecided"] if any(b.split(".")[-1].startswith(w + "_") for w in want)]
        status = "caught" if hit else "UNDECIDED" if open_ else "MISSED"
        print(m["name"], status, "want", want, "hit", hit, "direct", direct, flush=True)
        entry = {"definition": m["definition"], "edit": m["edit"], "claim": m["claim"],
                 "failed": sorted(set(r["broken"]) | set(direct)), "tightened": m.get("tightened", [])}
        if examples:
            entry["examples_failed"] = len(examples)
        if CLAIM_ONLY:
            entry["scope"] = "only the modules with the theorems of the claim were built"
        if r["gave_up"]:
            entry["not_decided"] = sorted(set(d for d in r["gave_up"] if not d.startswith("example")))
        if m.get("note"):
            entry["note"] = m["note"]
        entry["result"] = {"caught": "caught", "UNDECIDED": "undecided", "MISSED": "missed"}[status]
        with open(log, "a") as fh:
            fh.write(json.dumps(entry, ensure_ascii=False) + "\n")


if __name__ == "__main__":
    main()
