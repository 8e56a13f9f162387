#!/usr/bin/env python3
"""Mechanical wrong programs: small textual changes to every definition of the model, to find changes no theorem notices.

usage: automutate.py WORKER OUT.jsonl SKIP.txt Model/File.lean ...

Each change (a comparison, a constant, a Boolean, a branch, a component, a dropped update) is made in a scratch copy of lean/.  It is
dropped if the file no longer compiles.  Otherwise everything is built until the first theorem fails; failing examples are removed and
do not count.  Surviving changes are written to OUT with "survived": true, to be judged by hand."""
import json
import os
import re
import shutil
import subprocess
import sys
import threading
import time

HERE = os.path.dirname(os.path.abspath(__file__))
sys.path.insert(0, HERE)
import mutate

ROOT = os.path.dirname(HERE)
BASE = os.environ.get("MUT_BASE", os.path.join(ROOT, "lean"))

RULES = [
    (r" ≤ ", " < "), (r" < ", " ≤ "), (r" ≥ ", " > "), (r" > ", " ≥ "),
    (r"(?<=if )([\w.]+(?: [\w.]+)?) = ", r"\1 ≠ "), (r" ≠ ", " = "),
    (r" && ", " || "), (r" \|\| ", " && "),
    (r"\btrue\b", "false"), (r"\bfalse\b", "true"),
    (r"if !", "if "), (r"(?<=if )(?!!|h\b|let)(?=[\w(])", "!"),
    (r" \+ 1\b", ""), (r" - 1\b", ""), (r" \+ ", " - "), (r"(?<=[\w)]) - (?=[\w(])", " + "),
    (r"(?<![\w.:])(\d+)(?![\w.:])", lambda m: str(int(m.group(1)) + 1)),
    (r"\.1\b", ".2"), (r"\.2\b", ".1"),
    (r"\.take ", ".drop "), (r"\.drop ", ".take "),
    (r"\.inter ", ".diff "), (r"\.diff ", ".inter "), (r"SSet\.inter ", "SSet.diff "), (r"SSet\.diff ", "SSet.inter "),
    (r"(?<=[\w)])\.del \w+", ""), (r"(?<=[\w)])\.dropLast", ""), (r"\.reverse\b", ""),
    (r", (\w+) := [^,{}()]+(?=[,} ])", ""), (r"(?<=with )(\w+) := [^,{}()]+, ", ""),
    (r"\.KeyError", ".TypeError"), (r"\.TypeError", ".KeyError"), (r"\.ValueError", ".TypeError"),
    (r"\bnone\b(?! =>)", "(some default)"),
    (r"\bA\.mul\b", "A.add"), (r"\bA\.add\b", "A.mul"), (r"\bA\.one\b", "A.zero"), (r"\bA\.zero\b", "A.one"), (r"\bA\.sub\b", "A.add"),
    (r"\bA\.store \(", "id ("), (r"\bA\.store (?=\w)", "id "),
    (r"\.head\?", ".getLast?"), (r"\.getLast\?", ".head?"),
    (r"List\.filter|\.filter ", lambda m: m.group(0).replace("filter", "partition") if False else m.group(0)),
]


def candidates(path):
    text = open(path).read()
    lines = text.split("\n")
    # character offsets of comments
    com = [(m.start(), m.end()) for m in re.finditer(r"/-.*?-/|--[^\n]*", text, re.S)]

    def in_comment(a):
        return any(s <= a < e for s, e in com)
    offs = [0]
    for l in lines:
        offs.append(offs[-1] + len(l) + 1)
    out = []
    ds = mutate.decls(text)
    for (i, end, kind, name) in ds:
        if kind not in ("def", "noncomputable def", "instance"):
            continue
        a, b = offs[i], offs[end]
        body = text[a:b]
        k = body.find(":=")
        p = re.search(r"^\s*\|", body, re.M)
        if p and (k < 0 or p.start() < k):
            k = p.start()
        if k < 0:
            continue
        for pat, rep in RULES:
            for m in re.finditer(pat, body):
                if m.start() < k or in_comment(a + m.start()):
                    continue
                new = m.expand(rep) if isinstance(rep, str) else rep(m)
                if new == m.group(0):
                    continue
                line = text.count("\n", 0, a + m.start()) + 1
                out.append((name, line, text[:a + m.start()] + new + text[a + m.end():],
                            lines[line - 1].strip(), "%s -> %s at column %d" % (m.group(0), new, a + m.start() - offs[line - 1])))
    return out


def build(scratch, target, timeout):
    """build; returns (ok, [(file, line)], text); stops at the first error outside an example"""
    p = subprocess.Popen(["lake", "build"] + ([target] if target else []), cwd=scratch, stdout=subprocess.PIPE,
                         stderr=subprocess.STDOUT, text=True, start_new_session=True)
    errs = []
    out = []
    killed = [False]

    def kill():
        killed[0] = True
        try:
            os.killpg(p.pid, 9)
        except OSError:
            pass
    t = threading.Timer(timeout, kill)
    t.start()
    for l in p.stdout:
        out.append(l)
        m = re.match(r"error: (Verif/\S+?\.lean):(\d+):\d+:", l)
        if m:
            errs.append((m.group(1), int(m.group(2))))
            if target is None and kind_at(scratch, *errs[-1]) != "example":
                kill()
                break
    p.wait()
    t.cancel()
    return p.returncode == 0 and not killed[0], errs, "".join(out)


def kind_at(scratch, f, line):
    for (i, end, kind, name) in mutate.decls(open(os.path.join(scratch, f)).read()):
        if i <= line - 1 < end:
            return kind
    return None


def name_at(scratch, f, line):
    for (i, end, kind, name) in mutate.decls(open(os.path.join(scratch, f)).read()):
        if i <= line - 1 < end:
            return name
    return None


def main():
    worker, outp, skipp = sys.argv[1:4]
    scratch = "/tmp/auto/w" + worker
    mutate.SCRATCH = scratch
    threading.Thread(target=mutate.watchdog, daemon=True).start()
    done = set()
    if os.path.exists(outp):
        for l in open(outp):
            x = json.loads(l)
            done.add((x["file"], x["line"], x["change"]))
    for f in sys.argv[4:]:
        path = os.path.join(BASE, "Verif", f)
        for name, line, text, src, change in candidates(path):
            if (f, line, change) in done:
                continue
            # refresh the scratch copy
            os.makedirs(scratch, exist_ok=True)
            subprocess.run(["rsync", "-a", "--delete", BASE + "/", scratch + "/"], check=True) if shutil.which("rsync") else (
                shutil.rmtree(scratch), shutil.copytree(BASE, scratch, symlinks=True))
            open(os.path.join(scratch, "Verif", f), "w").write(text)
            mod = "Verif." + f[:-5].replace("/", ".")
            ok, errs, out = build(scratch, mod, 300)
            rec = {"file": f, "definition": name, "line": line, "source": src, "change": change}
            if not ok and not errs:
                rec["result"] = "undecided: the build was ended"
            elif not ok:
                rec["result"] = "does not compile"
            else:
                start = time.time()
                for _ in range(12):
                    ok, errs, out = build(scratch, None, 1500)
                    if ok:
                        rec["result"] = "survived"
                        rec["survived"] = True
                        break
                    real = [e for e in errs if kind_at(scratch, *e) != "example"]
                    if real:
                        rec["result"] = "killed by " + str(name_at(scratch, *real[0])) + " in " + real[0][0]
                        break
                    if not errs:
                        rec["result"] = "undecided: " + " ".join(out.split())[-200:]
                        break
                    for e in sorted(set(errs), key=lambda e: (e[0], -e[1])):
                        q = os.path.join(scratch, e[0])
                        res = mutate.sorry_out(open(q).read(), e[1])
                        if res:
                            open(q, "w").write(res[0])
                rec["seconds"] = round(time.time() - start)
            open(outp, "a").write(json.dumps(rec) + "\n")


if __name__ == "__main__":
    main()
