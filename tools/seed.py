#!/usr/bin/env python3
"""Tries wrong programs: applies an edit to the model in a scratch copy and rebuilds.

usage: seed.py SEEDS.json [LOG.jsonl]

SEEDS.json is a list of {"file", "definition", "old", "new", "claim"} (file relative to lean/).
Declarations that no longer compile get their proof replaced by `sorry` in the scratch copy and the
build goes on, so that at the end the property theorems depending on `sorryAx` are exactly those whose
proof breaks.  One JSON line per seed is appended to LOG.jsonl.
"""
import json, os, re, shutil, subprocess, sys, time
ROOT = os.path.dirname(os.path.dirname(os.path.abspath(__file__)))
SCR = "/tmp/seed/lean"
BASE = "/tmp/seed/base"  # snapshot of lean/ taken when the run starts
DECL = re.compile(r"^(?:@\[[^\]]*\]\s*)?(?:private |protected |noncomputable )*(theorem|lemma|example|instance|def|structure|abbrev)\b\s*(\S*)")

def sync():
    os.makedirs("/tmp/seed", exist_ok=True)
    shutil.rmtree(SCR, ignore_errors=True)
    subprocess.run(["cp", "-a", BASE, SCR], check=True)

def build(target):
    p = subprocess.run(["lake", "build", target], cwd=SCR, capture_output=True, text=True)
    return p.returncode, p.stdout + p.stderr

def decl_span(lines, ln):
    s = ln
    while s >= 0 and not DECL.match(lines[s]):
        s -= 1
    e = s + 1
    while e < len(lines) and not (lines[e] and not lines[e][0].isspace() and
            (DECL.match(lines[e]) or re.match(r"/--|/-!|end\b|section\b|namespace\b|open\b|variable\b|omit\b|include\b|set_option\b|#|@\[|noncomputable|private|protected|local|attribute", lines[e]))):
        e += 1
    return s, e

def statement_end(body):
    # first `:=` outside brackets that does not belong to a `let` of the statement
    depth = 0
    for k, c in enumerate(body):
        if c in "([{⟨": depth += 1
        elif c in ")]}⟩": depth -= 1
        elif depth == 0 and body.startswith(" :=", k):
            line = body[body.rfind("\n", 0, k) + 1:k]
            if not re.search(r"\blet\b", line):
                return k
        elif depth == 0 and re.match(r"\n\s*\| ", body[k:k + 40]):
            # the theorem is proved by equations
            return k
    return body.index(" :=")

def patch(path, lns):
    lines = open(path).read().split("\n")
    names = []
    spans = {decl_span(lines, ln) for ln in lns if ln < len(lines)}
    for s, e in sorted(spans, reverse=True):
        if s < 0: continue
        m = DECL.match(lines[s])
        kind, name = m.group(1), m.group(2)
        if kind == "example":
            names.append("example@%d" % (s + 1))
            # doc comments in front of an example are left: turn into a trivial example
            lines[s:e] = ["example : True := trivial", ""]
        elif kind in ("theorem", "lemma"):
            body = "\n".join(lines[s:e])
            if body.rstrip().endswith(":= sorry"): continue
            names.append(name)
            k = statement_end(body)
            lines[s:e] = [body[:k] + " := sorry", ""]
        else:
            names.append("DEF:" + name)
            return names, False
    open(path, "w").write("\n".join(lines))
    return names, True

def run(seed, log):
    sync()
    p = os.path.join(SCR, seed["file"])
    src = open(p).read()
    if seed["old"] not in src:
        print("NOT FOUND", seed["old"]); return
    open(p, "w").write(src.replace(seed["old"], seed["new"], 1))
    broken = []
    ok = False
    for it in range(40):
        rc, out = build("Verif.Axioms")
        errs = re.findall(r"error: (Verif/[\w/]+\.lean):(\d+):(\d+)", out)
        if not errs:
            ok = rc == 0
            if not ok: print(out[-2000:])
            break
        byfile = {}
        for f, l, _ in errs:
            byfile.setdefault(f, []).append(int(l) - 1)
        stop = False
        for f, ls in byfile.items():
            names, good = patch(os.path.join(SCR, f), ls)
            broken += [f + ":" + n for n in names]
            if not good or not names:
                stop = True
        if stop:
            print(out[-3000:]); break
    failed = []
    for m in re.finditer(r"'Props\.(\w+)' depends on axioms: \[([^\]]*)\]", out):
        if "sorryAx" in m.group(2): failed.append(m.group(1))
    rec = {"definition": seed["definition"], "file": seed["file"], "edit": {"old": seed["old"], "new": seed["new"]},
           "claim_broken": seed["claim"], "theorems_failed": failed,
           "first_broken": broken[:12], "complete": ok, "tightened": seed.get("tightened", [])}
    open(log, "a").write(json.dumps(rec, ensure_ascii=False) + "\n")
    print(seed["definition"], "|", seed["claim"], "->", len(failed), failed[:60], "ok" if ok else "INCOMPLETE", flush=True)

if __name__ == "__main__":
    log = sys.argv[2] if len(sys.argv) > 2 else ROOT + "/seeded/LOG.jsonl"
    os.makedirs("/tmp/seed", exist_ok=True)
    shutil.rmtree(BASE, ignore_errors=True)
    subprocess.run(["cp", "-a", ROOT + "/lean", BASE], check=True)
    for seed in json.load(open(sys.argv[1])):
        t = time.time()
        run(seed, log)
        print("   %.0fs" % (time.time() - t), flush=True)
