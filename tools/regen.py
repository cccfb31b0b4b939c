#!/usr/bin/env python3
"""Regenerates lean/Verif.lean, lean/Verif/Axioms.lean and MANIFEST.json from the Props files.

STATUS overrides the default status "proved" of a property that has theorems;
NOTES gives the note of each property.  Both live in tools/claims.json.
"""
import json, os, re
root = os.path.dirname(os.path.dirname(os.path.abspath(__file__)))
lean = os.path.join(root, "lean")
mods = []
for d in ["Spec", "Model", "Lemmas", "Props"]:
    for base, _, files in os.walk(os.path.join(lean, "Verif", d)):
        for f in sorted(files):
            if f.endswith(".lean"):
                mods.append(os.path.relpath(os.path.join(base, f), lean)[:-5].replace("/", "."))
mods.sort(key=lambda m: (["Spec", "Model", "Lemmas", "Props"].index(m.split(".")[1]), m))
with open(os.path.join(lean, "Verif.lean"), "w") as fh:
    for m in mods:
        fh.write("import %s\n" % m)
    fh.write("import Verif.Axioms\n")
thms = {}
order = []
for m in mods:
    if m.split(".")[1] != "Props":
        continue
    src = open(os.path.join(lean, m.replace(".", "/") + ".lean")).read()
    ns = None
    for mm in re.finditer(r"^(?:namespace (\S+)|end (\S+)|(?:protected |private |noncomputable )*theorem (C\d\d+_\w+))", src, re.M):
        if mm.group(1): ns = mm.group(1)
        if mm.group(3):
            name = mm.group(3)
            full = "Props." + name
            thms.setdefault(name.split("_")[0], []).append(full)
            order.append(full)
with open(os.path.join(lean, "Verif", "Axioms.lean"), "w") as fh:
    for m in mods:
        if m.split(".")[1] == "Props":
            fh.write("import %s\n" % m)
    fh.write("\n/-! Generated by tools/regen.py: the axioms every property theorem depends on. -/\n\n")
    for t in order:
        fh.write("#print axioms %s\n" % t)
claims = json.load(open(os.path.join(root, "tools", "claims.json")))
out = []
for line in open(os.path.join(root, "properties.jsonl")):
    pid = json.loads(line)["id"]
    c = claims.get(pid, {})
    if pid in thms:
        status = c.get("status", "proved")
    else:
        status = c.get("status", "partial")
    if pid not in thms and "status" not in c:
        continue
    out.append({"property": pid, "status": status, "theorems": thms.get(pid, []), "note": c.get("note", "")})
json.dump({"claims": out}, open(os.path.join(root, "MANIFEST.json"), "w"), indent=1, ensure_ascii=False)
print(len(order), "theorems;", "properties without theorems:",
      [json.loads(l)["id"] for l in open(os.path.join(root, "properties.jsonl")) if json.loads(l)["id"] not in thms])
# THEOREMS.md: the property theorems with their doc comments
docs = {}
for m in mods:
    if m.split(".")[1] != "Props":
        continue
    src = open(os.path.join(lean, m.replace(".", "/") + ".lean")).read()
    for mm in re.finditer(r"^(?:protected |private |noncomputable )*theorem (C\d\d+_\w+)", src, re.M):
        pre = src[:mm.start()].rstrip()
        while re.match(r"(omit|open|include|set_option|@\[)", pre.split("\n")[-1]):
            pre = "\n".join(pre.split("\n")[:-1]).rstrip()
        doc = " ".join(pre[pre.rindex("/--") + 3:-2].split()) if pre.endswith("-/") else ""
        doc = re.sub(r"^C\d\d+[.,:]\s*", "", doc)
        docs[mm.group(1)] = (m.replace("Verif.", "").replace(".", "/") + ".lean", doc)
with open(os.path.join(root, "THEOREMS.md"), "w") as fh:
    fh.write("# Property theorems\n\nGenerated by `tools/regen.py` from the doc comments in `lean/Verif/Props`.\n")
    for line in open(os.path.join(root, "properties.jsonl")):
        d = json.loads(line)
        fh.write("\n## %s %s\n\n%s (%s)\n\n" % (d["id"], d["title"], d["statement"], d["quantifier"]))
        for full in thms.get(d["id"], []):
            n = full.split(".")[1]
            fh.write("* `%s` (%s): %s\n" % (n, docs[n][0], docs[n][1]))
