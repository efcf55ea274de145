"""Writes the generated part of DESIGN.md: per-property plan and status, and the axioms of every theorem in the manifest.

The axioms are read from tools/axioms.json, which `tools/design.py --axioms` regenerates with `#print axioms` (needs a finished build).
"""
import json, os, re, subprocess, sys, tempfile
root = os.path.dirname(os.path.dirname(os.path.abspath(__file__)))
claims = json.load(open(f"{root}/MANIFEST.json"))["claims"]
props = {p["id"]: p for p in map(json.loads, open(f"{root}/properties.jsonl"))}
methods = dict(l.rstrip("\n").split(" ", 1) for l in open(f"{root}/tools/methods.txt") if l.strip())
axfile = f"{root}/tools/axioms.json"
if "--axioms" in sys.argv:
    names = [t for c in claims for t in c["theorems"]]
    with tempfile.NamedTemporaryFile("w", suffix=".lean", delete=False) as f:
        f.write("import Verif\n" + "".join(f"#print axioms {t}\n" for t in names))
    out = subprocess.run(["lake", "env", "lean", f.name], cwd=f"{root}/lean", capture_output=True, text=True).stdout
    ax = {m.group(1): re.findall(r"[\w.]+", m.group(2) or "") for m in
          re.finditer(r"'([^']+'?)' (?:depends on axioms: \[([^\]]*)\]|does not depend on any axioms)", out)}
    assert set(ax) == set(names), set(names) ^ set(ax)
    json.dump(ax, open(axfile, "w"), indent=0, sort_keys=True)
ax = json.load(open(axfile))
o = ["", "## Properties", "", "Plan (what is modelled, how it is proved), status and remarks.  The statements are in `properties.jsonl`.", ""]
for c in claims:
    i = c["property"]
    o.append(f"* **{i} {props[i]['title']}** ({c['status']}). {methods[i][0].upper() + methods[i][1:]}. {c['note']}".rstrip())
o += ["", "## Axioms", ""]
groups = {}
for c in claims:
    for t in c["theorems"]:
        groups.setdefault(", ".join(sorted(ax.get(t, ["(not yet computed)"]))) or "none", []).append(t.replace("Primate.", ""))
for g, ts in sorted(groups.items(), key=lambda x: -len(x[1])):
    o.append(f"{len(ts)} theorems depend on: {g}.")
    o.append("")
    o.append(", ".join(f"`{t}`" for t in ts))
    o.append("")
p = f"{root}/DESIGN.md"
head = open(p).read().split("<!-- GENERATED")[0]
open(p, "w").write(head + "<!-- GENERATED: everything below is written by tools/design.py -->\n" + "\n".join(o))
