"""Regenerates /verif/MANIFEST.json from the theorem names in lean/Verif/Props and tools/status.json.

A theorem belongs to property Cxx when its name starts with `Cxx_`.  status.json
maps a property to {"status": ..., "note": ...}.
"""
import json, re, glob, os
root = os.path.dirname(os.path.dirname(os.path.abspath(__file__)))
props = [json.loads(l) for l in open(f"{root}/properties.jsonl")]
thms = {}
for f in sorted(glob.glob(f"{root}/lean/Verif/Props/*.lean")):
    for m in re.finditer(r"^(?:private |protected )?theorem (C\d\d+)_(\w+'?)", open(f).read(), re.M):
        thms.setdefault(m.group(1), []).append(f"Primate.{m.group(1)}_{m.group(2)}")
status = json.load(open(f"{root}/tools/status.json"))
claims = []
for p in props:
    i = p["id"]
    if i not in thms or i not in status:
        continue
    claims.append({"property": i, "status": status[i]["status"], "theorems": thms[i], "note": status[i]["note"]})
json.dump({"claims": claims}, open(f"{root}/MANIFEST.json", "w"), indent=1)
missing = [p["id"] for p in props if p["id"] not in {c["property"] for c in claims}]
print(len(claims), "claims; missing:", missing)
