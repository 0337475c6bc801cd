"""Writes MANIFEST.json. Theorem names are collected from lean/Verif/Props/*.lean (prefix cNN_);
status and notes are given here."""
import json, re, glob, os
root = os.path.join(os.path.dirname(__file__), "..")
thms = {}
for f in sorted(glob.glob(os.path.join(root, "lean/Verif/Props/*.lean"))):
    for m in re.finditer(r"^theorem (c(\d\d+)_[A-Za-z0-9_']*)", open(f).read(), re.M):
        thms.setdefault("C" + m.group(2), []).append("JaxSgmc." + m.group(1))
NOTES = json.load(open(os.path.join(root, "tools/notes.json")))
props = [json.loads(l)["id"] for l in open(os.path.join(root, "properties.jsonl"))]
claims = []
for p in props:
    n = NOTES.get(p)
    if n is None or p not in thms:
        continue
    claims.append({"property": p, "status": n["status"], "theorems": thms[p], "note": n["note"]})
missing = [p for p in props if p not in thms]
json.dump({"claims": claims}, open(os.path.join(root, "MANIFEST.json"), "w"), indent=1)
print(len(claims), "claims; without theorem:", missing, "; without note:", [p for p in thms if p not in NOTES])
