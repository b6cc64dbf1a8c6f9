#!/usr/bin/env python3
"""Regenerates MANIFEST.json: theorem names are collected from lean/Verif/Props/*.lean
(every theorem named Cxx_...), status and note come from tools/status.json."""
import json, re, glob, os
root = os.path.dirname(os.path.dirname(os.path.abspath(__file__)))
status = json.load(open(os.path.join(root, "tools/status.json")))
thms = {}
for f in sorted(glob.glob(os.path.join(root, "lean/Verif/Props/*.lean"))):
    for m in re.finditer(r"^theorem (C\d\d+_\w+)", open(f).read(), re.M):
        thms.setdefault(m.group(1).split("_")[0], []).append("Gocfl." + m.group(1))
claims = []
for line in open(os.path.join(root, "properties.jsonl")):
    p = json.loads(line)["id"]
    if p in thms:
        st, note = status.get(p, ["partial", ""])
        claims.append({"property": p, "status": st, "theorems": thms[p], "note": note})
    elif p in status:
        st, note = status[p]
        claims.append({"property": p, "status": st, "theorems": [], "note": note})
    else:
        print("no claim for", p)
json.dump({"claims": claims}, open(os.path.join(root, "MANIFEST.json"), "w"), indent=1)
print(len(claims), "claims")
