#!/usr/bin/env python3
"""Set entries of status.json: setstatus.py C01 proved "note" [C02 ...]"""
import json, sys, pathlib
p = pathlib.Path(__file__).with_name("status.json")
d = json.loads(p.read_text())
a = sys.argv[1:]
for i in range(0, len(a), 3):
    d[a[i]] = [a[i + 1], a[i + 2]]
p.write_text(json.dumps(dict(sorted(d.items())), indent=1) + "\n")
