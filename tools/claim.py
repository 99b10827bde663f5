#!/usr/bin/env python3
"""claim.py ID STATUS NOTE THEOREM... : set or replace one entry of claims.json (theorem '+' keeps the old ones)."""
import json, sys, pathlib
f = pathlib.Path(__file__).resolve().parent / "claims.json"
c = json.load(open(f))
i, status, note, *ths = sys.argv[1:]
old = c.get(i, {}).get("theorems", [])
new = []
for t in ths:
    new += old if t == "+" else [t]
c[i] = {"status": status, "theorems": list(dict.fromkeys(new)), "note": note}
json.dump(c, open(f, "w"), indent=0, ensure_ascii=False)
