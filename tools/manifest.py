#!/usr/bin/env python3
"""Writes MANIFEST.json from the table below and checks that every theorem named exists."""
import json, re, pathlib
root = pathlib.Path(__file__).resolve().parent.parent
claims = json.load(open(root / "tools" / "claims.json"))
names = set()
for f in (root / "lean" / "Verif").rglob("*.lean"):
    for m in re.finditer(r"^\s*theorem\s+(\S+)", f.read_text(), re.M):
        names.add(m.group(1))
props = [json.loads(l)["id"] for l in open(root / "properties.jsonl")]
out = []
for p in props:
    c = claims.get(p)
    if c is None:
        print("no claim for", p)
        continue
    ths = []
    for t in c["theorems"]:
        if t not in names:
            raise SystemExit(f"{p}: theorem {t} not found")
        ths.append("Iir." + t)
    out.append({"property": p, "status": c["status"], "theorems": ths, "note": c["note"]})
for p in claims:
    if p not in props:
        raise SystemExit(f"claim {p} without property")
json.dump({"claims": out}, open(root / "MANIFEST.json", "w"), indent=1, ensure_ascii=False)
print(len(out), "claims")
