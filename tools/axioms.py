#!/usr/bin/env python3
"""Write AXIOMS.md: the axioms every theorem of MANIFEST.json depends on (needs a finished build)."""
import json, pathlib, re, subprocess, tempfile
root = pathlib.Path(__file__).resolve().parent.parent
m = json.load(open(root / "MANIFEST.json"))
ts = sorted({t for c in m["claims"] for t in c["theorems"]})
with tempfile.TemporaryDirectory() as d:
    f = pathlib.Path(d) / "ax.lean"
    f.write_text("import Verif\n" + "\n".join(f"#print axioms {t}" for t in ts) + "\n")
    out = subprocess.run(["lake", "env", "lean", str(f)], cwd=root / "lean", capture_output=True, text=True, check=True).stdout
by = {}
for name, ax in re.findall(r"'([^']+)' (?:depends on axioms: \[([^\]]*)\]|does not depend on any axioms)", out):
    by.setdefault(", ".join(ax.split(", ")).replace("\n", " ") or "none", []).append(name)
assert sum(map(len, by.values())) == len(ts), (len(ts), {k: len(v) for k, v in by.items()})
txt = ["# Axioms of the property theorems", "",
       "Written by `tools/axioms.py` from `#print axioms`. Names are without the prefix `Iir.`.", ""]
for k in sorted(by, key=len):
    txt += [f"## {k} ({len(by[k])} theorems)", "", ", ".join(x.replace("Iir.", "", 1) for x in sorted(by[k])), ""]
(root / "AXIOMS.md").write_text("\n".join(txt))
print({k: len(v) for k, v in by.items()})
