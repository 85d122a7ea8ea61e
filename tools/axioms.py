#!/usr/bin/env python3
"""Write AXIOMS.tsv: for every theorem named in MANIFEST.json, the axioms it depends on.

Needs a finished `lake build` in lean/.
"""
import json
import pathlib
import re
import subprocess
import tempfile

ROOT = pathlib.Path(__file__).resolve().parent.parent
names = [t for c in json.loads((ROOT / "MANIFEST.json").read_text())["claims"] for t in c["theorems"]]
with tempfile.NamedTemporaryFile("w", suffix=".lean") as f:
    f.write("import Verif\n" + "".join(f"#print axioms {n}\n" for n in names))
    f.flush()
    out = subprocess.run(["lake", "env", "lean", f.name], cwd=ROOT / "lean", capture_output=True, text=True).stdout
found = {}
for m in re.finditer(r"'([^']+)' (does not depend on any axioms|depends on axioms: \[([^\]]*)\])", out):
    found[m.group(1)] = " ".join(sorted(m.group(3).replace("\n", " ").replace(",", " ").split())) if m.group(3) else "none"
(ROOT / "AXIOMS.tsv").write_text("".join(f"{n}\t{found[n]}\n" for n in names))
kinds = {}
for n in names:
    kinds.setdefault(found[n], []).append(n)
print({k: len(v) for k, v in kinds.items()})
