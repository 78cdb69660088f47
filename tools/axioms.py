#!/usr/bin/env python3
"""Write AXIOMS.md: the axioms each theorem of MANIFEST.json depends on (needs a built project)."""
import json, re, subprocess, tempfile, os
root = os.path.dirname(os.path.dirname(os.path.abspath(__file__)))
claims = json.load(open(root + "/MANIFEST.json"))["claims"]
names = []
for c in claims:
    for t in c["theorems"]:
        if t not in names:
            names.append(t)
with tempfile.NamedTemporaryFile("w", suffix=".lean", delete=False) as f:
    f.write("import Verif\n" + "".join(f"#print axioms {n}\n" for n in names))
out = subprocess.run(["lake", "env", "lean", f.name], cwd=root + "/lean", capture_output=True, text=True).stdout
os.unlink(f.name)
found = {}
for m in re.finditer(r"'([^']+)' (?:depends on axioms: \[([^\]]*)\]|does not depend on any axioms)", out):
    found[m.group(1)] = sorted(x.strip() for x in (m.group(2) or "").split(",") if x.strip())
with open(root + "/AXIOMS.md", "w") as f:
    f.write("# Axioms of each theorem\n\nWritten by `tools/axioms.py` from `#print axioms`.\n\n| property | theorem | axioms |\n|---|---|---|\n")
    for c in sorted(claims, key=lambda c: c["property"]):
        for t in c["theorems"]:
            f.write(f"| {c['property']} | `{t}` | {', '.join(found[t]) or 'none'} |\n")
print(len(names), "theorems;", sorted({a for v in found.values() for a in v}))
