#!/usr/bin/env python3
"""Prints, for each theorem named in MANIFEST.json, the axioms it depends on (run after lake build)."""
import json, os, re, subprocess, tempfile
root = os.path.join(os.path.dirname(os.path.abspath(__file__)), "..")
names = []
for c in json.load(open(os.path.join(root, "MANIFEST.json")))["claims"]:
    for t in c["theorems"]:
        if t not in names:
            names.append(t)
with tempfile.NamedTemporaryFile("w", suffix=".lean", delete=False) as f:
    f.write("import Verif\n" + "".join(f"#print axioms {n}\n" for n in names))
out = subprocess.run(["lake", "env", "lean", f.name], cwd=os.path.join(root, "lean"), capture_output=True, text=True).stdout
groups = {}
for m in re.finditer(r"'([^']+)' (does not depend on any axioms|depends on axioms: \[([^\]]*)\])", out):
    ax = ", ".join(sorted(x.strip() for x in (m.group(3) or "").split(","))) or "none"
    groups.setdefault(ax, []).append(m.group(1))
for ax in sorted(groups, key=lambda a: (len(a), a)):
    print(f"### {ax} ({len(groups[ax])})\n")
    print(", ".join("`" + n.removeprefix("Verif.") + "`" for n in groups[ax]) + "\n")
print("total", sum(len(v) for v in groups.values()), "of", len(names))
