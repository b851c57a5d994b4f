#!/usr/bin/env python3
"""Rewrites section 7 of DESIGN.md from tools/axioms.py (run after lake build)."""
import os, subprocess, sys
root = os.path.join(os.path.dirname(os.path.abspath(__file__)), "..")
p = os.path.join(root, "DESIGN.md")
s = open(p).read()
i = s.index("<!-- axioms -->")
out = subprocess.run([sys.executable, os.path.join(root, "tools", "axioms.py")], capture_output=True, text=True).stdout
open(p, "w").write(s[:i] + "<!-- axioms -->\n\nNames without the leading `Verif.`.\n\n" + out.rsplit("total", 1)[0].rstrip() + "\n")
