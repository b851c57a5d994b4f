#!/usr/bin/env python3
"""Applies wrong edits to a scratch copy of the model, one at a time, and records which theorems fail.

usage: mutate.py mutants.json     each mutant: {"file", "def", "old", "new", "claim", "expect": [..]}
The scratch copy is /tmp/mut, made from a snapshot taken at the start; results are appended to ../seeded/LOG.jsonl.
"""
import json, os, re, subprocess, sys
ROOT = os.path.dirname(os.path.dirname(os.path.abspath(__file__)))
MUT = "/tmp/mut"
BASE = "/tmp/mutbase"
subprocess.run("rm -rf " + BASE + " && cp -a " + ROOT + "/lean " + BASE, shell=True, check=True)
def sync():
    subprocess.run("rm -rf " + MUT + " && cp -a " + BASE + " " + MUT, shell=True, check=True)
def enclosing(path, line):
    lines = open(path).read().split("\n")[:line]
    for l in reversed(lines):
        m = re.match(r"(?:@\[[^\]]*\]\s*)?(?:private |protected |noncomputable )*(theorem|lemma|def|example|instance|abbrev|structure|inductive)\b\s*(\S*)", l)
        if m:
            return (m.group(2) if m.group(1) != "example" else "example") or m.group(1)
    return "?"
for m in json.load(open(sys.argv[1])):
    sync()
    p = os.path.join(MUT, m["file"])
    s = open(p).read()
    if s.count(m["old"]) < 1 or (s.count(m["old"]) != 1 and not m.get("nth")):
        print("BAD MUTANT", s.count(m["old"]), m["file"], m["old"]); continue
    if m.get("nth"):
        parts = s.split(m["old"]); k = m["nth"]
        s = m["old"].join(parts[:k]) + m["new"] + m["old"].join(parts[k:])
    else:
        s = s.replace(m["old"], m["new"])
    open(p, "w").write(s)
    r = subprocess.run(["nice", "lake", "build"], cwd=MUT, capture_output=True, text=True)
    out = r.stdout + r.stderr
    fails = []
    for f, l in re.findall(r"error: (Verif/\S+?\.lean):(\d+):", out):
        mod = f[:-5].replace("/", ".")
        n = mod + ":" + enclosing(os.path.join(MUT, f), int(l))
        if n not in fails: fails.append(n)
    rec = {"definition": m["file"] + " " + m["def"], "edit": m["old"] + "  ==>  " + m["new"], "breaks": m["claim"],
           "failed": fails if r.returncode else [], "tightened": m.get("tightened", []), "note": m.get("note", "")}
    print(("KILLED " if r.returncode else "SURVIVED ") + m["def"] + ": " + m["new"][:60].replace("\n", " ") + " -> " + ", ".join(fails)[:300], flush=True)
    with open(os.path.join(ROOT, "seeded", "LOG.jsonl"), "a") as fh:
        fh.write(json.dumps(rec, ensure_ascii=False) + "\n")
