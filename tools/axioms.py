#!/usr/bin/env python3
"""Write AXIOMS.md: the axioms that each theorem of MANIFEST.json depends on (needs a finished build)."""
import json, os, re, subprocess
ROOT = os.path.join(os.path.dirname(os.path.abspath(__file__)), "..")
M = json.load(open(os.path.join(ROOT, "MANIFEST.json")))
names = []
for c in M["claims"]:
  for t in c["theorems"]:
    if t not in names: names.append(t)
f = "/tmp/axioms_check.lean"
open(f, "w").write("import Verif\nopen Jrystal\n" + "".join(f"#print axioms {t}\n" for t in names))
r = subprocess.run(["lake", "env", "lean", f], cwd=os.path.join(ROOT, "lean"), capture_output=True, text=True)
out = re.sub(r"\n\s+", " ", r.stdout)
got = {}
for m in re.finditer(r"'([^']+)' (?:depends on axioms: \[([^\]]*)\]|does not depend on any axioms)", out):
  got[m.group(1).removeprefix("Jrystal.")] = tuple(sorted(x.strip() for x in (m.group(2) or "").split(",") if x.strip()))
miss = [t for t in names if t.removeprefix("Jrystal.") not in got]
print(len(names), "theorems;", "missing:", miss, r.stderr[:300])
by = {}
for t in names:
  if t not in miss: by.setdefault(got[t.removeprefix("Jrystal.")], []).append(t)
o = ["# Axioms of each theorem", "", "Generated by `tools/axioms.py` with `#print axioms`.", ""]
for k, l in sorted(by.items(), key=lambda x: (len(x[0]), x[0])):
  o += ["## " + (", ".join(f"`{a}`" for a in k) or "none") + f" ({len(l)} theorems)", "", ", ".join(f"`{t}`" for t in l), ""]
open(os.path.join(ROOT, "AXIOMS.md"), "w").write("\n".join(o))
for k, l in by.items(): print(k, len(l))
