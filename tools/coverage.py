#!/usr/bin/env python3
"""Write section 6 of DESIGN.md: which functions of /repo are modelled, by which definitions, and which are not."""
import ast, os, re
ROOT = os.path.join(os.path.dirname(os.path.abspath(__file__)), "..")
MOD = os.path.join(ROOT, "lean", "Verif", "Model")
REPO = "/repo"
DECL = re.compile(r"^(?:@\[[^\]]*\]\s*)?(?:private |protected |noncomputable )*(?:def|abbrev|structure|inductive)\s+([^\s:({\[]+)")
CITE = re.compile(r"(/repo/[\w/.]+\.(?:py|md|toml|yaml))((?::\s*\d+(?:-\d+)?(?:,\s*\d+(?:-\d+)?)*)?)")
WHY = {
  "setup.py": "packaging",
  "docs/conf.py": "documentation build",
  "jrystal/__init__.py": "location of the installed package: the library field `pkgPath`",
  "jrystal/_src/spmd/custom_partitioning.py": "JAX/XLA plumbing (tracing, lowering to a custom call, registration); its effect on values, "
    "that of the wrapped function on every shard, is the contract used by `Model/Spmd.lean`",
  "jrystal/calc/opt_utils.py": "sets environment variables, log level, 64-bit mode and NaN checking; no effect on values over the reals",
  "jrystal/sbt/sbt.py": "not called and not exported",
}
defs = []   # (file, def, {repo file: lines})
for f in sorted(os.listdir(MOD)):
  lines = open(os.path.join(MOD, f)).read().split("\n")
  for i, l in enumerate(lines):
    d = DECL.match(l)
    if not d: continue
    j = i - 1
    while j >= 0 and (lines[j].startswith("@[") or lines[j].startswith("open ")): j -= 1
    if j < 0 or not lines[j].rstrip().endswith("-/"): continue
    k = j
    while "/--" not in lines[k]: k -= 1
    doc = " ".join(x.strip() for x in lines[k:j + 1])
    for m in CITE.finditer(doc):
      s = set()
      for r in re.finditer(r"(\d+)(?:-(\d+))?", m.group(2)):
        a = int(r.group(1)); s |= set(range(a, int(r.group(2) or a) + 1))
      defs.append((f, d.group(1), m.group(1), s))
out = ["## 6. Coverage of the code", "",
  "Generated by `tools/coverage.py` from the citations in `lean/Verif/Model`.  For every source file (tests",
  "excluded): each function or method with the definitions that model it.  Methods and local functions are",
  "listed when they have a definition of their own.", ""]
missing = []
for dp, dn, fs in sorted(os.walk(REPO)):
  dn.sort()
  if "/.git" in dp: continue
  for f in sorted(fs):
    if not f.endswith(".py") or f.endswith("_test.py"): continue
    p = os.path.join(dp, f); rel = p[len(REPO) + 1:]
    t = ast.parse(open(p).read())
    items = []
    def walk(node, pre):
      for n in ast.iter_child_nodes(node):
        if isinstance(n, (ast.FunctionDef, ast.ClassDef)):
          items.append((n.lineno, n.end_lineno, pre + n.name, isinstance(n, ast.ClassDef)))
          walk(n, pre + n.name + ".")
        else: walk(n, pre)
    walk(t, "")
    rows = []
    for a, b, name, cls in items:
      r = set(range(a, b + 1))
      ds = []
      for g, d, q, s in defs:
        if q == p and s & r and d not in ds: ds.append(d)
      if ds:
        if not cls: rows.append(f"`{name}` ({a}-{b}): " + ", ".join(f"`{d}`" for d in ds))
      else: missing.append((rel, a, b, name))
    if rows: out += [f"* **{rel}**"] + [f"  * {x}" for x in rows]
out += ["", "Not modelled:", ""]
by = {}
for rel, a, b, name in missing: by.setdefault(rel, []).append((a, b, name))
for rel, l in by.items():
  top = [x for x in l if not any(y[0] < x[0] and x[1] <= y[1] for y in l)]
  why = WHY.get(rel)
  if rel.endswith("calc_band_structure_normcons.py") or rel.endswith("calc_ground_state_energy_all_electrons.py"):
    why = "record that no function of the repository constructs: the drivers return the density, or save a file"
  if rel.endswith("dataclass.py"): why = "record of attributes that the norm-conserving class sets"
  out.append(f"* {rel}: " + ", ".join(f"`{n}` ({a}-{b})" for a, b, n in top) + f" – {why or 'NO REASON GIVEN'}")
s = open(os.path.join(ROOT, "DESIGN.md")).read()
i = s.find("## 6. Coverage of the code")
if i >= 0: s = s[:i]
open(os.path.join(ROOT, "DESIGN.md"), "w").write(s.rstrip("\n") + "\n\n" + "\n".join(out) + "\n")
