#!/usr/bin/env python3
"""Report model definitions without a citation of /repo, citations that point outside a file, and
functions of /repo that no citation touches.

usage: check_cites.py [-u]   (-u also lists the uncited functions)
"""
import ast, os, re, sys
ROOT = os.path.join(os.path.dirname(os.path.abspath(__file__)), "..")
MOD = os.path.join(ROOT, "lean", "Verif", "Model")
REPO = "/repo"
DECL = re.compile(r"^(?:@\[[^\]]*\]\s*)?(?:private |protected |noncomputable )*(def|abbrev|structure|inductive)\s+([^\s:({\[]+)")
CITE = re.compile(r"(/repo/[\w/.]+\.(?:py|md|toml|yaml))((?::\s*\d+(?:-\d+)?(?:,\s*\d+(?:-\d+)?)*)?)")
lines_of = {}
def nlines(p):
  if p not in lines_of:
    lines_of[p] = len(open(p).read().split("\n")) if os.path.exists(p) else None
  return lines_of[p]
cited = {}
bad = 0
for f in sorted(os.listdir(MOD)):
  src = open(os.path.join(MOD, f)).read()
  flat = re.sub(r"\s*\n\s*", " ", src)
  for m in CITE.finditer(flat):
    n = nlines(m.group(1))
    if n is None:
      print(f, "cites missing file", m.group(1)); bad += 1; continue
    for r in re.finditer(r"(\d+)(?:-(\d+))?", m.group(2)):
      a = int(r.group(1)); b = int(r.group(2) or a)
      if b > n or a > b:
        print(f, "cites lines outside", m.group(1), r.group(0)); bad += 1
      cited.setdefault(m.group(1), set()).update(range(a, b + 1))
  lines = src.split("\n")
  for i, l in enumerate(lines):
    d = DECL.match(l)
    if not d: continue
    j = i - 1
    while j >= 0 and (lines[j].startswith("@[") or lines[j].startswith("open ")): j -= 1
    doc = ""
    if j >= 0 and lines[j].rstrip().endswith("-/"):
      k = j
      while "/--" not in lines[k]: k -= 1
      doc = " ".join(lines[k:j + 1])
    if "/repo/" not in doc:
      print(f"{f}:{i+1}: {d.group(2)} has no citation"); bad += 1
print("problems:", bad)
if "-u" in sys.argv:
  tot = hit = 0
  for dp, _, fs in sorted(os.walk(REPO)):
    if "/.git" in dp: continue
    for f in sorted(fs):
      if not f.endswith(".py"): continue
      p = os.path.join(dp, f)
      try: t = ast.parse(open(p).read())
      except Exception: continue
      for n in ast.walk(t):
        if isinstance(n, (ast.FunctionDef, ast.ClassDef)):
          tot += 1
          if set(range(n.lineno, n.end_lineno + 1)) & cited.get(p, set()): hit += 1
          else: print("uncited", p, n.lineno, n.end_lineno, n.name)
  print(hit, "of", tot, "functions and classes cited")
