#!/usr/bin/env python3
"""Systematic edits: for every definition of the model, edits of one operator, constant, branch or argument.

usage: automutate.py SEED COUNT [FILE...]   Edits are drawn at random (with the seed); each is applied to a scratch copy,
which is rebuilt until the first error.  Edits that do not type-check in Model/ are dropped.  Killed edits are appended to
seeded/LOG.jsonl, survivors are printed.
"""
import glob, json, os, random, re, signal, subprocess, sys
ROOT = os.path.join(os.path.dirname(os.path.abspath(__file__)), "..")
SCR = "/tmp/mut/lean"
sys.path.insert(0, os.path.dirname(os.path.abspath(__file__)))
from scratch import fresh, restore
LOG = os.path.join(ROOT, "seeded", "LOG.jsonl")
RULES = [(r" \+ ", " - "), (r" - ", " + "), (r" \* ", " + "), (r" / ", " * "), (r" < ", " ≤ "), (r" ≤ ", " < "),
         (r"\b0\b", "1"), (r"\b1\b", "2"), (r"\b2\b", "1"), (r"conj ", ""), (r"\.1\b", ".2"), (r"\.2\b", ".1"),
         (r"\btrue\b", "false"), (r"\bfalse\b", "true"), (r" && ", " || "), (r" \|\| ", " && "), (r" ∧ ", " ∨ "),
         (r" ∨ ", " ∧ "), (r" = ", " ≠ "), (r" ≠ ", " = "),
         (r"ifftn ", "fftn "), (r"\bfftn ", "ifftn "), (r"Real\.cos", "Real.sin"), (r"Real\.sin", "Real.cos"), (r"-\(", "("),
         (r"if (not )?([^:]*?) then", None), (r" \^ 2", " ^ 3"), (r"\.map ", None),
         (r"\(fun (\w+) (\w+) =>", "SWAP")]
DEF = re.compile(r"^(?:noncomputable )?(?:def|abbrev) (\S+)", re.M)

def sites():
  files = sys.argv[3:] or sorted(os.path.basename(f) for f in glob.glob(ROOT + "/lean/Verif/Model/*.lean"))
  for f in files:
    s = open(f"{ROOT}/lean/Verif/Model/{f}").read()
    for m in DEF.finditer(s):
      end = re.search(r"\n\s*\n|\n/--|\nend |\nnamespace ", s[m.end():])
      e = m.end() + (end.start() if end else len(s) - m.end())
      body = s[m.start():e]
      k = body.find(":=")
      k2 = body.find("\n  |")
      k = min(x for x in (k, k2, len(body)) if x >= 0)
      for old, new in RULES:
        for x in re.finditer(old, body[k:]):
          a, b = m.start() + k + x.start(), m.start() + k + x.end()
          line = s[s.rfind("\n", 0, a) + 1:s.find("\n", b)]
          if new is None or re.match(r"\s*\| _(, _)* =>", line) or re.search(r"none => (fun _ => )?[01]$", s[:b]):
            continue
          t = f"(fun {x.group(2)} {x.group(1)} =>" if new == "SWAP" else new
          yield f, m.group(1), a, b, s[a:b], t

def ctx(s, a, b):
  i = s.rfind("\n", 0, a) + 1
  j = s.find("\n", b)
  return i, j

def build(target="Verif"):
  p = subprocess.Popen(["nice", "lake", "build", target], cwd=SCR, stdout=subprocess.PIPE, stderr=subprocess.STDOUT, text=True,
                       start_new_session=True)
  out, bad = [], None
  for l in p.stdout:
    out.append(l)
    e = re.search(r"error: (Verif/\S+?\.lean):(\d+):\d+", l)
    if e:
      bad = (e.group(1), int(e.group(2)))
      try: os.killpg(p.pid, signal.SIGKILL)
      except ProcessLookupError: pass
      break
  p.wait()
  return bad, "".join(out)

DECL = re.compile(r"^(?:@\[.*?\]\s*)?(?:private |protected |noncomputable )*(theorem|lemma|def|abbrev|example|instance|structure)\s*([^\s:({\[]*)")
def decl_at(path, line):
  lines = open(path).read().split("\n")
  for i in range(line - 1, -1, -1):
    m = DECL.match(lines[i])
    if m: return m.group(2) or m.group(1)
  return "?"

if __name__ == "__main__":
  rnd = random.Random(int(sys.argv[1]))
  all_ = list(sites())
  by = {}
  for s in all_: by.setdefault((s[0], s[1]), []).append(s)
  done = set(json.loads(l)["definition"] for l in open(LOG) if '"id": "A' in l) | set(os.environ.get("SKIP", "").split())
  keys = sorted(k for k in by if k[1] not in done)
  rnd.shuffle(keys)
  keys = keys[:int(sys.argv[2])]
  print(len(all_), "sites in", len(by), "definitions", flush=True)
  fresh()
  for n, k in enumerate(keys):
    f, d, a, b, old, new = rnd.choice(by[k])
    path = f"{SCR}/Verif/Model/{f}"
    src = open(path).read()
    mut = src[:a] + new + src[b:]
    i, j = ctx(src, a, b)
    edit = f"{src[i:j].strip()}  =>  {mut[i:j - len(old) + len(new)].strip()}"
    open(path, "w").write(mut)
    bad, out = build()
    restore()
    if bad and bad[0].startswith("Verif/Model/"):
      print("ILLTYPED", d, "|", edit, flush=True); continue
    if not bad:
      print("BROKEN" if "Build completed" not in out else "SURVIVED", f, d, "|", edit, flush=True); continue
    name = bad[0][6:-5].replace("/", ".") + ":" + decl_at(f"{SCR}/{bad[0]}", bad[1])
    print("killed", f, d, "|", edit, "|", name, flush=True)
    doc = src[:src.rfind("def " + d.split(" ")[0], 0, a)]
    doc = doc[doc.rfind("/--") + 3:doc.rfind("-/")].replace("\n", " ").strip()
    rec = {"id": f"A{sys.argv[1]}-{n}", "definition": d, "edit": edit, "claim": doc[:200], "failed": [name], "tightened": [], "note": "systematic edit; build stopped at the first failure"}
    with open(LOG, "a") as g: g.write(json.dumps(rec, ensure_ascii=False) + "\n")
