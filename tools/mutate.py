#!/usr/bin/env python3
"""Apply each seeded edit of tools/mutations.py to a scratch copy of the model and rebuild.

usage: mutate.py [ids...]   (default: all edits that are not yet in seeded/LOG.jsonl)
"""
import json, os, random, re, signal, subprocess, sys, threading
ROOT = os.path.join(os.path.dirname(os.path.abspath(__file__)), "..")
SCR = "/tmp/mut/lean"
sys.path.insert(0, os.path.dirname(os.path.abspath(__file__)))
from mutations import M
from scratch import fresh, restore
LOG = os.path.join(ROOT, "seeded", "LOG.jsonl")
seen = set()
if os.path.exists(LOG):
  for l in open(LOG):
    seen.add(json.loads(l).get("id"))
want = sys.argv[1:]
rnd = random.Random(7)
todo = [m for m in M if (m["id"] in want if want else m["id"] not in seen)]

DECL = re.compile(r"^(?:@\[.*?\]\s*)?(?:private |protected |noncomputable )*(theorem|lemma|def|abbrev|example|instance|structure)\s*([^\s:({\[]*)")
def decl_at(path, line):
  lines = open(path).read().split("\n")
  for i in range(line - 1, -1, -1):
    m = DECL.match(lines[i])
    if m:
      return m.group(2) or m.group(1)
  return "?"

def build(grace=8):
  """Rebuild; after the first error go on for at most `grace` seconds."""
  p = subprocess.Popen(["lake", "build", "Verif"], cwd=SCR, stdout=subprocess.PIPE,
                       stderr=subprocess.STDOUT, text=True, start_new_session=True)
  out, first = [], []
  def stop():
    try: os.killpg(p.pid, signal.SIGKILL)
    except ProcessLookupError: pass
  for l in p.stdout:
    out.append(l)
    if not first and re.search(r"error: Verif/\S+\.lean:", l):
      first.append(threading.Timer(grace, stop)); first[0].start()
  p.wait()
  if first: first[0].cancel()
  return "".join(out)

rnd.shuffle(todo)
fresh()
for m in todo:
  f = os.path.join(SCR, "Verif", m["file"])
  src = open(f).read()
  if src.count(m["old"]) != m.get("count", 1):
    print(m["id"], "PATTERN COUNT", src.count(m["old"])); continue
  open(f, "w").write(src.replace(m["old"], m["new"]))
  out = build()
  fails, notbuilt = [], []
  for e in re.finditer(r"error: (Verif/\S+?\.lean):(\d+):\d+", out):
    d = decl_at(os.path.join(SCR, e.group(1)), int(e.group(2)))
    n = e.group(1)[6:-5].replace("/", ".") + ":" + d
    if n not in fails: fails.append(n)
  restore()
  rec = {"id": m["id"], "definition": m["def"], "edit": f'{m["old"].strip()}  =>  {m["new"].strip()}',
         "claim": m["claim"], "failed": fails, "tightened": m.get("tightened", []),
         "note": m.get("note", "")}
  print(m["id"], "SURVIVED" if not fails else "killed", fails, flush=True)
  if fails or m.get("log_survivor"):
    with open(LOG, "a") as g: g.write(json.dumps(rec, ensure_ascii=False) + "\n")
