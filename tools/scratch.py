"""The scratch copy of the Lean project, outside /verif, and its quick restoration after a seeded edit."""
import os, shutil, subprocess
ROOT = os.path.join(os.path.dirname(os.path.abspath(__file__)), "..")
SCR, PRI = "/tmp/mut/lean", "/tmp/mut/pristine"

def fresh():
  """A pristine copy of the built project, and a second one to edit."""
  os.makedirs("/tmp/mut", exist_ok=True)
  for d in (PRI, SCR):
    subprocess.run(f"rm -rf {d} && cp -a {ROOT}/lean {d}", shell=True, check=True)

def restore():
  """Put back every source and build product that differs from the pristine copy."""
  for top in ("Verif", ".lake/build"):
    have = set()
    for d, _, fs in os.walk(f"{PRI}/{top}"):
      e = SCR + d[len(PRI):]
      os.makedirs(e, exist_ok=True)
      for f in fs:
        a, b = f"{d}/{f}", f"{e}/{f}"
        have.add(b)
        s = os.stat(a)
        if os.path.exists(b):
          t = os.stat(b)
          if t.st_size == s.st_size and t.st_mtime_ns == s.st_mtime_ns: continue
          os.unlink(b)
        shutil.copy2(a, b)
    for d, _, fs in os.walk(f"{SCR}/{top}"):
      for f in fs:
        if f"{d}/{f}" not in have: os.unlink(f"{d}/{f}")
