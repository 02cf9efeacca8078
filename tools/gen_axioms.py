#!/usr/bin/env python3
"""Writes AXIOMS.txt: the axioms each theorem of MANIFEST.json depends on (run after `lake build`)."""
import json, os, re, subprocess, tempfile
root = os.path.dirname(os.path.dirname(os.path.abspath(__file__)))
names = [t for c in json.load(open(os.path.join(root, "MANIFEST.json")))["claims"] for t in c["theorems"]]
names = list(dict.fromkeys(names))
with tempfile.NamedTemporaryFile("w", suffix=".lean", delete=False) as f:
    f.write("import Verif\n" + "".join(f"#print axioms {n}\n" for n in names))
out = subprocess.run(["lake", "env", "lean", f.name], cwd=os.path.join(root, "lean"), capture_output=True, text=True).stdout
os.unlink(f.name)
res = dict((n, "none") for n in re.findall(r"'(\S+)' does not depend on any axioms", out))
for n, ax in re.findall(r"'(\S+)' depends on axioms: \[([^\]]*)\]", out):
    res[n] = ", ".join(sorted(a.strip() for a in ax.split(",")))
with open(os.path.join(root, "AXIOMS.txt"), "w") as f:
    for n in names:
        f.write(f"{n}: {res[n]}\n")
# theorems stated for all lawful storages, read by gen_manifest.py
code = """import Verif
open Lean Elab Command
run_cmd do
  for n in [%s] do
    let some c := (← getEnv).find? n | continue
    let cs := c.type.getUsedConstants
    if cs.contains ``TClifford.LawfulStorage then logInfo m!"GEN {n} {(if cs.contains ``TClifford.LawfulWedge then 1 else 0 : Nat)}{(if cs.contains ``TClifford.FloatWedge then 1 else 0 : Nat)}"
""" % ", ".join("`" + n for n in names)
with tempfile.NamedTemporaryFile("w", suffix=".lean", delete=False) as f:
    f.write(code)
out = subprocess.run(["lake", "env", "lean", f.name], cwd=os.path.join(root, "lean"), capture_output=True, text=True).stdout
os.unlink(f.name)
gen = {n: w for n, w in re.findall(r"GEN (\S+) (\d\d)", out)}
json.dump(gen, open(os.path.join(root, "tools", "generic.json"), "w"), indent=0, sort_keys=True)
print(len(gen), "generic,", sum(w != "00" for w in gen.values()), "with wedge")
print(len(names), sorted(set(res.values())))
