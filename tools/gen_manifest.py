#!/usr/bin/env python3
"""Writes MANIFEST.json and lean/Verif.lean from the theorem names in lean/Verif/Props.

A theorem named Cxx_... belongs to property Cxx.  Notes and statuses which cannot be read off the names are in NOTES.
"""
import json, os, re
root = os.path.dirname(os.path.dirname(os.path.abspath(__file__)))
lean = os.path.join(root, "lean")
mods = []
for d, _, fs in os.walk(os.path.join(lean, "Verif")):
    for f in fs:
        if f.endswith(".lean"):
            mods.append(os.path.relpath(os.path.join(d, f), lean)[:-5].replace("/", "."))
order = ["Model", "Math", "Spec", "Proofs", "Props"]
mods.sort(key=lambda m: (order.index(m.split(".")[1]), m))
open(os.path.join(lean, "Verif.lean"), "w").write("".join(f"import {m}\n" for m in mods))

NOTES = json.load(open(os.path.join(root, "tools", "notes.json")))
thms = {}
for m in mods:
    if not m.startswith("Verif.Props"):
        continue
    ns = []
    for line in open(os.path.join(lean, m.replace(".", "/") + ".lean")):
        if g := re.match(r"namespace (\S+)", line):
            ns.append(g.group(1))
        elif (g := re.match(r"end (\S+)", line)) and ns and ns[-1] == g.group(1):
            ns.pop()
        elif g := re.match(r"(?:@\[[^\]]*\] *)?theorem (C\d\d\w*)", line):
            thms.setdefault(g.group(1)[:3], []).append(".".join(ns + [g.group(1)]))
# claims about all storages also need that the storages are lawful
GEN = json.load(open(os.path.join(root, "tools", "generic.json")))
claims = []
for line in open(os.path.join(root, "properties.jsonl")):
    pid = json.loads(line)["id"]
    ts = thms.get(pid, [])
    note = NOTES.get(pid, {})
    if not ts:
        continue
    status = note.get("status") or ("partial" if any(t.endswith("_partial") for t in ts) else "proved")
    if any(t in GEN for t in ts):
        ts = ts + ["TClifford.storages_lawful"]
    if any(GEN.get(t, "00")[0] == "1" for t in ts):
        ts = ts + ["TClifford.wedges_lawful"]
    if any(GEN.get(t, "00")[1] == "1" for t in ts):
        ts = ts + ["TClifford.float_wedges_lawful"]
    claims.append({"property": pid, "status": status, "theorems": ts, "note": note.get("note", "")})
json.dump({"claims": claims}, open(os.path.join(root, "MANIFEST.json"), "w"), indent=1, ensure_ascii=False)
print(len(claims), "claims,", sum(len(c["theorems"]) for c in claims), "theorems")
missing = [json.loads(l)["id"] for l in open(os.path.join(root, "properties.jsonl"))]
print("no theorem:", [p for p in missing if p not in thms])
