#!/usr/bin/env python3
"""Writes /verif/MANIFEST.json from the theorem names in lean/Verif/Props/*.lean (a theorem named
Cxx_... belongs to property Cxx) and the statuses/notes below, and /verif/lean/Verif.lean."""
import json, os, re, glob
root = os.path.join(os.path.dirname(os.path.abspath(__file__)), "..")
# property -> (status, note); default "proved"
from notes import NOTES
th = {}
for f in sorted(glob.glob(root + "/lean/Verif/Props/*.lean")):
    for m in re.finditer(r"^theorem (C(\d\d+)_\w+'?)", open(f).read(), re.M):
        th.setdefault("C" + m.group(2), []).append("DiffeRT2d.Props." + m.group(1))
claims = []
for line in open(root + "/properties.jsonl"):
    pid = json.loads(line)["id"]
    if pid not in th and pid not in NOTES: 
        print("no theorem yet for", pid); continue
    status, note = NOTES.get(pid, ("proved", ""))
    claims.append(dict(property=pid, status=status, theorems=th.get(pid, []), note=note))
json.dump({"claims": claims}, open(root + "/MANIFEST.json", "w"), indent=1)
mods = []
for d in ["Model", "Spec", "Lemmas", "Props"]:
    for f in sorted(glob.glob(root + f"/lean/Verif/{d}/*.lean")):
        mods.append("Verif." + d + "." + os.path.basename(f)[:-5])
open(root + "/lean/Verif.lean", "w").write("".join(f"import {m}\n" for m in mods))
print(len(claims), "claims", sum(len(c["theorems"]) for c in claims), "theorems")
