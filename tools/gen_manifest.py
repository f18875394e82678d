#!/usr/bin/env python3
"""Writes MANIFEST.json and lean/Verif/Audit.lean (prints the axioms of every claimed theorem)."""
import sys; sys.dont_write_bytecode = True
import json, os, glob
root = os.path.dirname(os.path.dirname(os.path.abspath(__file__)))
from manifest_data import CLAIMS
out = []
names = []
for pid, status, thms, note in CLAIMS:
    out.append({"property": pid, "status": status, "theorems": thms, "note": note})
    for t in thms:
        if t not in names:
            names.append(t)
with open(os.path.join(root, "MANIFEST.json"), "w") as f:
    json.dump({"claims": out}, f, indent=1, ensure_ascii=False)
    f.write("\n")
mods = sorted(os.path.splitext(os.path.basename(p))[0]
              for p in glob.glob(os.path.join(root, "lean/Verif/Props/*.lean")))
with open(os.path.join(root, "lean/Verif/Audit.lean"), "w") as f:
    for m in mods:
        f.write(f"import Verif.Props.{m}\n")
    f.write("/-\nAxioms used by every theorem named in MANIFEST.json (generated by tools/gen_manifest.py).\n-/\n")
    for n in names:
        f.write(f"#print axioms {n}\n")
mods = []
for d in ("Model", "Spec", "Lemmas", "Props"):
    mods += [f"Verif.{d}." + os.path.splitext(os.path.basename(p))[0]
             for p in sorted(glob.glob(os.path.join(root, f"lean/Verif/{d}/*.lean")))]
with open(os.path.join(root, "lean/Verif.lean"), "w") as f:
    for m in mods + ["Verif.Audit"]:
        f.write(f"import {m}\n")
