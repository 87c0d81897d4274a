#!/usr/bin/env python3
"""Writes lean/Verif/Audit.lean: the axioms of every theorem named in MANIFEST.json."""
import json, pathlib
root = pathlib.Path(__file__).resolve().parent.parent
m = json.loads((root / "MANIFEST.json").read_text())
mods = sorted(p.stem for p in (root / "lean/Verif/Props").glob("*.lean"))
names = [t for c in m["claims"] for t in c["theorems"]]
s = "".join(f"import Verif.Props.{x}\n" for x in mods)
s += """
/-!
# The axioms of the theorems named in MANIFEST.json

Generated by `tools/gen_audit.py`.  Each line must report at most `propext`, `Classical.choice` and
`Quot.sound`.
-/

"""
s += "".join(f"#print axioms {n}\n" for n in names)
(root / "lean/Verif/Audit.lean").write_text(s)
print(len(names), "theorems")
