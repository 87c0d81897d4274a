#!/usr/bin/env python3
"""Turns the results of tools/mutate.py into seeded/LOG.jsonl, one line per attempt.

`failed` lists the property theorems that no longer check: those whose own proof broke and those
that depend on a lemma whose proof broke; `broken_proofs` lists the proofs that broke themselves.
Entries of seeded/manual.jsonl (attempts made or judged by hand) are appended as they are.
"""
import json, pathlib, sys
root = pathlib.Path(__file__).resolve().parent.parent
# theorems which were strengthened because a mutant survived
TIGHTENED = {"W2": ["C22_inputs_preserved"], "U2": ["C89_poseidon_rounds"],
             "N1": ["C74_build"], "N2": ["C74_build"], "N5": ["C74_build"], "N3": ["C75_build"],
             "N6": ["C75_build"], "N4": ["C89_rounding"], "N19": ["C82_from_str_exact"]}
out = []
for src in sys.argv[1:]:
    for l in open(src):
        r = json.loads(l)
        if r["status"] != "done":
            continue
        out.append({"id": r["id"], "definition": r["definition"], "edit": r["edit"],
                    "claim": ", ".join(r["breaks"]), "failed": r["failed"],
                    "broken_proofs": r["broken"], "survived": r["missed"], "tightened": TIGHTENED.get(r["id"], [])})
man = root / "seeded" / "manual.jsonl"
if man.exists():
    out += [json.loads(l) for l in man.read_text().splitlines() if l.strip()]
(root / "seeded" / "LOG.jsonl").write_text("".join(json.dumps(o) + "\n" for o in out))
print(len(out), "attempts")
