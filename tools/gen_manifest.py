"""Writes MANIFEST.json from the theorem names in lean/Verif/Props.

A theorem named Cnn_... belongs to property Cnn.  Status and notes are kept here by hand.
"""
import json, re, pathlib
root = pathlib.Path(__file__).resolve().parent.parent
exec((root / "tools" / "status.py").read_text())
thms = {}
for f in sorted((root / "lean/Verif/Props").glob("*.lean")):
    for m in re.finditer(r"^(?:@\[[^\]]*\]\s*)?theorem (C\d\d\d?_\w+)", f.read_text(), re.M):
        thms.setdefault(m.group(1).split('_')[0], []).append("R1CS." + m.group(1))
claims = []
for l in (root / "properties.jsonl").read_text().splitlines():
    i = json.loads(l)["id"]
    if i in STATUS:
        st, note = STATUS[i]
        if st != "not_applicable" and i not in thms:
            continue
        claims.append({"property": i, "status": st, "theorems": thms.get(i, []), "note": note})
missing = [i for i in thms if i not in STATUS]
if missing:
    raise SystemExit(f"no status for {missing}")
(root / "MANIFEST.json").write_text(json.dumps({"claims": claims}, indent=1) + "\n")
print(len(claims), "claims;", sum(c["status"] == "proved" for c in claims), "proved")
