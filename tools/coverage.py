#!/usr/bin/env python3
"""Lists the functions of /repo/src (tests excluded) whose first line no comment in lean/Verif/Model
cites."""
import re, pathlib
root = pathlib.Path(__file__).resolve().parent.parent
repo = pathlib.Path("/repo/src")
cited = {}
for f in (root / "lean/Verif").rglob("*.lean"):
    if f.parent.name not in ("Model",):
        continue
    t = f.read_text()
    for m in re.finditer(r"(?:src/)([\w/]+\.rs):([\d,\s\-–]+)", t):
        for a in re.findall(r"(\d+)(?:\s*[-–]\s*(\d+))?", m.group(2)):
            lo = int(a[0]); hi = int(a[1] or a[0])
            cited.setdefault(m.group(1), set()).update(range(lo, hi + 1))
for f in sorted(repo.rglob("*.rs")):
    rel = str(f.relative_to(repo))
    for n, l in enumerate(f.read_text().splitlines(), 1):
        if "#[cfg(test)]" in l:
            break
        m = re.match(r"\s*(pub )?(\(crate\) )?fn (\w+)", l) or re.match(r"\s*pub\(crate\) fn (\w+)", l)
        if m and n not in cited.get(rel, ()):
            print(f"{rel}:{n}: {l.strip()}")
