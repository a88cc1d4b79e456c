#!/usr/bin/env python3
"""Regenerate MANIFEST.json from the theorem names Cnn_* in lean/Verif/Props and tools/status.json."""
import json, re, pathlib
root = pathlib.Path(__file__).resolve().parent.parent
status = json.loads((root / "tools/status.json").read_text())
thms = {}
for f in sorted((root / "lean/Verif/Props").glob("*.lean")):
    stack = []
    for line in f.read_text().splitlines():
        m = re.match(r"namespace (\S+)", line)
        if m:
            stack.append(m.group(1)); continue
        m = re.match(r"(?:noncomputable )?(?:section|mutual)\b", line)
        if m:
            stack.append(None); continue
        m = re.match(r"end\b\s*(\S*)", line)
        if m and stack:
            stack.pop(); continue
        m = re.match(r"(?:@\[.*?\]\s*)?theorem (C\d\d)(_\S*)", line)
        if m:
            name = ".".join([s for s in stack if s] + [m.group(1) + m.group(2)])
            thms.setdefault(m.group(1), []).append(name)
claims = []
for line in (root / "properties.jsonl").read_text().splitlines():
    pid = json.loads(line)["id"]
    st = status.get(pid, {"status": "not_applicable", "note": "not yet modelled"})
    t = thms.get(pid, [])
    if st["status"] in ("proved", "partial") and not t:
        raise SystemExit(f"{pid}: no theorems")
    if st["status"] == "not_applicable" and t:
        raise SystemExit(f"{pid}: theorems but no status")
    claims.append({"property": pid, "status": st["status"], "theorems": t, "note": st["note"]})
(root / "MANIFEST.json").write_text(json.dumps({"claims": claims}, indent=1, ensure_ascii=False) + "\n")
from collections import Counter
print(Counter(c["status"] for c in claims), sum(len(c["theorems"]) for c in claims))
