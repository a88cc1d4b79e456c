#!/usr/bin/env python3
"""Regenerate the generated sections of DESIGN.md: lines of /repo cited by the model, and axioms per theorem.

usage: gen_design.py            (needs a finished `lake build`)
"""
import json, re, pathlib, subprocess
from collections import defaultdict
root = pathlib.Path(__file__).resolve().parent.parent
lean = root / "lean"
CITE = re.compile(r"(?:/repo/)?((?:doodle-formats/)?src/[a-z0-9_/]+\.rs)[:,]?\s*((?:lines\s+)?\d+(?:-\d+)?(?:,\s*(?:and\s+)?\d+(?:-\d+)?)*)")

def merge(rs):
    out = []
    for a, b in sorted(rs):
        if out and a <= out[-1][1] + 2:
            out[-1][1] = max(out[-1][1], b)
        else:
            out.append([a, b])
    return out

def coverage():
    cited, by = defaultdict(list), defaultdict(set)
    for f in sorted((lean / "Verif/Model").glob("*.lean")):
        txt = re.sub(r"/-!.*?-/", "", f.read_text(), flags=re.S).replace("–", "-")
        for m in CITE.finditer(txt):
            for r in re.findall(r"(\d+)(?:-(\d+))?", m[2]):
                cited[m[1]].append((int(r[0]), int(r[1] or r[0])))
            by[m[1]].add(f.stem)
    rows = ["| file | lines | cited by | modelled lines |", "|---|---|---|---|"]
    for f in sorted(cited):
        n = len((pathlib.Path("/repo") / f).read_text().splitlines())
        rs = merge(cited[f])
        rows.append("| `%s` | %d | %s | %s |" % (f, n, ", ".join("`%s`" % x for x in sorted(by[f])),
            ", ".join("%d-%d" % (a, b) if a != b else str(a) for a, b in rs)))
    return "\n".join(rows)

def axioms():
    man = json.loads((root / "MANIFEST.json").read_text())
    thms = [t for c in man["claims"] for t in c["theorems"]]
    src = "import Verif\n" + "\n".join("#print axioms " + t for t in thms)
    p = pathlib.Path("/tmp/axioms.lean"); p.write_text(src)
    txt = subprocess.run(["lake", "env", "lean", str(p)], cwd=lean, capture_output=True, text=True).stdout
    g = defaultdict(list)
    for m in re.finditer(r"'(\S+)' (?:depends on axioms: \[([^\]]*)\]|does not depend on any axioms)", txt):
        g[tuple(sorted(x.strip() for x in (m[2] or "").split(",") if x.strip()))].append(m[1])
    assert sum(map(len, g.values())) == len(thms), (sum(map(len, g.values())), len(thms))
    out = []
    for k in sorted(g, key=len):
        out.append("* %s (%d theorems): %s" % (", ".join("`%s`" % a for a in k) or "no axioms", len(g[k]),
            ", ".join("`%s`" % t.replace("Doodle.", "", 1) for t in sorted(g[k]))))
    return "\n".join(out)

def refuted():
    out = []
    for f in sorted((lean / "Verif/Props").glob("*.lean")):
        for m in re.finditer(r"/--((?:(?!-/).)*?)-/\s*(?:omit \[.*?\] in\s*)?theorem (C\d\d_\w*refuted)", f.read_text(), re.S):
            doc = re.sub(r"\s+", " ", m[1]).strip()
            out.append((m[2], doc))
    return "\n".join("* `%s`: %s" % x for x in sorted(out))

d = (root / "DESIGN.md").read_text()
for tag, fn in (("coverage", coverage), ("refuted", refuted), ("axioms", axioms)):
    a, b = "<!-- begin generated: %s -->" % tag, "<!-- end generated: %s -->" % tag
    if a in d:
        i, j = d.index(a) + len(a), d.index(b)
        d = d[:i] + "\n" + fn() + "\n" + d[j:]
(root / "DESIGN.md").write_text(d)
