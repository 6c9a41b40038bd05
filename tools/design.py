#!/usr/bin/env python3
"""Writes ../DESIGN.md."""
import json, os
HERE = os.path.dirname(os.path.abspath(__file__))
C = {}
def c(prop, status, theorems, note=""):
    C[prop] = (status, theorems.split(), note)
exec(open(os.path.join(HERE, "claims.py")).read())
exec(open(os.path.join(HERE, "plan.py")).read())
props = [json.loads(l) for l in open(os.path.join(HERE, "..", "properties.jsonl"))]
def rng(s):
    a = s.split("-"); a = [int(x[1:]) for x in a]
    return range(a[0], a[-1] + 1)
plan = {"C%02d" % i: (m, h) for r, m, h in PLAN for i in rng(r)}
o = open(os.path.join(HERE, "design_head.md")).read().rstrip("\n") + "\n" + UNMODELLED.strip() + "\n\n"
from coverage import uncovered
total, missing, files = uncovered()
o += "Every definition of the model cites the lines it models.  %d of the %d lines of function bodies in `src/*.c` are not cited; these functions are listed here (`tools/coverage.py`).\n\n" % (missing, total)
for n, fns in files:
    o += "* `%s`: %s\n" % (n, ", ".join(fns))
o += "\n"
o += "## Plan per property\n\nModel files are under `lean/Verif/Model/`.  The theorems are listed in `MANIFEST.json`.\n\n"
o += "| id | property | model | proof | status |\n|----|----|----|----|----|\n"
for p in props:
    m, h = plan[p["id"]]
    o += "| %s | %s | %s | %s | %s |\n" % (p["id"], p["title"], m, h, C.get(p["id"], ("open",))[0])
o += "\n## Disagreements found between the code and the property\n\n"
o += "Each violation is proved of the model, with a concrete input; what does hold is proved by the theorems named beside it in the manifest.\n\n"
key = ("violated", "wrong", "_ub", "undefined", "unchecked", "clobbers", "not_through", "mismatch", "stuck", "alias", "two_free", "not_transitive")
for p in props:
    if p["id"] not in C: continue
    s, t, n = C[p["id"]]
    bad = [x.split(".", 1)[1] for x in t if any(k in x for k in key)]
    if bad and (s == "partial" or any(k in x for x in bad for k in ("violated", "wrong", "_ub", "unchecked"))):
        o += "* **%s %s** – %s  (%s)\n" % (p["id"], p["title"], n or "see the theorems", ", ".join("`%s`" % b for b in bad))
open(os.path.join(HERE, "..", "DESIGN.md"), "w").write(o)
