#!/usr/bin/env python3
"""Writes MANIFEST.json from the claims below."""
import json, os
C = []
def c(prop, status, theorems, note=""):
    C.append({"property": prop, "status": status, "theorems": theorems.split(), "note": note})
exec(open(os.path.join(os.path.dirname(__file__), "claims.py")).read())
ids = [json.loads(l)["id"] for l in open(os.path.join(os.path.dirname(__file__), "..", "properties.jsonl"))]
for x in C: assert x["property"] in ids, x["property"]
done = {x["property"] for x in C}
missing = [i for i in ids if i not in done]
C.sort(key=lambda x: int(x["property"][1:]))
json.dump({"claims": C}, open(os.path.join(os.path.dirname(__file__), "..", "MANIFEST.json"), "w"), indent=1)
print(len(C), "claims; missing:", " ".join(missing))
