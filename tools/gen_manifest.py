#!/usr/bin/env python3
"""Writes MANIFEST.json.  Every property has one entry; theorem names are fully qualified."""
import json, os, re, sys
root = os.path.dirname(os.path.dirname(os.path.abspath(__file__)))
props = [json.loads(l) for l in open(os.path.join(root, "properties.jsonl"))]
claims = {}
def c(pid, status, theorems, note):
    claims[pid] = {"property": pid, "status": status, "theorems": theorems.split(), "note": note}

exec(open(os.path.join(root, "tools", "claims.py")).read())

# sanity: every listed theorem exists in a property file
src = ""
for d, _, fs in os.walk(os.path.join(root, "lean", "Verif")):
    for f in fs:
        if f.endswith(".lean"):
            src += open(os.path.join(d, f)).read()
for cl in claims.values():
    for t in cl["theorems"]:
        if not re.search(r"theorem " + re.escape(t.split(".")[-1]) + r"\b", src):
            sys.exit(f"missing theorem {t}")
ids = [p["id"] for p in props]
out = [claims.get(i, {"property": i, "status": "partial", "theorems": [],
       "note": "Not yet modelled."}) for i in ids]
json.dump({"claims": out}, open(os.path.join(root, "MANIFEST.json"), "w"), indent=1, ensure_ascii=False)
print(len(out), "claims,", sum(bool(x["theorems"]) for x in out), "with theorems")
