#!/usr/bin/env python3
"""Writes MANIFEST.json from the table below."""
import json, os
ROOT = os.path.dirname(os.path.dirname(os.path.abspath(__file__)))
claims = []
def c(prop, status, theorems, note=""):
    claims.append({"property": prop, "status": status,
                   "theorems": ["Verif.Props." + t for t in theorems.split()], "note": note})
exec(open(os.path.join(ROOT, "tools", "claims.py")).read())
claims.sort(key=lambda x: x["property"])
with open(os.path.join(ROOT, "MANIFEST.json"), "w") as f:
    json.dump({"claims": claims}, f, indent=1, ensure_ascii=False)
    f.write("\n")
