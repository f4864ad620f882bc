#!/usr/bin/env python3
"""Writes MANIFEST.json from the table below."""
import json, os
C = {}
def c(prop, status, theorems, note=""):
    C[prop] = dict(property=prop, status=status, theorems=["Riegeli.Props." + t for t in theorems], note=note)
exec(open(os.path.join(os.path.dirname(__file__), "claims.py")).read())
out = os.path.join(os.path.dirname(__file__), "..", "MANIFEST.json")
json.dump({"claims": [C[k] for k in sorted(C)]}, open(out, "w"), indent=1)
