#!/usr/bin/env python3
"""Regenerates /verif/MANIFEST.json."""
import json
P = "Verif.Props."
claims = []
def c(pid, status, theorems, note):
    claims.append({"property": pid, "status": status, "theorems": [P + t for t in theorems], "note": note})
exec(open('/verif/tools/claims.py').read())
json.dump({"claims": claims}, open('/verif/MANIFEST.json', 'w'), indent=1)
