#!/usr/bin/env python3
"""Writes MANIFEST.json. Checks that every named theorem exists in lean/Verif."""
import json, os, re, sys
root = os.path.dirname(os.path.dirname(os.path.abspath(__file__)))
claims = json.load(open(os.path.join(root, "tools", "claims.json")))
names = set()
for d, _, fs in os.walk(os.path.join(root, "lean", "Verif")):
    for f in fs:
        if f.endswith(".lean"):
            for m in re.finditer(r"^\s*(?:@\[[^\]]*\]\s*)?(?:protected\s+)?theorem\s+(\S+)", open(os.path.join(d, f)).read(), re.M):
                names.add(m.group(1))
bad = [(c["property"], t) for c in claims for t in c["theorems"] if t.split("LPG.")[-1] not in names]
if bad:
    print("missing theorems:", bad); sys.exit(1)
json.dump({"claims": claims}, open(os.path.join(root, "MANIFEST.json"), "w"), indent=1)
print(len(claims), "claims")
