#!/usr/bin/env python3
"""Writes MANIFEST.json from tools/claims.json (property -> [status, theorems, note]); properties that are not
listed there are reported as partial with no theorem."""
import json
claims = json.load(open('/verif/tools/claims.json'))
out = []
for l in open('/verif/properties.jsonl'):
    p = json.loads(l)['id']
    if p in claims:
        s, t, n = claims[p]
        out.append(dict(property=p, status=s, theorems=t, note=n))
    else:
        out.append(dict(property=p, status='partial', theorems=[], note='not yet modelled'))
json.dump(dict(claims=out), open('/verif/MANIFEST.json', 'w'), indent=1)
