#!/usr/bin/env python3
"""claim.py ID status ns 'thm thm …' [note]: update tools/claims.json and MANIFEST.json"""
import json,sys,subprocess
p='/verif/tools/claims.json'
c=json.load(open(p))
i,st,ns,th=sys.argv[1:5]; note=sys.argv[5] if len(sys.argv)>5 else ''
c[i]=[st,[t if '.' in t else ns+'.'+t for t in th.split()],note]
json.dump(dict(sorted(c.items())),open(p,'w'),indent=1)
subprocess.check_call(['python3','/verif/tools/manifest.py'])
