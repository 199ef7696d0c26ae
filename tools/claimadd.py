#!/usr/bin/env python3
"""claimadd.py ID NS 'thm thm …' : append theorems to an existing claim"""
import json,sys,subprocess
p='/verif/tools/claims.json'; d=json.load(open(p))
i,ns,t=sys.argv[1:4]
for x in t.split():
    q=f'{ns}.{x}'
    if q not in d[i][1]: d[i][1].append(q)
json.dump(d,open(p,'w'),indent=1)
subprocess.check_call(['python3','/verif/tools/manifest.py'])
