#!/usr/bin/env python3
"""append properties to properties.jsonl: reads JSON lines on stdin, replaces by id"""
import json,sys,collections
p='/verif/properties.jsonl'
d=collections.OrderedDict((json.loads(l)['id'],json.loads(l)) for l in open(p))
for l in sys.stdin:
    if l.strip():
        o=json.loads(l)
        for k in ('id','title','statement','quantifier','why_tests_cant','anchors'): assert k in o,(o,k)
        d[o['id']]=o
open(p,'w').write(''.join(json.dumps(v)+'\n' for v in d.values()))
