#!/usr/bin/env python3
"""Check citations 'file.py:a-b ... `name`' in the Lean comments against /repo: the cited lines must lie inside (or contain) the
definition called `name`."""
import ast,re,glob,sys,os
defs={}
for f in glob.glob('/repo/src/**/*.py',recursive=True):
    try: t=ast.parse(open(f).read())
    except Exception as e: continue
    for n in ast.walk(t):
        if isinstance(n,(ast.FunctionDef,ast.ClassDef)):
            a=min([n.lineno]+[d.lineno for d in n.decorator_list])
            defs.setdefault(os.path.basename(f),{}).setdefault(n.name,[]).append((a,n.end_lineno))
bad=0
for lf in sorted(glob.glob('/verif/lean/Verif/**/*.lean',recursive=True)):
    s=open(lf).read()
    for m in re.finditer(r'/--(.*?)-/',s,re.S):
        c=m.group(1)
        line=s[:m.start()].count('\n')+1
        for q in re.finditer(r'(\w+\.py):((?:\d+(?:-\d+)?(?:, ?)?)+)(?:[^`\n]{0,30})`([A-Za-z_][\w\.]*)',c):
            f,rs,name=q.groups(); name=name.split('.')[-1]
            if f not in defs: print(lf,line,'no file',f); bad+=1; continue
            if name not in defs[f]: continue
            ok=False; got=[]
            for r in re.findall(r'(\d+)(?:-(\d+))?',rs):
                a=int(r[0]); b=int(r[1] or r[0]); got.append((a,b))
                for (x,y) in defs[f][name]:
                    if a>=x-1 and b<=y+1 or (a<=x and b>=y): ok=True
            if not ok: bad+=1; print(f'{lf[18:]}:{line} {f}:{rs} `{name}` is {defs[f][name]}')
print('bad',bad)
