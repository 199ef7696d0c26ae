#!/usr/bin/env python3
"""List the functions of /repo/src that no citation in the Lean modules touches (definition body lines)."""
import ast,glob,os,re
cited={}
for lf in glob.glob('/verif/lean/Verif/**/*.lean',recursive=True):
    s=open(lf).read()
    for m in re.finditer(r'(\w+\.pyx?):((?:\d+(?:-\d+)?(?:, ?(?=\d))?)+)',s):
        for r in re.findall(r'(\d+)(?:-(\d+))?',m.group(2)):
            cited.setdefault(m.group(1),set()).update(range(int(r[0]),int(r[1] or r[0])+1))
tot=cov=0
for f in sorted(glob.glob('/repo/src/**/*.py',recursive=True)):
    b=os.path.basename(f)
    try: t=ast.parse(open(f).read())
    except Exception as e: print('PARSE',f,e); continue
    miss=[]
    def walk(n,pre=''):
        global tot,cov
        for c in ast.iter_child_nodes(n):
            if isinstance(c,ast.ClassDef): walk(c,c.name+'.')
            elif isinstance(c,ast.FunctionDef):
                body=set(range(c.lineno,c.end_lineno+1)); k=len(body); tot+=k
                if body & cited.get(b,set()): cov+=k
                else: miss.append(f'{pre}{c.name}({c.lineno}-{c.end_lineno})')
    walk(t)
    if miss: print(f[10:],' '.join(miss)); print()
print(cov,tot)
