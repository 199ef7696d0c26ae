#!/usr/bin/env python3
"""List the citations of the given Lean modules (regex) together with the first and last cited source line."""
import re,glob,sys,os
src={os.path.basename(f):open(f).read().split('\n') for f in glob.glob('/repo/src/**/*.py*',recursive=True) if f.endswith(('.py','.pyx'))}
for lf in sorted(glob.glob('/verif/lean/Verif/**/*.lean',recursive=True)):
    if not re.search(sys.argv[1],lf): continue
    s=open(lf).read()
    for m in re.finditer(r'/--(.*?)-/\s*(.*)',s,re.S):
        pass
    for m in re.finditer(r'(\w+\.pyx?):((?:\d+(?:-\d+)?(?:, ?(?=\d))?)+)',s):
        f,rs=m.groups(); line=s[:m.start()].count('\n')+1
        if f not in src: print(lf[18:],line,'NOFILE',f); continue
        for r in re.findall(r'(\d+)(?:-(\d+))?',rs):
            a=int(r[0]); b=int(r[1] or r[0])
            if b>len(src[f]): print('RANGE',lf[18:],line,f,a,b); continue
            print(f'{lf[18:]}:{line} {f}:{a}-{b} | {src[f][a-1].strip()[:60]} ... {src[f][b-1].strip()[:50]} || {s[m.end():m.end()+70].strip()!r}')
