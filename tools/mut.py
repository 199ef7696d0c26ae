#!/usr/bin/env python3
"""Mutation tests.  mut.py FILE.json : FILE is a JSON list of {file, def, old, new, edit, breaks, [expect]}.
Each edit is applied to a scratch copy (/tmp/mut) of the Lean project, the project is rebuilt and one JSON line is
appended to /verif/seeded/LOG.jsonl.  A mutant that still builds is reported as SURVIVED."""
import json,sys,subprocess,re,shutil,os,time
SRC='/verif/lean'; DST='/tmp/mut'; LOG='/verif/seeded/LOG.jsonl'
def thm_at(path,line):
    ls=open(path).read().split('\n'); name=None
    for i in range(min(line,len(ls))-1,-1,-1):
        m=re.match(r'\s*(?:@\[[^\]]*\]\s*)?(?:private |noncomputable |protected )*(theorem|lemma|def|example|instance|abbrev)\s*(\S+)?',ls[i])
        if m:
            name=(m.group(2) if m.group(1) not in('example','instance') else m.group(1)); 
            break
    return name
def run():
    p=subprocess.run(['lake','build'],cwd=DST,capture_output=True,text=True,timeout=1800)
    out=p.stdout+p.stderr
    th=[]
    for m in re.finditer(r'error: (Verif/\S+?\.lean):(\d+):',out):
        n=thm_at(f'{DST}/{m.group(1)}',int(m.group(2)))
        q=f"{m.group(1)[6:-5].replace('/','.')}:{n}"
        if q not in th: th.append(q)
    return p.returncode,th,out
subprocess.check_call(['rsync','-a','--delete','--exclude','.lake',SRC+'/',DST+'/']) if shutil.which('rsync') else subprocess.check_call(f"cd {SRC} && cp Verif.lean {DST}/ && rm -rf {DST}/Verif && cp -rp Verif {DST}/",shell=True)
muts=json.load(open(sys.argv[1]))
for i,m in enumerate(muts):
    f=f"{DST}/Verif/{m['file']}"; s=open(f).read()
    if s.count(m['old'])<1: print('NOT FOUND',i,m['old'][:60]); continue
    cm=[(c.start(),c.end()) for c in re.finditer(r'/-.*?-/',s,re.S)]
    pos=[c.start() for c in re.finditer(re.escape(m['old']),s) if not any(a<=c.start()<b for a,b in cm)]
    if not pos: print('ONLY IN COMMENT',i); continue
    ds=re.search(r'\bdef '+re.escape(m['def'])+r'(?![\w.])',s)
    if 'nth' not in m and ds:
        after=[p for p in pos if p>=ds.start()]
        pos=after or pos
    k=pos[m.get('nth',0)]
    open(f,'w').write(s[:k]+m['new']+s[k+len(m['old']):])
    t=time.time(); rc,th,out=run()
    open(f,'w').write(s)
    inmodel=[x for x in th if '.Model:' in x or 'Py:' in x[:4]]
    st='SURVIVED' if rc==0 else ('MODEL-ERROR' if inmodel and len(inmodel)==len(th) and m['file'].endswith('Model.lean') else 'killed')
    print(i,st,m['file'],m['def'],'|',m['edit'],'|',th[:6],f'{time.time()-t:.0f}s',flush=True)
    if st=='MODEL-ERROR': print(out[-1500:]); continue
    rec={"definition":m['file'][:-5].replace('/','.')+'.'+m['def'],"edit":m['edit'],"breaks":m['breaks'],"result":st.lower(),"theorems_failed":th,"theorems_tightened":m.get('tightened',[])}
    if m.get('note'): rec['note']=m['note']
    with open(LOG,'a') as g: g.write(json.dumps(rec,ensure_ascii=False)+'\n')
