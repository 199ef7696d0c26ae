#!/usr/bin/env python3
"""Random token-level mutants of the cited model definitions.  automut.py gen SEED MAXLOG N OUT.json : at most N mutants, one per definition
with at most MAXLOG lines in seeded/LOG.jsonl.  automut.py run OUT.json LOGFILE : build each in /tmp/mut2; killed mutants are appended to
seeded/LOG.jsonl, mutants whose own definition does not typecheck are skipped, survivors are only printed (they are triaged by hand)."""
import json,sys,re,random,subprocess,os,time,glob
SRC='/verif/lean'; DST='/tmp/mut2'; LOG='/verif/seeded/LOG.jsonl'
def defs():
    for p in sorted(glob.glob(SRC+'/Verif/**/*.lean',recursive=True)):
        s=open(p).read(); rel=p[len(SRC+'/Verif/'):]
        for m in re.finditer(r'/--(.*?)-/\s*((?:open [^\n]*in\s*|@\[[^\]]*\]\s*)*(?:noncomputable |private |protected )*def (\S+))',s,re.S):
            if '-/' in m.group(1) or not re.search(r'\.py',m.group(1)): continue
            st=m.start(2); nx=re.search(r'\n(?:\n|/--|theorem|def|noncomputable def|end |example|lemma)',s[m.end():])
            en=m.end()+(nx.start() if nx else len(s)-m.end())
            yield rel,m.group(3),st,en,s
OPS=[(r' < ',' ≤ '),(r' ≤ ',' < '),(r' \+ ',' - '),(r' - ',' + '),(r' \* ',' + '),(r' / ',' * '),(r' && ',' || '),(r' ∧ ',' ∨ '),(r' ∨ ',' ∧ '),(r'\btrue\b','false'),(r'\bfalse\b','true'),
 (r'\.take\b','.drop'),(r'\.drop\b','.take'),(r'\bmax\b','min'),(r'\bmin\b','max'),(r'\.re\b','.im'),(r'\.im\b','.re'),(r'(?<![\w.])0(?![\w.])','1'),(r'(?<![\w.])1(?![\w.])','0'),(r'(?<![\w.])1(?![\w.])','2'),(r'(?<![\w.])2(?![\w.])','1'),(r'(?<![\w.])2(?![\w.])','3'),
 (r'\.1\b(?!\.)','.2'),(r'\.2\b(?!\.)','.1'),(r' \+\+ ',None),(r' = ',' ≠ '),(r' ≠ ',' = '),(r'\(starRingEnd \w+\) ',''),(r'\bconj ',''),(r'\.reverse\b',''),(r'(?<=[(= ,])-(?=[\w(])',''),(r'if (?P<a>[^\n]{1,60}?) then ','IFNOT'),(r'"(\w+)"','STR'),(r' % ',' / '),(r'\.head\?','.getLast?'),(r'\.getLast\?','.head?')]
def gen(seed,maxlog,n,out):
    random.seed(seed); cnt={}; seen=set()
    for l in open(LOG):
        d=json.loads(l); k=d['definition']; cnt[k]=cnt.get(k,0)+1; seen.add((k,d['edit']))
    res=[]
    for rel,name,st,en,s in defs():
        key=rel[:-5].replace('/','.')+'.'+name
        if cnt.get(key,0)>maxlog: continue
        txt=s[st:en]; b=txt.find(':='); mm=re.search(r'\n\s*\| ',txt)
        b0=min([x for x in (b,mm.start() if mm else -1) if x>=0],default=-1)
        if b0<0: continue
        c=[]
        for pat,new in OPS:
            for m in re.finditer(pat,txt):
                if m.start()<b0: continue
                nw=new
                if new=='IFNOT': nw=f"if ¬ ({m.group('a')}) then "
                elif new=='STR': nw='"x'+m.group(1)+'"'
                elif new is None: continue
                a=max(0,m.start()-18); z=min(len(txt),m.end()+18)
                ctx=txt[a:m.start()]+'['+m.group(0)+' => '+nw+']'+txt[m.end():z]
                c.append((st+m.start(),st+m.end(),nw,' '.join(ctx.split())))
        c=[x for x in c if (key,'token: '+x[3]) not in seen]
        if c:
            x=random.choice(c); res.append(dict(file=rel,name=name,key=key,a=x[0],b=x[1],new=x[2],edit='token: '+x[3]))
    random.shuffle(res); res=res[:n]; json.dump(res,open(out,'w'),ensure_ascii=False,indent=0); print(len(res))
def props():
    d={}
    return d
def run(inp,logf):
    sys.path.insert(0,'/verif/tools')
    subprocess.check_call(f"mkdir -p {DST} && cd {SRC} && cp Verif.lean lakefile.toml lean-toolchain {DST}/ 2>/dev/null; cp {SRC}/lake-manifest.json {DST}/ 2>/dev/null; rm -rf {DST}/Verif && cp -rp {SRC}/Verif {DST}/; [ -d {DST}/.lake ] || cp -rp {SRC}/.lake {DST}/.lake",shell=True)
    man=json.load(open('/verif/MANIFEST.json'))['claims']
    th2p={}
    for c in man:
        for t in c['theorems']: th2p.setdefault(t.split('.')[-1],[]).append(c['property'])
    lg=open(logf,'a')
    for i,m in enumerate(json.load(open(inp))):
        f=f"{DST}/Verif/{m['file']}"; s=open(f).read()
        mut=s[:m['a']]+m['new']+s[m['b']:]
        open(f,'w').write(mut); t=time.time()
        try:
            p=subprocess.run(['lake','build'],cwd=DST,capture_output=True,text=True,timeout=1500); out=p.stdout+p.stderr; rc=p.returncode
        except subprocess.TimeoutExpired: out='TIMEOUT'; rc=-1
        open(f,'w').write(s)
        th=[];own=False
        for e in re.finditer(r'error: (Verif/\S+?\.lean):(\d+):',out):
            fn=f"{DST}/{e.group(1)}"; ls=(mut if fn==f else open(fn).read()).split('\n'); nm=None
            for j in range(min(int(e.group(2)),len(ls))-1,-1,-1):
                q=re.match(r'\s*(?:@\[[^\]]*\]\s*)?(?:private |noncomputable |protected )*(theorem|lemma|def|example|instance|abbrev)\s*(\S+)?',ls[j])
                if q: nm=q.group(2) if q.group(1) not in('example','instance') else q.group(1); kind=q.group(1); break
            if fn==f and nm==m['name'] and kind=='def': own=True
            x=f"{e.group(1)[6:-5].replace('/','.')}:{nm}"
            if x not in th: th.append(x)
        st='SURVIVED' if rc==0 else 'TYPE' if own else 'TIMEOUT' if rc==-1 else 'killed' if th else 'ODD'
        print(i,st,m['key'],'|',m['edit'],'|',th[:5],f'{time.time()-t:.0f}s',file=lg,flush=True)
        if st=='killed':
            ps=sorted({p for x in th for p in th2p.get(x.split(':')[-1],[])})
            rec={"definition":m['key'],"edit":m['edit'],"breaks":("claims "+', '.join(ps)) if ps else "the claims proved from the lemmas that fail","result":"killed","theorems_failed":th,"theorems_tightened":[]}
            with open(LOG,'a') as g: g.write(json.dumps(rec,ensure_ascii=False)+'\n')
if sys.argv[1]=='gen': gen(int(sys.argv[2]),int(sys.argv[3]),int(sys.argv[4]),sys.argv[5])
else: run(sys.argv[2],sys.argv[3])
