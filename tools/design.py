#!/usr/bin/env python3
"""design.py row 'Cnnn | a | b' : append a row to the table of section 3;  design.py find 'text' : append a numbered finding to section 4"""
import sys,re,textwrap
p='/verif/DESIGN.md'; s=open(p).read()
if sys.argv[1]=='row':
    ls=s.split('\n'); k=max(i for i,l in enumerate(ls) if re.match(r'\| C\d+ \|',l)); ls.insert(k+1,'| '+sys.argv[2]+' |'); s='\n'.join(ls)
else:
    k=s.index('## 5. '); head=s[:k].rstrip('\n'); n=max(int(x) for x in re.findall(r'^(\d+)\. ',head[head.index('## 4'):],re.M))+1
    t=textwrap.fill(sys.argv[2],150,subsequent_indent='    ',break_long_words=False,break_on_hyphens=False)
    s=head+f'\n{n}. {t}\n\n'+s[k:]
open(p,'w').write(s)
