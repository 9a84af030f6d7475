#!/usr/bin/env python3
"""Writes /verif/MANIFEST.json. `P`: property -> (status, theorems, note)."""
import json,re,glob,os
P={}
def c(pid,status,ths,note=""):
    P[pid]=(status,ths.split(),note)
exec(open(os.path.join(os.path.dirname(__file__),'claims.py')).read())
ids=[json.loads(l)['id'] for l in open('/verif/properties.jsonl')]
src=''.join(open(f).read() for f in glob.glob('/verif/lean/Verif/**/*.lean',recursive=True))
out=[]
for i in ids:
    if i not in P: print('missing',i); continue
    st,ths,note=P[i]
    for t in ths:
        if not re.search(r'theorem '+re.escape(t.split('.')[-1])+r'\b',src): print('no theorem',t)
    out.append({"property":i,"status":st,"theorems":ths,"note":note})
json.dump({"claims":out},open('/verif/MANIFEST.json','w'),indent=1)
