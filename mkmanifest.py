#!/usr/bin/env python3
"""Regenerate MANIFEST.json from the theorem names in lean/Verif/Props and the notes below."""
import re,glob,json,os
os.chdir(os.path.dirname(os.path.abspath(__file__)))
notes=json.load(open('manifest_notes.json'))
thms={}
for f in sorted(glob.glob('lean/Verif/Props/*.lean')):
    ns=[]
    for line in open(f):
        m=re.match(r'namespace (\S+)',line)
        if m: ns.append(m.group(1))
        m=re.match(r'end (\S+)',line)
        if m and ns and ns[-1]==m.group(1): ns.pop()
        m=re.match(r'(?:@\[[^\]]*\] )?theorem (C\d\d)_(\S+)',line)
        if m:
            thms.setdefault(m.group(1),[]).append('.'.join(ns+[m.group(1)+'_'+m.group(2)]))
ids=[json.loads(l)['id'] for l in open('properties.jsonl') if l.strip()]
claims=[]
for i in ids:
    n=notes.get(i,{})
    t=thms.get(i,[])
    st=n.get('status') or ('proved' if t else None)
    if st is None: continue
    claims.append({"property":i,"status":st,"theorems":t,"note":n.get('note','')})
json.dump({"claims":claims},open('MANIFEST.json','w'),indent=1)
print(len(claims),"claims;", "missing:",[i for i in ids if i not in [c['property'] for c in claims]])
