#!/usr/bin/env python3
"""Seeded-bug testing. Usage: mutate.py MUTFILE
MUTFILE is Python: m(file, old, new, claim, what). Each edit is made in a scratch copy
(/tmp/mut), which is rebuilt. Results are appended to /verif/seeded/LOG.jsonl."""
import json, os, re, subprocess, sys
SRC='/verif/lean'; DST='/tmp/mut/lean'
muts=[]
def m(file, old, new, claim, what): muts.append((file,old,new,claim,what))
exec(open(sys.argv[1]).read())
dry = '--dry' in sys.argv
only = [int(x) for x in sys.argv[2:] if x.isdigit()]

def sh(cmd, cwd): return subprocess.run(cmd, cwd=cwd, shell=True, capture_output=True, text=True)
os.makedirs('/tmp/mut', exist_ok=True)
sh(f'rsync -a --delete {SRC}/ {DST}/' if os.path.exists('/usr/bin/rsync') else f'rm -rf {DST}; cp -a {SRC} {DST}', '/')

def decl_at(path, line):
    ns=[]; cur='?'; curkind='?'; pub=False
    for i,l in enumerate(open(path),1):
        if i>line: break
        a=re.match(r'namespace (\S+)',l)
        if a: ns.append(a.group(1)); continue
        a=re.match(r'end (\S+)',l)
        if a and ns and ns[-1]==a.group(1): ns.pop(); continue
        a=re.match(r'(?:@\[[^\]]*\]\s*)?(?:private |protected |noncomputable )*(theorem|lemma|def|abbrev|inductive|structure|instance|example)\b\s*(\S*)',l)
        if a:
            k,n=a.groups()
            cur='example' if k=='example' else '.'.join(ns+[n]); 
            if k=='example': cur=f'example {os.path.relpath(path,DST)}:{i}'
    return cur

# dependency closure of manifest theorems, on the unmodified tree
deps_file='/tmp/mut/deps.json'
man=json.load(open('/verif/MANIFEST.json'))
thms=sorted({t for c in man['claims'] for t in c['theorems']})
head=sh('git rev-parse HEAD; git status --short lean | md5sum', '/verif').stdout
cache=json.load(open(deps_file)) if os.path.exists(deps_file) else {}
if cache.get('head')!=head:
    script='''import Lean
import Verif
open Lean
partial def clo (env : Environment) (todo : List Name) (seen : NameSet) : NameSet :=
  match todo with
  | [] => seen
  | n :: rest =>
    if seen.contains n then clo env rest seen else
    if !(`Verif).isPrefixOf n && !("_private.Verif".isPrefixOf n.toString) then clo env rest seen else
    match env.find? n with
    | none => clo env rest seen
    | some ci =>
      let cs := ci.type.getUsedConstants.toList ++ (match ci.value? (allowOpaque := true) with | some v => v.getUsedConstants.toList | none => [])
      clo env (cs ++ rest) (seen.insert n)
run_cmd do
  let env ← getEnv
  for t in [%s] do
    let s := clo env [t] {}
    IO.println s!"DEP {t} {s.toList}"
''' % ','.join('`'+t for t in thms)
    open('/tmp/mut/deps.lean','w').write(script)
    r=sh('lake env lean /tmp/mut/deps.lean', SRC)
    d={}
    for l in r.stdout.splitlines():
        if l.startswith('DEP '):
            _,t,rest=l.split(' ',2)
            d[t]=[x.strip() for x in rest.strip('[]').split(',')]
    if not d: print(r.stdout[:2000], r.stderr[:2000]); sys.exit(1)
    cache={'head':head,'deps':d}; json.dump(cache,open(deps_file,'w'))
deps=cache['deps']

for idx,(file,old,new,claim,what) in enumerate(muts):
    if only and idx not in only: continue
    p=f'{DST}/Verif/{file}'
    s=open(f'{SRC}/Verif/{file}').read()
    if s.count(old)!=1: print(idx,'BAD MATCH',s.count(old),repr(old)); continue
    open(p,'w').write(s.replace(old,new))
    # the edited definition
    line=s[:s.index(old)].count('\n')+1
    d=decl_at(f'{SRC}/Verif/{file}', line)
    r=sh('timeout 3000 lake build 2>&1', DST)
    errs=re.findall(r'error: (Verif/\S+?\.lean):(\d+):\d+',r.stdout)
    failed=[]
    for f,l in errs:
        n=decl_at(f'{DST}/{f}',int(l))
        if n not in failed: failed.append(n)
    props=sorted(t for t in thms if any(n in deps.get(t,[]) for n in failed) )
    self_err = d in failed
    open(p,'w').write(s)
    st='SURVIVED' if not errs else ('SELF-ERROR' if self_err else ('only-examples' if not props and all(x.startswith('example') for x in failed) else 'killed'))
    print(idx,claim,st,d,'|',what,'| first:',failed[:4],'| props:',len(props),props[:4],flush=True)
    if not dry and st in('killed','only-examples','SURVIVED'):
        rec={"definition":d,"file":file,"edit":f"{old!r} -> {new!r}","what":what,"claim":claim,"failed":props,"failed_first":failed[:6],"tightened":[],"result":"killed" if st=='killed' else st}
        open('/verif/seeded/LOG.jsonl','a').write(json.dumps(rec)+'\n')
