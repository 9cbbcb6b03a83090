#!/usr/bin/env python3
"""Seed one bug at a time into a scratch copy of the Lean model and rebuild.
usage: mutate.py mutants.py [start]   (mutants.py defines M = [(file, def, old, new, prop, claim), ...])
Appends one JSON line per attempt to LOG (default /verif/seeded/LOG.jsonl)."""
import subprocess, json, re, sys, os, shutil, glob
SRC='/verif/lean'; DST='/tmp/mut'
LOG=os.environ.get('MLOG','/verif/seeded/LOG.jsonl')
env=dict(os.environ, PATH='/app/lean4-4.33.0/build/release/stage1/bin:'+os.environ['PATH'])
ns={}; exec(open(sys.argv[1]).read(), ns)
def sync():
    for f in glob.glob(SRC+'/**/*.lean', recursive=True):
        if '/.lake/' in f: continue
        g=DST+f[len(SRC):]
        os.makedirs(os.path.dirname(g),exist_ok=True)
        s=open(f).read()
        if not os.path.exists(g) or open(g).read()!=s: open(g,'w').write(s)
def build(tgt):
    r=subprocess.run(['lake','build']+tgt,cwd=DST,env=env,capture_output=True,text=True,timeout=9000)
    return r.stdout+r.stderr, r.returncode
sync()
out,rc=build([]); assert rc==0, out[-3000:]
def thm_at(path,line):
    ls=open(DST+'/'+path).read().split('\n')
    for k in range(min(line,len(ls))-1,-1,-1):
        m=re.match(r'\s*(?:@\[.*\]\s*)?(?:private |protected )?(?:theorem|lemma|def|abbrev|instance)\s+(\S+)',ls[k])
        if m: return m.group(1)
        if re.match(r'example\b',ls[k]): return 'example@%s:%d'%(os.path.basename(path),k+1)
    return '?'
start=int(sys.argv[2]) if len(sys.argv)>2 else 0
surv=[]
for idx,(file,dfn,old,new,prop,claim) in enumerate(ns['M']):
    if idx<start: continue
    p=DST+'/Verif/Model/'+file+'.lean'
    src=open(p).read()
    if src.count(old)<1: print(idx,'NOT FOUND',dfn,old); continue
    # mutate inside the def if ambiguous
    pos=src.find(old, src.find(dfn) if src.count(old)>1 else 0)
    open(p,'w').write(src[:pos]+new+src[pos+len(old):])
    try: out,rc=build([])
    except subprocess.TimeoutExpired:
        open(p,'w').write(src); print(idx,'TIMEOUT',dfn,flush=True); continue
    if rc!=0 and 'error: Verif/' not in out:
        open(p,'w').write(src); print(idx,'BROKEN BUILD',dfn,out[-300:],flush=True); continue
    fails=[]
    for m in re.finditer(r'error: (Verif/\S+?\.lean):(\d+):\d+',out):
        t=thm_at(m.group(1),int(m.group(2)))
        if t not in fails: fails.append(t)
    mods=sorted(set(re.findall(r'^- (Verif\.\S+)',out,re.M)))
    open(p,'w').write(src)
    thms=[f for f in fails if not f.startswith('example')]
    exs=[f for f in fails if f.startswith('example')]
    rec=dict(definition=dfn,file='Verif/Model/%s.lean'%file,edit='%s  ==>  %s'%(old,new),breaks=prop+': '+claim,
             failed=thms,failed_examples=exs,failed_modules=mods,tightened=[])
    open(LOG,'a').write(json.dumps(rec,ensure_ascii=False)+'\n')
    tag='ok' if any(re.match(prop,f) for f in thms) else ('lemma' if thms else ('EXAMPLE ONLY' if exs else 'SURVIVED'))
    print(idx,tag,prop,dfn,'|',thms[:5],exs[:2],flush=True)
