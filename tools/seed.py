#!/usr/bin/env python3
"""Seeded-bug experiments. Usage: seed.py mutants.json  (list of {def,file,old,new,edit,claim}).
Each mutant is applied to a scratch copy of /verif/lean in /tmp/seed, which is rebuilt; failing declarations and the
modules that could not be built are appended to /verif/seeded/LOG.jsonl."""
import json,sys,subprocess,re,os,glob
SRC='/verif/lean'; DST='/tmp/seed/lean'
os.makedirs('/tmp/seed',exist_ok=True)
def sync():
    keep=set()
    for f in glob.glob(SRC+'/Verif/**/*.lean',recursive=True)+[SRC+'/'+x for x in ('Verif.lean','lakefile.toml','lake-manifest.json')]:
        g=DST+f[len(SRC):]; keep.add(g); os.makedirs(os.path.dirname(g),exist_ok=True); t=open(f).read()
        if not os.path.exists(g) or open(g).read()!=t: open(g,'w').write(t)
    for g in glob.glob(DST+'/Verif/**/*.lean',recursive=True):
        if g not in keep: os.remove(g)
if not os.path.exists(DST+'/.lake'):
    os.makedirs(DST,exist_ok=True)
    subprocess.run(['cp','-a',SRC+'/.lake',DST+'/'],check=True)
sync()
# all property theorems per module, and module imports
def mods():
    d={}
    for f in glob.glob(DST+'/Verif/**/*.lean',recursive=True):
        m=f[len(DST)+1:-5].replace('/','.')
        d[m]=re.findall(r'^import (Verif\S*)',open(f).read(),re.M)
    return d
D=re.compile(r'^(?:private |noncomputable |protected |@\[[^\]]*\] )*(theorem|lemma|def|example|instance|structure)\s*([^\s:({\[]*)')
def declat(f,line):
    ls=open(f).read().split('\n'); 
    for i in range(min(line,len(ls))-1,-1,-1):
        m=D.match(ls[i])
        if m: return (m.group(2) or 'example@%d'%(i+1)), m.group(1)
    return '?','?'
for mu in json.load(open(sys.argv[1])):
    sync()
    p=DST+'/'+mu['file']; s=open(p).read()
    if s.count(mu['old'])!=1: print('BAD MUTANT',mu['def'],mu['edit'],s.count(mu['old'])); continue
    open(p,'w').write(s.replace(mu['old'],mu['new']))
    r=subprocess.run('lake build 2>&1',shell=True,cwd=DST,capture_output=True,text=True)
    errs=[]; modeltypeerr=False
    for m in re.finditer(r'^error: (Verif/\S+\.lean):(\d+):\d+',r.stdout,re.M):
        n,k=declat(DST+'/'+m.group(1),int(m.group(2)))
        x=m.group(1)[6:-5]+':'+n
        if x not in errs: errs.append(x)
        if m.group(1)==mu['file'] : modeltypeerr=True
    failed=set(re.findall(r'^- (Verif\S*)',r.stdout,re.M))
    ms=mods(); blocked=set(failed)
    ch=True
    while ch:
        ch=False
        for m,im in ms.items():
            if m not in blocked and any(i in blocked for i in im): blocked.add(m); ch=True
    claims=[]
    pr=[e.split(':')[1] for e in errs if e.startswith('Props')]
    for m in sorted(blocked):
        if m.startswith('Verif.Props') and m not in failed:
            claims+=re.findall(r'^theorem (C\d\d+_\w+)',open(DST+'/'+m.replace('.','/')+'.lean').read(),re.M)
    rec={"definition":mu['def'],"edit":mu['edit'],"claim":mu['claim'],"theorems_failed":pr+[e for e in errs if not e.startswith('Props')],
      "blocked_downstream":[c for c in claims if any(c.startswith(x) for x in mu['claim'].split(','))],"theorems_tightened":mu.get('tightened',[])}
    if mu.get('note'): rec['note']=mu['note']
    ok='CAUGHT' if (pr or claims) else ('MODELERR' if modeltypeerr else 'SURVIVED')
    print(ok,mu['claim'],mu['def'],'|',mu['edit'],'|',errs[:6],flush=True)
    if ok!='MODELERR': open('/verif/seeded/LOG.jsonl','a').write(json.dumps(rec,ensure_ascii=False)+'\n')
sync()
