#!/usr/bin/env python3
"""Automatic mutation testing of the models.  Usage: automutate.py OUT.jsonl PER_FILE SEED [Model files...]
Random token-level edits of the definitions in lean/Verif/Model are applied one at a time to a scratch copy, which is
rebuilt until the first failing declaration.  A mutant that survives a full build is printed and recorded in OUT.jsonl."""
import json,sys,subprocess,re,os,glob,random
SRC='/verif/lean'; DST='/tmp/amut/lean'
out,per,seed=sys.argv[1],int(sys.argv[2]),int(sys.argv[3]); only=sys.argv[4:]
random.seed(seed)
os.makedirs(DST,exist_ok=True)
def sync():
    keep=set()
    for f in glob.glob(SRC+'/Verif/**/*.lean',recursive=True)+[SRC+'/'+x for x in ('Verif.lean','lakefile.toml','lake-manifest.json')]:
        g=DST+f[len(SRC):]; keep.add(g); os.makedirs(os.path.dirname(g),exist_ok=True); t=open(f).read()
        if not os.path.exists(g) or open(g).read()!=t: open(g,'w').write(t)
    for g in glob.glob(DST+'/Verif/**/*.lean',recursive=True):
        if g not in keep: os.remove(g)
if not os.path.exists(DST+'/.lake'):
    subprocess.run(['cp','-a',SRC+'/.lake',DST+'/'],check=True)
OPS=[(r' < ',' ≤ '),(r' ≤ ',' < '),(r' \+ ',' - '),(r' - ',' + '),(r'\b0\b','1'),(r'\b1\b','0'),(r'\b1\b','2'),(r'\b2\b','3'),(r' \* ',' + '),
 (r' ∧ ',' ∨ '),(r' ∨ ',' ∧ '),(r' ≠ ',' = '),(r' ≥ ',' > '),(r' > ',' ≥ '),(r'\.reverse\b',''),(r'\bmin\b','max'),(r'\bmax\b','min'),
 (r'\btake\b','drop'),(r'\bdrop\b','take'),(r'\.valueError\b','.typeError'),(r'\.indexError\b','.valueError'),(r' % ',' / '),(r' / ',' * '),
 (r' \^\^\^ ',' ||| '),(r'\btrue\b','false'),(r'\bfalse\b','true'),(r'if ([^\n]*?) then',r'if ¬ (\1) then'),(r' \+ 1\b',''),(r' - 1\b',''),
 (r'-1\b','1'),(r'\bReal\.pi\b','(2 * Real.pi)'),(r'\.2\b','.1'),(r'\.1\b','.2'),(r'\bi\b','j'),(r'\bj\b','i'),(r'some ','(fun _ => none) ')]
D=re.compile(r'^(?:private |noncomputable |protected |@\[[^\]]*\] )*(theorem|lemma|def|abbrev|example|instance|structure|inductive)\s*([^\s:({\[]*)')
def declat(s,line):
    ls=s.split('\n')
    for i in range(min(line,len(ls))-1,-1,-1):
        m=D.match(ls[i])
        if m: return m.group(2) or 'example@%d'%(i+1), m.group(1)
    return '?','?'
def code_mask(s):
    m=[True]*len(s)
    for c in re.finditer(r'/-.*?-/|--[^\n]*|"[^"\n]*"',s,re.S):
        for i in range(*c.span()): m[i]=False
    for c in re.finditer(r'^(import|namespace|open|end)[^\n]*',s,re.M):
        for i in range(*c.span()): m[i]=False
    return m
files=only or sorted(glob.glob(SRC+'/Verif/Model/*.lean'))
jobs=[]
for f in files:
    s=open(f).read(); mk=code_mask(s); c=[]
    for a,b in OPS:
        for m in re.finditer(a,s):
            if not all(mk[i] for i in range(*m.span())): continue
            c.append((m.start(),m.end(),m.expand(b) if '\\' in b else b,a,b))
    random.shuffle(c)
    jobs+=[(f,)+x for x in c[:per]]
done=0
for f,st,en,new,a,b in jobs:
    sync(); s=open(f).read(); t=s[:st]+new+s[en:]
    g=DST+f[len(SRC):]; open(g,'w').write(t)
    line=s.count('\n',0,st)+1; name=declat(s,line)[0]; rel=f[len(SRC)+1:]
    p=subprocess.Popen('exec lake build',shell=True,cwd=DST,stdout=subprocess.PIPE,stderr=subprocess.STDOUT,text=True,start_new_session=True)
    err=None
    for l in p.stdout:
        m=re.match(r'error: (Verif/\S+\.lean):(\d+):\d+',l)
        if m: err=(m.group(1),int(m.group(2))); break
        if l.startswith('error:') : err=(l.strip(),0); break
    if err:
        import signal
        try: os.killpg(p.pid,signal.SIGKILL)
        except Exception: pass
    p.wait()
    old=s.split('\n')[line-1].strip(); newl=t.split('\n')[line-1].strip()
    if err and err[1]: where=err[0]+':'+declat(open(DST+'/'+err[0]).read(),err[1])[0]
    else: where=err and err[0]
    st_='SURVIVED' if not err else ('INVALID' if err[0]==rel else 'CAUGHT')
    rec={"status":st_,"file":rel,"definition":name,"line":line,"old":old,"new":newl,"caught_at":where}
    open(out,'a').write(json.dumps(rec,ensure_ascii=False)+'\n')
    done+=1
    if st_=='SURVIVED': print(json.dumps(rec,ensure_ascii=False),flush=True)
print('done',done,flush=True)
