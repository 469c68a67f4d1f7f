#!/usr/bin/env python3
"""Generates lean/Verif/Designs/*.lean from the design files in /repo/commpy/channelcoding/designs/ldpc: the characters of the file (small files),
the columns of each check (sorted, from 0), and a certificate that the last columns are invertible (see Lemmas/RowSpan)."""
import sys,os
ROOT='/repo/commpy/channelcoding/designs/ldpc/'
OUT=os.path.join(os.path.dirname(os.path.abspath(__file__)),'../lean/Verif/Designs/')
def read(f):
    t=open(ROOT+f).read(); L=t.split('\n'); n,m=map(int,L[0].split())
    C=[sorted(int(x)-1 for x in L[4+n+i].split() if int(x)>0) for i in range(m)]
    V=[sorted(int(x)-1 for x in L[4+i].split() if int(x)>0) for i in range(n)]
    assert V==[[i for i in range(m) if v in C[i]] for v in range(n)]
    return t,n,m,C
def cert_mod2(n,m,C):
    off=n-m
    R=[[sum(1<<(j-off) for j in c if j>=off),1<<i] for i,c in enumerate(C)]
    piv=[]
    for j in range(m):
        p=next(i for i in range(m) if i not in piv and R[i][0]>>j&1); piv.append(p)
        for i in range(m):
            if i!=p and R[i][0]>>j&1: R[i][0]^=R[p][0]; R[i][1]^=R[p][1]
    out=[]
    for j in range(m):
        r=R[piv[j]]; assert r[0]==1<<j
        out.append(([(1,i) for i in range(m) if r[1]>>i&1],j))
    return out
def cert_int(n,m,C):
    off=n-m
    R={i:({j-off:1 for j in c if j>=off},{i:1}) for i,c in enumerate(C)}
    left=set(R); piv=[]
    while left:
        # a pivot ±1 that needs the fewest combinations
        best=None
        cnt={}
        for r in left:
            for j in R[r][0]: cnt.setdefault(j,[]).append(r)
        for j,rs in cnt.items():
            for r in rs:
                if abs(R[r][0][j])==1:
                    key=(len(rs)-1)*(len(R[r][0])-1),len(R[r][1]),len(R[r][0]),j
                    if best is None or key<best[0]: best=(key,r,j)
        _,r,j=best
        piv.append((r,j)); left.discard(r)
        v=R[r][0][j]
        for r2 in cnt[j]:
            if r2==r: continue
            k=R[r2][0][j]//v
            for d in (0,1):
                for c,x in R[r][d].items():
                    y=R[r2][d].get(c,0)-k*x
                    if y: R[r2][d][c]=y
                    else: R[r2][d].pop(c,None)
    return [(sorted((x,i) for i,x in R[r][1].items()),j) for r,j in reversed(piv)]
def nullvec(n,m,C):
    from fractions import Fraction as F
    off=n-m
    A=[[F(1 if off+j in C[i] else 0) for j in range(m)] for i in range(m)]
    pc=[];r=0
    for j in range(m):
        p=next((i for i in range(r,m) if A[i][j]),None)
        if p is None: continue
        A[r],A[p]=A[p],A[r]; A[r]=[x/A[r][j] for x in A[r]]
        for i in range(m):
            if i!=r and A[i][j]: k=A[i][j]; A[i]=[x-k*y for x,y in zip(A[i],A[r])]
        pc.append(j); r+=1
    fr=[j for j in range(m) if j not in pc][0]
    x=[F(0)]*m; x[fr]=F(1)
    for i,j in enumerate(pc): x[j]=-A[i][fr]
    from math import lcm
    d=lcm(*[y.denominator for y in x])
    x=[int(y*d) for y in x]
    assert all(sum(x[j-off] for j in c if j>=off)==0 for c in C)
    return x
def wrap(items,w=150):
    ls=[];cur=''
    for i,s in enumerate(items):
        s=s+(', ' if i<len(items)-1 else '')
        if len(cur)+len(s)>w: ls.append(cur.rstrip()); cur=s
        else: cur+=s
    ls.append(cur.rstrip()); return '[\n  '+'\n  '.join(ls)+']'
def chk(C): return ['[%s]'%', '.join(map(str,c)) for c in C]
def crt(c): return ['([%s], %d)'%(', '.join('(%d, %d)'%e for e in s),j) for s,j in c]
def chunks(name,ty,doc,items,k=60):
    """A long list as the concatenation of short ones (elaboration time)."""
    if len(items)<=k: return '/-- %s -/\ndef %s : %s := %s\n\n'%(doc,name,ty,wrap(items))
    parts=[items[i:i+k] for i in range(0,len(items),k)]; s=''
    for i,x in enumerate(parts): s+='/-- %s Part %d. -/\ndef %s%d : %s := %s\n\n'%(doc,i+1,name,i+1,ty,wrap(x))
    return s+'/-- %s -/\ndef %s : %s :=\n  %s\n\n'%(doc,name,ty,' ++ '.join('%s%d'%(name,i+1) for i in range(len(parts))))
def lean_char(c): return {'\n':"'\\n'",'\t':"'\\t'"}.get(c,"'%s'"%c)
def main():
    os.makedirs(OUT,exist_ok=True)
    head='-- Generated by tools/gen_designs.py from /repo/commpy/channelcoding/designs/ldpc/%s\n'
    for f,name,kind in (('gallager/96.33.964.txt','gallager964','mod2'),('gallager/96.3.963.txt','gallager963','null'),
                   ('wimax/960.720.a.txt','wimax960','int'),('wimax/1440.720.txt','wimax1440','int')):
        t,n,m,C=read(f); imp='import Verif.Lemmas.RowSpan\n'
        s=imp+head%f+'namespace Verif\n\n'
        if len(t)<3000:
            s+='/-- All characters of the design file (designs/ldpc/%s:1-%d). -/\ndef %sText : List Char := %s\n\n'%(f,t.count('\n')+1,name,wrap([lean_char(c) for c in t]))
        s+=chunks(name+'Checks','Checks','The checks listed in the design file (designs/ldpc/%s:%d-%d), columns counted from 0, sorted.'%(f,4+n+1,4+n+m),chk(C))
        if kind=='null': s+='/-- A vector that the last %d columns map to zero. -/\ndef %sNull : List Int := %s\n\n'%(m,name,wrap(list(map(str,nullvec(n,m,C)))))
        else:
            c=cert_mod2(n,m,C) if kind=='mod2' else cert_int(n,m,C)
            print(name,'steps',len(c),'total',sum(len(x) for x,_ in c),'max',max(len(x) for x,_ in c))
            s+=chunks(name+'Cert','List (List (Int × Nat) × Nat)','Certificate that the last %d columns are invertible%s.'%(m,' modulo 2' if kind=='mod2' else ' over the integers'),crt(c))
        s+='end Verif\n'
        open(OUT+name[0].upper()+name[1:]+'.lean','w').write(s)
main()
