"""Check that every file:line citation in the Lean model points inside a file of /repo."""
import re, os, sys, glob
repo='/repo'
files=[]
for d,_,fs in os.walk(repo):
    if '/.git' in d: continue
    for f in fs:
        files.append(os.path.relpath(os.path.join(d,f),repo))
lens={}
def n(p):
    if p not in lens: lens[p]=sum(1 for _ in open(os.path.join(repo,p),errors='replace'))
    return lens[p]
bad=0; tot=0
for lf in sorted(glob.glob('/verif/lean/Verif/**/*.lean',recursive=True)):
    txt=open(lf).read()
    for m in re.finditer(r'([\w\-/]+\.(?:rs|ts)):(\d+)(?:-(\d+))?((?:, ?\d+(?:-\d+)?)*)',txt):
        tot+=1
        name=m.group(1)
        nums=[int(x) for x in re.findall(r'\d+',m.group(0)[len(name):])]
        cand=[f for f in files if f==name or f.endswith('/'+name)]
        line=txt[:m.start()].count('\n')+1
        if not cand: print('NOFILE',lf,line,m.group(0)); bad+=1; continue
        ok=[f for f in cand if n(f)>=max(nums)]
        if not ok: print('RANGE',lf,line,m.group(0),[(f,n(f)) for f in cand]); bad+=1
print(tot,'citations',bad,'bad')
