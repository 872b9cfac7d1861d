#!/usr/bin/env python3
"""Mutation testing of the model. usage: mutate.py mutations.json
Each entry: {"def","file","old","new","edit","claim"}. Works in a scratch copy /tmp/w/mut; prints, per
mutation, the theorems whose proofs fail; with --log appends to seeded/LOG.jsonl."""
import json,sys,subprocess,os,re,shutil,threading,signal
SC='/tmp/w/mut'
def sync():
    os.makedirs(SC,exist_ok=True)
    subprocess.run(['rsync','-a','--delete','/verif/lean/',SC+'/'],check=False) if shutil.which('rsync') else subprocess.run(f'rm -rf {SC} && cp -a /verif/lean {SC}',shell=True,check=True)
def failing(out):
    res=[]; mods=set()
    for m in re.finditer(r'error: (Verif/\S+\.lean):(\d+):\d+',out):
        f,l=m[1],int(m[2]); mods.add(f)
        L=open(f'{SC}/{f}').read().split('\n')
        name=None
        for i in range(min(l,len(L))-1,-1,-1):
            mm=re.match(r'(?:@\[.*\] )?(?:private )?(theorem|def|example|instance|inductive|structure)\b ?(\S*)',L[i])
            if mm:
                name=(mm[2] if mm[1]!='example' else 'example@%d'%(i+1)); break
        n=f'{f[6:-5]}:{name}'
        if n not in res: res.append(n)
    return res
GRACE=60  # seconds the build goes on after the first failing proof (further failures are listed if found by then)
def build():
    p=subprocess.Popen(['lake','build'],cwd=SC,stdout=subprocess.PIPE,stderr=subprocess.STDOUT,text=True,start_new_session=True)
    t=None; out=[]
    for line in p.stdout:
        out.append(line)
        if t is None and line.startswith('error:'):
            t=threading.Timer(GRACE,lambda:os.killpg(p.pid,signal.SIGTERM)); t.start()
    p.wait()
    if t: t.cancel()
    return (p.returncode or (1 if t else 0)),''.join(out)
def main():
    muts=json.load(open(sys.argv[1])); log='--log' in sys.argv
    sync()
    for m in muts:
        p=f"{SC}/Verif/{m['file']}"
        s=open(p).read()
        if s.count(m['old'])!=1:
            print('!! pattern count',s.count(m['old']),m['def'],m['edit']); continue
        open(p,'w').write(s.replace(m['old'],m['new']))
        rc,out=build()
        fl=failing(out)
        open(p,'w').write(s)
        print('==',m['def'],'|',m['edit'],'->','SURVIVED' if rc==0 else fl,flush=True)
        if log:
            rec={"definition":m['def'],"file":m['file'],"edit":m['edit'],"claim_broken":m['claim'],"theorems_failed":fl,"survived":rc==0,"theorems_tightened":m.get('tightened',[])}
            if rc!=0 or m.get('note'):
                if m.get('note'): rec['note']=m['note']
                open('/verif/seeded/LOG.jsonl','a').write(json.dumps(rec)+'\n')
main()
