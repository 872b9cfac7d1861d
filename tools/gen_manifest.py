#!/usr/bin/env python3
"""Regenerates MANIFEST.json from the theorem names in lean/Verif/Props and the status table below."""
import json,re,glob,os
root=os.path.dirname(os.path.dirname(os.path.abspath(__file__)))
notes=json.load(open(os.path.join(root,'tools','status.json')))
th={}
for f in sorted(glob.glob(root+'/lean/Verif/Props/*.lean')):
    for m in re.finditer(r'^theorem (C\d\d+)(_\w+)',open(f).read(),re.M):
        th.setdefault(m[1],[]).append('Blobd.Props.'+m[1]+m[2])
claims=[]
props=[json.loads(l)['id'] for l in open(root+'/properties.jsonl')]
for p in props:
    if p in th:
        st,note=notes.get(p,['partial',''])
        claims.append({'property':p,'status':st,'theorems':th[p],'note':note})
    elif p in notes:
        st,note=notes[p]; claims.append({'property':p,'status':st,'theorems':[],'note':note})
for p in th:
    if p not in props: print('theorem for unknown property',p)
print('uncovered',[p for p in props if p not in th])
json.dump({'claims':claims},open(root+'/MANIFEST.json','w'),indent=1)
