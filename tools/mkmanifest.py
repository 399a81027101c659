#!/usr/bin/env python3
"""Writes MANIFEST.json from the table below; checks every theorem name exists in lean/."""
import json,re,glob,os
root=os.path.dirname(os.path.dirname(os.path.abspath(__file__)))
names=set()
for f in glob.glob(root+'/lean/Verif/**/*.lean',recursive=True):
    for m in re.finditer(r'^(?:protected )?theorem ([A-Za-z0-9_\'.]+)',open(f).read(),re.M): names.add(m.group(1))
C={}
exec(open(root+'/tools/claims.py').read())
out=[]
for pid in sorted(C):
    status,ths,note=C[pid]
    for t in ths.split():
        assert t in names,(pid,t)
    out.append({"property":pid,"status":status,"theorems":["Schnorrkel.Props."+t for t in ths.split()],"note":note})
ids=[json.loads(l)["id"] for l in open(root+'/properties.jsonl')]
missing=[i for i in ids if i not in C]; extra=[c for c in C if c not in ids]
print("missing",missing,"extra",extra)
json.dump({"claims":out},open(root+'/MANIFEST.json','w'),indent=1)
