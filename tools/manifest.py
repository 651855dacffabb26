#!/usr/bin/env python3
"""Writes MANIFEST.json from the table below; every theorem named is checked to exist in lean/Verif/Props."""
import json,re,glob
root='/verif'
names=set()
for f in glob.glob(root+'/lean/Verif/Props/*.lean'):
    for m in re.finditer(r'^theorem (\S+)',open(f).read(),re.M): names.add(m.group(1))
T=json.load(open(root+'/tools/claims.json'))
ids=[json.loads(l)['id'] for l in open(root+'/properties.jsonl')]
out=[]
for c in T:
    for t in c['theorems']:
        assert t in names,(c['property'],t)
    out.append(dict(property=c['property'],status=c['status'],theorems=['Jsonutils.Props.'+t for t in c['theorems']],note=c.get('note','')))
have={c['property'] for c in out}
used={t for c in T for t in c['theorems']}
print('missing properties:',[i for i in ids if i not in have])
print('unlisted theorems:',sorted(t for t in names if re.match(r'C\d\d',t) and t not in used))
json.dump({'claims':out},open(root+'/MANIFEST.json','w'),indent=1)
